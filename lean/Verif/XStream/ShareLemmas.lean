import Verif.XStream.Share
import Verif.XStream.Network
import Verif.XMapReduce.Cut
/-! # A group of readers of one channel is a correct component if each reader is -/
namespace Verif.XStream
open Verif.Conc.Net

variable {α K A L : Type}

theorem Interleaving.range_snoc {k q : Nat} {f : Nat → List A} {out : List A} (h : Interleaving ((List.range k).map f) out) (hq : q < k) (x : A) :
    Interleaving ((List.range k).map (upd f q (f q ++ [x]))) (out ++ [x]) := by
  obtain ⟨l₁, l₂, e⟩ := List.append_of_mem (List.mem_range.2 hq)
  have hnd := (List.nodup_range (n := k))
  rw [e] at hnd h ⊢
  rw [List.nodup_append] at hnd
  obtain ⟨_, h2, h3⟩ := hnd
  have h4 : q ∉ l₂ := (List.nodup_cons.1 h2).1
  have h5 : q ∉ l₁ := fun hm => h3 q hm q (by simp) rfl
  have e1 : l₁.map (upd f q (f q ++ [x])) = l₁.map f := List.map_congr_left fun a ha => upd_of_ne f _ (by rintro rfl; exact h5 ha)
  have e2 : l₂.map (upd f q (f q ++ [x])) = l₂.map f := List.map_congr_left fun a ha => upd_of_ne f _ (by rintro rfl; exact h4 ha)
  rw [List.map_append, List.map_cons, e1, e2, upd_self]
  rw [List.map_append, List.map_cons] at h
  exact h.snoc _ _ _ _ rfl

theorem Interleaving.range_empty (k : Nat) : Interleaving ((List.range k).map fun _ => ([] : List A)) [] := .nil _ (by simp)

/-- What the group has done, in terms of what each reader has done. -/
structure RInv (outs k : Nat) (C : Nat → Comp A L) (s : ((q : Nat) → (C q).σ) × Bool) (h : Hist A L) (hs : Nat → Hist A L) : Prop where
  reach : ∀ q < k, CReach (C q) (s.1 q) (hs q)
  ins : Interleaving ((List.range k).map fun q => (hs q).ins 0) (h.ins 0)
  log : Interleaving ((List.range k).map fun q => (hs q).log) h.log
  sent : ∀ q < outs, h.outs q = (hs q).outs 0
  closed : ∀ q < outs, h.closed q = (hs q).closed 0
  eof : h.eof 0 = s.2
  eofs : ∀ q < k, (hs q).eof 0 = true → s.2 = true

/-- The assumptions about the readers. -/
structure RGood (lim outs k : Nat) (C : Nat → Comp A L) (spec : Nat → (Nat → List A) → (Nat → List A) → List L → Prop) : Prop where
  some : 1 ≤ k
  le : outs ≤ k
  nin : ∀ q < k, (C q).nin = 1
  nout : ∀ q < k, (C q).nout = if q < outs then 1 else 0
  good : ∀ q < k, Good lim (C q) (spec q)

variable {lim outs k : Nat} {C : Nat → Comp A L} {spec : Nat → (Nat → List A) → (Nat → List A) → List L → Prop}

theorem RInv.small (hg : RGood lim outs k C spec) {s : ((q : Nat) → (C q).σ) × Bool} {h : Hist A L} {hs : Nat → Hist A L} (hi : RInv outs k C s h hs)
    (hsm : Small lim (readersC outs k C) h) {q : Nat} (hq : q < k) : Small lim (C q) (hs q) := by
  intro p hp
  rw [hg.nin q hq] at hp
  have : p = 0 := by omega
  subst this
  have h0 := hsm 0 Nat.one_pos
  have := (hi.ins.sublist ((hs q).ins 0) (List.mem_map.2 ⟨q, List.mem_range.2 hq, rfl⟩)).length_le
  omega

theorem small_of_add {C : Comp A L} {h : Hist A L} {l : Lbl A L} (hsm : Small lim C (h.add l)) : Small lim C h := by
  intro p hp
  have := hsm p hp
  cases l with
  | recv p' v =>
    simp only [Hist.add] at this
    by_cases e : p = p'
    · subst e; rw [upd_self, List.length_append] at this; omega
    · rwa [upd_of_ne _ _ e] at this
  | _ => exact this

/-- One step of a reader, and what the group sees of it. -/
theorem rinv_step (hg : RGood lim outs k C spec) {s s' : ((q : Nat) → (C q).σ) × Bool} {h : Hist A L} {hs : Nat → Hist A L} {l : Lbl A L} (hi : RInv outs k C s h hs)
    (hsm : Small lim (readersC outs k C) h) (hst : (readersC outs k C).step s l s') :
    ∃ q < k, ∃ l' t, (C q).step (s.1 q) l' t ∧ s'.1 = Function.update s.1 q t ∧ RInv outs k C s' (h.add l) (upd hs q ((hs q).add l')) ∧
      Legal (readersC outs k C) h l ∧ (l' = l ∨ (∃ p v, l' = .recv p v ∧ l = .recv 0 v) ∨ (∃ p, l' = .eof p ∧ (l = .eof 0 ∨ l = .tau)) ∨
        (∃ p v, l' = .send p v ∧ l = .send q v) ∨ (∃ p, l' = .close p ∧ l = .close q)) := by
  obtain ⟨q, hq, l', t, h1, h2, h3⟩ := hst
  have hleg := (hg.good q hq).safe _ _ _ _ (hi.reach q hq) (hi.small hg hsm hq) h1
  have hreach : ∀ q' < k, CReach (C q') (s'.1 q') (upd hs q ((hs q).add l') q') := by
    intro q' hq'
    rw [h2]
    by_cases e : q' = q
    · subst e
      rw [Function.update_self, upd_self]
      exact .step (hi.reach q' hq') h1
    · rw [Function.update_of_ne e, upd_of_ne _ _ e]
      exact hi.reach q' hq'
  have same : ∀ {X : Type} (g : Hist A L → X), g ((hs q).add l') = g (hs q) → (fun q' => g (upd hs q ((hs q).add l') q')) = fun q' => g (hs q') := by
    intro X g hgq
    funext q'
    by_cases e : q' = q
    · subst e; rw [upd_self, hgq]
    · rw [upd_of_ne _ _ e]
  have changed : ∀ {X : Type} (g : Hist A L → X), (fun q' => g (upd hs q ((hs q).add l') q')) = upd (fun q' => g (hs q')) q (g ((hs q).add l')) := by
    intro X g
    funext q'
    by_cases e : q' = q
    · subst e; rw [upd_self, upd_self]
    · rw [upd_of_ne _ _ e, upd_of_ne _ _ e]
  refine ⟨q, hq, l', t, h1, h2, ?_⟩
  cases l' with
  | recv p v =>
    obtain ⟨rfl, e1, e2⟩ := h3
    have hp := hleg.1
    rw [hg.nin q hq] at hp
    have : p = 0 := by omega
    subst this
    refine ⟨⟨hreach, ?_, ?_, ?_, ?_, ?_, ?_⟩, ⟨Nat.one_pos, by rw [hi.eof, e1]⟩, .inl rfl⟩
    · rw [changed fun x => x.ins 0]
      simpa [Hist.add] using hi.ins.range_snoc hq v
    · rw [same Hist.log rfl]; exact hi.log
    · intro q' hq'
      have := congrFun (same (fun x => x.outs 0) rfl) q'
      exact (hi.sent q' hq').trans this.symm
    · intro q' hq'
      have := congrFun (same (fun x => x.closed 0) rfl) q'
      exact (hi.closed q' hq').trans this.symm
    · show h.eof 0 = s'.2
      rw [hi.eof, e1, e2]
    · intro q' hq' he
      have := congrFun (same (fun x => x.eof 0) rfl) q'
      have := hi.eofs q' hq' (this.symm.trans he)
      rw [e1] at this; simp at this
  | eof p =>
    obtain ⟨e1, rfl⟩ := h3
    have hins : (h.add (if s.2 = true then (.tau : Lbl A L) else .eof 0)).ins = h.ins := by split <;> rfl
    have hlog : (h.add (if s.2 = true then (.tau : Lbl A L) else .eof 0)).log = h.log := by split <;> rfl
    have hou : (h.add (if s.2 = true then (.tau : Lbl A L) else .eof 0)).outs = h.outs := by split <;> rfl
    have hcl : (h.add (if s.2 = true then (.tau : Lbl A L) else .eof 0)).closed = h.closed := by split <;> rfl
    refine ⟨⟨hreach, ?_, ?_, ?_, ?_, ?_, fun _ _ _ => e1⟩, ?_, ?_⟩
    · rw [same (fun x => x.ins 0) rfl, hins]; exact hi.ins
    · rw [same Hist.log rfl, hlog]; exact hi.log
    · intro q' hq'
      rw [hou]
      exact (hi.sent q' hq').trans (congrFun (same (fun x => x.outs 0) rfl) q').symm
    · intro q' hq'
      rw [hcl]
      exact (hi.closed q' hq').trans (congrFun (same (fun x => x.closed 0) rfl) q').symm
    · rw [e1]
      split
      · next e => rw [show (h.add .tau) = h from rfl, hi.eof, e]
      · simp [Hist.add]
    · split
      · trivial
      · next e => exact ⟨Nat.one_pos, by rw [hi.eof]; simpa using e⟩
    · refine .inr (.inr (.inl ⟨p, rfl, ?_⟩))
      split <;> simp
  | send p v =>
    obtain ⟨rfl, e1⟩ := h3
    have hp := hleg.1
    rw [hg.nout q hq] at hp
    have hqo : q < outs := by
      by_contra hc
      rw [if_neg hc] at hp; omega
    rw [if_pos hqo] at hp
    have : p = 0 := by omega
    subst this
    refine ⟨⟨hreach, ?_, ?_, ?_, ?_, ?_, ?_⟩, ⟨hqo, by rw [hi.closed q hqo]; exact hleg.2⟩, .inr (.inr (.inr (.inl ⟨0, v, rfl, rfl⟩)))⟩
    · rw [same (fun x => x.ins 0) rfl]; exact hi.ins
    · rw [same Hist.log rfl]; exact hi.log
    · intro q' hq'
      have hc := congrFun (changed fun x => x.outs 0) q'
      rw [hc]
      by_cases e : q' = q
      · subst e; simp [Hist.add, hi.sent q' hq']
      · rw [upd_of_ne _ _ e, ← hi.sent q' hq']
        simp [Hist.add, upd_of_ne _ _ e]
    · intro q' hq'
      exact (hi.closed q' hq').trans (congrFun (same (fun x => x.closed 0) rfl) q').symm
    · exact hi.eof.trans e1.symm
    · intro q' hq' he
      rw [e1]
      exact hi.eofs q' hq' ((congrFun (same (fun x => x.eof 0) rfl) q').symm.trans he)
  | close p =>
    obtain ⟨rfl, e1⟩ := h3
    have hp := hleg.1
    rw [hg.nout q hq] at hp
    have hqo : q < outs := by
      by_contra hc
      rw [if_neg hc] at hp; omega
    rw [if_pos hqo] at hp
    have : p = 0 := by omega
    subst this
    refine ⟨⟨hreach, ?_, ?_, ?_, ?_, ?_, ?_⟩, ⟨hqo, by rw [hi.closed q hqo]; exact hleg.2⟩, .inr (.inr (.inr (.inr ⟨0, rfl, rfl⟩)))⟩
    · rw [same (fun x => x.ins 0) rfl]; exact hi.ins
    · rw [same Hist.log rfl]; exact hi.log
    · intro q' hq'
      exact (hi.sent q' hq').trans (congrFun (same (fun x => x.outs 0) rfl) q').symm
    · intro q' hq'
      have hc := congrFun (changed fun x => x.closed 0) q'
      rw [hc]
      by_cases e : q' = q
      · subst e; simp [Hist.add]
      · rw [upd_of_ne _ _ e, ← hi.closed q' hq']
        simp [Hist.add, upd_of_ne _ _ e]
    · exact hi.eof.trans e1.symm
    · intro q' hq' he
      rw [e1]
      exact hi.eofs q' hq' ((congrFun (same (fun x => x.eof 0) rfl) q').symm.trans he)
  | log e =>
    obtain ⟨rfl, e1⟩ := h3
    refine ⟨⟨hreach, ?_, ?_, ?_, ?_, ?_, ?_⟩, trivial, .inl rfl⟩
    · rw [same (fun x => x.ins 0) rfl]; exact hi.ins
    · rw [changed Hist.log]
      simpa [Hist.add] using hi.log.range_snoc hq e
    · intro q' hq'
      exact (hi.sent q' hq').trans (congrFun (same (fun x => x.outs 0) rfl) q').symm
    · intro q' hq'
      exact (hi.closed q' hq').trans (congrFun (same (fun x => x.closed 0) rfl) q').symm
    · exact hi.eof.trans e1.symm
    · intro q' hq' he
      rw [e1]
      exact hi.eofs q' hq' ((congrFun (same (fun x => x.eof 0) rfl) q').symm.trans he)
  | tau =>
    obtain ⟨rfl, e1⟩ := h3
    refine ⟨⟨hreach, ?_, ?_, ?_, ?_, ?_, ?_⟩, trivial, .inl rfl⟩
    · rw [same (fun x => x.ins 0) rfl]; exact hi.ins
    · rw [same Hist.log rfl]; exact hi.log
    · intro q' hq'
      exact (hi.sent q' hq').trans (congrFun (same (fun x => x.outs 0) rfl) q').symm
    · intro q' hq'
      exact (hi.closed q' hq').trans (congrFun (same (fun x => x.closed 0) rfl) q').symm
    · exact hi.eof.trans e1.symm
    · intro q' hq' he
      rw [e1]
      exact hi.eofs q' hq' ((congrFun (same (fun x => x.eof 0) rfl) q').symm.trans he)

theorem rinv (hg : RGood lim outs k C spec) {s : (readersC outs k C).σ} {h : Hist A L} (hr : CReach (readersC outs k C) s h)
    (hsm : Small lim (readersC outs k C) h) : ∃ hs, RInv outs k C s h hs := by
  induction hr with
  | init =>
    exact ⟨fun _ => Hist.empty, fun _ _ => .init, Interleaving.range_empty k, Interleaving.range_empty k, fun _ _ => rfl, fun _ _ => rfl, rfl, fun _ _ h => by simp [Hist.empty] at h⟩
  | @step s h l s' hr hst ih =>
    have hsm' := small_of_add hsm
    obtain ⟨hs, hi⟩ := ih hsm'
    obtain ⟨q, hq, l', t, _, _, h3, _⟩ := rinv_step hg hi hsm' hst
    exact ⟨_, h3⟩

/-- A reader's own step that is not a receive is an own step of the group. -/
theorem readers_active (s : (readersC outs k C).σ) {q : Nat} (hq : q < k) (ha : Active (C q) (s.1 q)) : Active (readersC outs k C) s := by
  obtain ⟨l, t, hst, hl⟩ := ha
  cases l with
  | recv p v => simp [Lbl.isOut] at hl
  | eof p => simp [Lbl.isOut] at hl
  | send p v => exact ⟨.send q v, (Function.update s.1 q t, s.2), ⟨q, hq, _, t, hst, rfl, rfl, rfl⟩, rfl⟩
  | close p => exact ⟨.close q, (Function.update s.1 q t, s.2), ⟨q, hq, _, t, hst, rfl, rfl, rfl⟩, rfl⟩
  | log e => exact ⟨.log e, (Function.update s.1 q t, s.2), ⟨q, hq, _, t, hst, rfl, rfl, rfl⟩, rfl⟩
  | tau => exact ⟨.tau, (Function.update s.1 q t, s.2), ⟨q, hq, _, t, hst, rfl, rfl, rfl⟩, rfl⟩

theorem readers_ready (s : (readersC outs k C).σ) {q : Nat} (hq : q < k) (he : s.2 = false) (hr : Ready (C q) (s.1 q) 0) : Ready (readersC outs k C) s 0 := by
  refine ⟨fun v => ?_, ?_⟩
  · obtain ⟨t, hst⟩ := hr.1 v
    exact ⟨(Function.update s.1 q t, false), q, hq, _, t, hst, rfl, rfl, he, rfl⟩
  · obtain ⟨t, hst⟩ := hr.2
    exact ⟨(Function.update s.1 q t, true), q, hq, _, t, hst, rfl, rfl, by simp [he]⟩

theorem sumTo_upd_lt {f : Nat → Nat} {k q x : Nat} (hq : q < k) (hx : x < f q) : sumTo (upd f q x) k < sumTo f k := by
  have := sumTo_one (f := upd f q x) (g := f) hq (fun p _ hne => upd_of_ne f x hne)
  rw [upd_self] at this; omega

theorem sumTo_has {f : Nat → Nat} {k q : Nat} (hq : q < k) : f q ≤ sumTo f k := by
  induction k with
  | zero => omega
  | succ k ih =>
    simp only [sumTo]
    by_cases e : q = k
    · subst e; omega
    · have := ih (by omega); omega

theorem sumTo_upd_le {f : Nat → Nat} {k q x y : Nat} (hq : q < k) (hx : x ≤ f q + y) : sumTo (upd f q x) k ≤ sumTo f k + y := by
  have := sumTo_one (f := upd f q x) (g := f) hq (fun p _ hne => upd_of_ne f x hne)
  rw [upd_self] at this; omega

/-- Every reader's specification holds for its share of the input. -/
def SharedSpec (outs k : Nat) (spec : Nat → (Nat → List A) → (Nat → List A) → List L → Prop) (ins os : Nat → List A) (log : List L) : Prop :=
  ∃ (hs : Nat → Hist A L), Interleaving ((List.range k).map fun q => (hs q).ins 0) (ins 0) ∧ Interleaving ((List.range k).map fun q => (hs q).log) log ∧
    (∀ q < outs, os q = (hs q).outs 0) ∧ ∀ q < k, spec q (hs q).ins (hs q).outs (hs q).log

theorem readers_good (hg : RGood lim outs k C spec) : Good lim (readersC outs k C) (SharedSpec outs k spec) where
  safe := by
    intro s h l s' hr hsm hst
    obtain ⟨hs, hi⟩ := rinv hg hr hsm
    obtain ⟨_, _, _, _, _, _, _, h4, _⟩ := rinv_step hg hi hsm hst
    exact h4
  fin := by
    intro s h hr hsm hd
    obtain ⟨hs, hi⟩ := rinv hg hr hsm
    have hf := fun q (hq : q < k) => (hg.good q hq).fin _ _ (hi.reach q hq) (hi.small hg hsm hq) (hd q hq)
    refine ⟨?_, ?_, hs, hi.ins, hi.log, hi.sent, fun q hq => (hf q hq).2.2⟩
    · intro p hp
      have : p = 0 := Nat.lt_one_iff.1 hp
      subst this
      rw [hi.eof]
      have h0 : 0 < k := hg.some
      exact hi.eofs 0 h0 ((hf 0 h0).1 0 (by rw [hg.nin 0 h0]; omega))
    · intro q hq
      replace hq : q < outs := hq
      rw [hi.closed q hq]
      have hqk := Nat.lt_of_lt_of_le hq hg.le
      exact (hf q hqk).2.1 0 (by rw [hg.nout q hqk, if_pos hq]; omega)
  live := by
    intro s h hr hsm hd
    obtain ⟨hs, hi⟩ := rinv hg hr hsm
    have hex : ∃ q < k, ¬ (C q).done (s.1 q) := by
      by_contra hc
      exact hd fun q hq => by
        by_contra hnd
        exact hc ⟨q, hq, hnd⟩
    obtain ⟨q, hq, hnd⟩ := hex
    rcases (hg.good q hq).live _ _ (hi.reach q hq) (hi.small hg hsm hq) hnd with ha | ⟨p, hp, he, hrd⟩
    · exact .inl (readers_active s hq ha)
    · rw [hg.nin q hq] at hp
      have : p = 0 := by omega
      subst this
      cases e : s.2 with
      | false => exact .inr ⟨0, Nat.one_pos, by rw [hi.eof, e], readers_ready s hq e hrd⟩
      | true =>
        obtain ⟨t, hst⟩ := hrd.2
        exact .inl ⟨.tau, (Function.update s.1 q t, true), ⟨q, hq, _, t, hst, rfl, rfl, by simp [e]⟩, rfl⟩
  accept := by
    intro s h hr hsm p hp he
    have : p = 0 := Nat.lt_one_iff.1 hp
    subst this
    obtain ⟨hs, hi⟩ := rinv hg hr hsm
    have h0 : 0 < k := hg.some
    rw [hi.eof] at he
    have he0 : (hs 0).eof 0 = false := by
      cases e : (hs 0).eof 0 with
      | false => rfl
      | true => have := hi.eofs 0 h0 e; rw [he] at this; simp at this
    rcases (hg.good 0 h0).accept _ _ (hi.reach 0 h0) (hi.small hg hsm h0) 0 (by rw [hg.nin 0 h0]; omega) he0 with h1 | h1
    · exact .inl (readers_ready s h0 he h1)
    · exact .inr (readers_active s h0 h1)
  weight := by
    classical
    have hw : ∀ q, ∃ (x : ((C q).σ → Nat) × (Nat → A → Nat)), q < k → ∀ s h l s', CReach (C q) s h → Small lim (C q) h → (C q).step s l s' →
        match l with
        | .recv p v => x.1 s' ≤ x.1 s + x.2 p v
        | _ => x.1 s' < x.1 s := by
      intro q
      by_cases hq : q < k
      · obtain ⟨W, c, h⟩ := (hg.good q hq).weight
        exact ⟨(W, c), fun _ => h⟩
      · exact ⟨(fun _ => 0, fun _ _ => 0), fun h => absurd h hq⟩
    choose x hx using hw
    refine ⟨fun s => sumTo (fun q => (x q).1 (s.1 q)) k, fun _ v => sumTo (fun q => (x q).2 0 v) k, ?_⟩
    intro s h l s' hr hsm hst
    obtain ⟨hs, hi⟩ := rinv hg hr hsm
    obtain ⟨q, hq, l', t, h1, h2, _, _, h5⟩ := rinv_step hg hi hsm hst
    have hleg := (hg.good q hq).safe _ _ _ _ (hi.reach q hq) (hi.small hg hsm hq) h1
    have h6 := hx q hq _ _ _ _ (hi.reach q hq) (hi.small hg hsm hq) h1
    have e : (fun q' => (x q').1 (s'.1 q')) = upd (fun q' => (x q').1 (s.1 q')) q ((x q).1 t) := by
      funext q'
      rw [h2]
      by_cases e : q' = q
      · subst e; rw [Function.update_self, upd_self]
      · rw [Function.update_of_ne e, upd_of_ne _ _ e]
    have lt : (x q).1 t < (x q).1 (s.1 q) → sumTo (fun q => (x q).1 (s'.1 q)) k < sumTo (fun q => (x q).1 (s.1 q)) k := by
      intro hlt
      rw [e]
      exact sumTo_upd_lt hq hlt
    have le : ∀ v, (x q).1 t ≤ (x q).1 (s.1 q) + (x q).2 0 v → sumTo (fun q => (x q).1 (s'.1 q)) k ≤ sumTo (fun q => (x q).1 (s.1 q)) k + sumTo (fun q => (x q).2 0 v) k := by
      intro v hle
      rw [e]
      exact sumTo_upd_le hq (Nat.le_trans hle (Nat.add_le_add_left (sumTo_has (f := fun q => (x q).2 0 v) hq) _))
    rcases h5 with rfl | ⟨p, v, rfl, rfl⟩ | ⟨p, rfl, h5⟩ | ⟨p, v, rfl, rfl⟩ | ⟨p, rfl, rfl⟩
    · cases l' with
      | recv p v =>
        have hp := hleg.1
        rw [hg.nin q hq] at hp
        have : p = 0 := by omega
        subst this
        exact le v h6
      | _ => exact lt h6
    · have hp := hleg.1
      rw [hg.nin q hq] at hp
      have : p = 0 := by omega
      subst this
      exact le v h6
    · rcases h5 with rfl | rfl
      · exact lt h6
      · exact lt h6
    · exact lt h6
    · exact lt h6

end Verif.XStream
