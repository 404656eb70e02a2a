import Verif.XSync.SharedConcLive
import Verif.XSync.MapConcClear
/-!
# `SharedMap.Clear` when nothing else runs

`SharedMap.Clear` clears the shards one after the other with `Map.Clear`, which must not overlap other operations (C24). Here it is added to the
concurrent `SharedMap`, and histories are considered in which it overlaps nothing (see `MapConcClear.lean`).
-/
namespace Verif.XSync.SharedConc
open Verif.Conc Verif.Go
open Verif.XSync.MapConc (M G Pt ClearOp ClearPt clearStep Blank)
open Verif.XSync.Shared (requested)

variable {V : Type} [DecidableEq V]
set_option linter.unusedSectionVars false

/-! ## Model -/

/-- Points of `Clear` of a `SharedMap` (shared_map.go:164-168). -/
inductive SClearPt where
  /-- before the shard `n`: shared_map.go:165 -/
  | next (n : Nat)
  /-- in `Clear` of the shard `n`: shared_map.go:166 -/
  | inner (n : Nat) (s : ClearPt)

/-- shared_map.go:164-168 `Clear` -/
def sclearStep (m : Shape) (g : Nat → G Bytes V) (i : Nat) (x : ClearOp) (s : SClearPt) (c : Nat) :
    Option ((Nat → G Bytes V) × (SClearPt ⊕ SRes V)) :=
  match s with
  | .next n => if n < m.len then some (g, .inl (.inner n .lock)) else some (g, .inr .unit)
  | .inner n s => match clearStep (g n) (Nat.pair i n) x s c with
    | none => none
    | some (g', .inl s') => some (upd g n g', .inl (.inner n s'))
    | some (g', .inr _) => some (upd g n g', .inl (.next (n + 1)))

/-- The concurrent `SharedMap` with `Clear`. -/
def progC (m : Shape) : Prog (Nat → G Bytes V) (SOp V ⊕ ClearOp) (SRes V) (CPt (MapConc.Op Bytes V) (MapConc.Res Bytes V) (Pt Bytes V) ⊕ SClearPt) :=
  (prog m).withX (fun _ => .next 0) (sclearStep m)

/-! ## Specification -/

/-- `Clear` removes everything. -/
def SDoesClear (_ : M Bytes V) (_ : ClearOp) (r : SRes V) (s' : M Bytes V) : Prop := r = .unit ∧ s' = fun _ => none

/-- An ordinary map with `Clear`. -/
def sharedSpecC : Spec (M Bytes V) (SOp V ⊕ ClearOp) (SRes V) := sharedSpec.withX SDoesClear

/-- An ordinary map with `Clear` on which `ComputeIfPresent` is atomic. -/
def strictSharedC : Spec (M Bytes V) (SOp V ⊕ ClearOp) (SRes V) := strictShared.withX SDoesClear

/-- The effects of a call that has returned `r`. A `Clear` has one effect. -/
def EffectsC (o : SOp V ⊕ ClearOp) (r : SRes V) (l : List ((SOp V ⊕ ClearOp) × SRes V)) : Prop :=
  match o with
  | .inl op => ∃ l', l = l'.map (fun x => (.inl x.1, x.2)) ∧ Effects op r l'
  | .inr x => l = [(.inr x, r)]

/-- The effects of a call that may not have returned. -/
def StartedC (o : SOp V ⊕ ClearOp) (l : List (SOp V ⊕ ClearOp)) : Prop :=
  match o with
  | .inl op => ∃ l', l = l'.map .inl ∧ Started op l'
  | .inr x => l <+: [.inr x]

/-- `L` is an order of the effects (with the number of the call) that explains the history `H`, and `st n` are the contents of the map before
the `n`-th effect. Initially they are `s₀`. -/
structure ExplainsC (s₀ : M Bytes V) (H : List (Ev (SOp V ⊕ ClearOp) (SRes V))) (L : List (Nat × (SOp V ⊕ ClearOp) × SRes V)) (st : Nat → M Bytes V) :
    Prop where
  init : st 0 = s₀
  legal : ∀ n i o r, L[n]? = some (i, o, r) → sharedSpecC.step (st n) o r (st (n + 1))
  order : L.Pairwise fun x y => ¬ Before H y.1 x.1
  invoked : ∀ x ∈ L, ∃ o, Ev.inv x.1 o ∈ H
  started : ∀ i o, Ev.inv i o ∈ H → StartedC o ((L.filter fun x => x.1 = i).map fun x => x.2.1)
  returned : ∀ i o r, Ev.inv i o ∈ H → Ev.ret i r ∈ H → EffectsC o r ((L.filter fun x => x.1 = i).map fun x => x.2)

/-- What a `Range` saw, as in `RangeOk`. -/
def RangeOkC (H : List (Ev (SOp V ⊕ ClearOp) (SRes V))) (L : List (Nat × (SOp V ⊕ ClearOp) × SRes V)) (st : Nat → M Bytes V) : Prop :=
  ∀ i f r, Ev.inv i (.inl (.range f)) ∈ H → Ev.ret i r ∈ H → ∃ l all, r = .visited l all ∧ (l.map (·.1)).Nodup ∧
    (∀ k v, (k, v) ∈ l → ∃ n, During H L i n ∧ st n k = some v) ∧
    (all = true → ∀ k, (∀ n, During H L i n → st n k ≠ none) → ∃ v, (k, v) ∈ l)

/-- What a `ComputeIfPresent` saw, as in `PresentOk`. -/
def PresentOkC (H : List (Ev (SOp V ⊕ ClearOp) (SRes V))) (L : List (Nat × (SOp V ⊕ ClearOp) × SRes V)) (st : Nat → M Bytes V) : Prop :=
  ∀ i k f w v, Ev.inv i (.inl (.computeIfPresent k f)) ∈ H → Ev.ret i (.present (some (w, v))) ∈ H →
    ∃ n n', L[n']? = some (i, .inl (.computeIfPresent k f), .present (some (w, v))) ∧ During H L i n ∧ n ≤ n' ∧ st n k = some w

/-! ## Putting explanations together -/

/-- Proof only: the calls in `H`, one after the other, lead from `s` to `s'`. -/
def CEx (s : M Bytes V) (H : List (Ev (SOp V ⊕ ClearOp) (SRes V))) (s' : M Bytes V) : Prop :=
  ∃ L st, ExplainsC s H L st ∧ st L.length = s' ∧ RangeOkC H L st ∧ PresentOkC H L st

section
variable {s : M Bytes V} {A B : List (Ev (SOp V ⊕ ClearOp) (SRes V))} {L₀ L₁ : List (Nat × (SOp V ⊕ ClearOp) × SRes V)} {st₀ st₁ : Nat → M Bytes V}

theorem filter_none {L : List (Nat × (SOp V ⊕ ClearOp) × SRes V)} {H : List (Ev (SOp V ⊕ ClearOp) (SRes V))} (hL : ∀ x ∈ L, HasInv H x.1) {i : Nat}
    (hi : ¬ HasInv H i) : (L.filter fun x => x.1 = i) = [] := by
  rw [List.filter_eq_nil_iff]
  intro x hx he
  simp only [decide_eq_true_eq] at he
  exact hi (he ▸ hL x hx)

theorem ExplainsC.append (h0 : ExplainsC s A L₀ st₀) (h1 : ExplainsC (st₀ L₀.length) B L₁ st₁) (hd : Apart A B) (hm : Made A) (hmB : Made B) :
    ExplainsC s (A ++ B) (L₀ ++ L₁) (Conc.glue L₀.length st₀ st₁) := by
  have i0 : ∀ x ∈ L₀, HasInv A x.1 := h0.invoked
  have i1 : ∀ x ∈ L₁, HasInv B x.1 := h1.invoked
  refine ⟨?_, ?_, ?_, ?_, ?_, ?_⟩
  · rw [glue_left h1.init (Nat.zero_le _)]; exact h0.init
  · intro n i op r hn
    by_cases hlt : n < L₀.length
    · rw [List.getElem?_append_left hlt] at hn
      rw [glue_left h1.init (by omega), glue_left h1.init (by omega)]
      exact h0.legal n i op r hn
    · obtain ⟨k, rfl⟩ : ∃ k, n = L₀.length + k := ⟨n - L₀.length, by omega⟩
      rw [List.getElem?_append_right (by omega), Nat.add_sub_cancel_left] at hn
      rw [Nat.add_assoc, glue_right, glue_right]
      exact h1.legal k i op r hn
  · rw [List.pairwise_append]
    refine ⟨?_, ?_, ?_⟩
    · refine List.Pairwise.imp_of_mem ?_ h0.order
      intro x y hx _ h hb
      exact h (before_left hb (fun h => hd _ (i0 x hx) h))
    · refine List.Pairwise.imp_of_mem ?_ h1.order
      intro x y _ hy h hb
      exact h (before_right hb (fun h => hd _ (hm _ h) (i1 y hy)))
    · intro x hx y hy
      exact before_cross (fun h => hd _ (hm _ h) (i1 y hy)) (fun h => hd _ (i0 x hx) h)
  · intro x hx
    rw [List.mem_append] at hx
    rcases hx with hx | hx
    · obtain ⟨o, h⟩ := i0 x hx; exact ⟨o, List.mem_append_left _ h⟩
    · obtain ⟨o, h⟩ := i1 x hx; exact ⟨o, List.mem_append_right _ h⟩
  · intro i o hi
    rw [List.filter_append]
    rw [List.mem_append] at hi
    rcases hi with hi | hi
    · rw [filter_none i1 (fun h => hd i ⟨_, hi⟩ h), List.append_nil]; exact h0.started i o hi
    · rw [filter_none i0 (fun h => hd i h ⟨_, hi⟩), List.nil_append]; exact h1.started i o hi
  · intro i o r hi hr
    rw [List.filter_append]
    rw [List.mem_append] at hi hr
    rcases hi with hi | hi
    · have hr : Ev.ret i r ∈ A := hr.elim id (fun h => (hd i ⟨_, hi⟩ (hmB i ⟨_, h⟩)).elim)
      rw [filter_none i1 (fun h => hd i ⟨_, hi⟩ h), List.append_nil]; exact h0.returned i o r hi hr
    · have hr : Ev.ret i r ∈ B := hr.elim (fun h => (hd i (hm i ⟨_, h⟩) ⟨_, hi⟩).elim) id
      rw [filter_none i0 (fun h => hd i h ⟨_, hi⟩), List.nil_append]; exact h1.returned i o r hi hr

theorem explainingC : Explaining (CEx (V := V)) where
  nil s := ⟨[], fun _ => s, ⟨rfl, by simp, by simp, by simp, by simp, by simp⟩, rfl, by intro i f r h; simp at h, by intro i k f w v h; simp at h⟩
  pending s i x := by
    refine ⟨[], fun _ => s, ⟨rfl, by simp, by simp, by simp, ?_, ?_⟩, rfl, by intro i f r h; simp at h, by intro i k f w v h; simp at h⟩
    · intro j o hj
      simp only [List.mem_singleton, Ev.inv.injEq] at hj
      rw [hj.2]
      simp [StartedC]
    · intro j o r _ hr
      simp at hr
  append := by
    rintro s A s₁ B s₂ ⟨L₀, st₀, l1, rfl, r0, p0⟩ ⟨L₁, st₁, l4, rfl, r1, p1⟩ hd hA hB
    have i0 : ∀ x ∈ L₀, HasInv A x.1 := l1.invoked
    have i1 : ∀ x ∈ L₁, HasInv B x.1 := l4.invoked
    refine ⟨_, _, l1.append l4 hd hA hB, by rw [List.length_append, glue_right], ?_, ?_⟩
    · intro i f r hi hr
      rw [List.mem_append] at hi hr
      rcases hi with hi | hi
      · have hr : Ev.ret i r ∈ A := hr.elim id (fun h => (hd i ⟨_, hi⟩ (hB i ⟨_, h⟩)).elim)
        obtain ⟨l, all, a1, a2, a3, a4⟩ := r0 i f r hi hr
        refine ⟨l, all, a1, a2, ?_, ?_⟩
        · intro k v hk
          obtain ⟨n, n1, n2⟩ := a3 k v hk
          exact ⟨n, n1.left i0 i1 hd hA ⟨_, hi⟩, by rw [glue_left l4.init n1.1]; exact n2⟩
        · intro ha k hk
          refine a4 ha k fun n hn => ?_
          have := hk n (hn.left i0 i1 hd hA ⟨_, hi⟩)
          rwa [glue_left l4.init hn.1] at this
      · have hr : Ev.ret i r ∈ B := hr.elim (fun h => (hd i (hA i ⟨_, h⟩) ⟨_, hi⟩).elim) id
        obtain ⟨l, all, a1, a2, a3, a4⟩ := r1 i f r hi hr
        refine ⟨l, all, a1, a2, ?_, ?_⟩
        · intro k v hk
          obtain ⟨n, n1, n2⟩ := a3 k v hk
          exact ⟨_, n1.right i0 i1 hd hA ⟨_, hi⟩, by rw [glue_right]; exact n2⟩
        · intro ha k hk
          refine a4 ha k fun n hn => ?_
          have := hk _ (hn.right i0 i1 hd hA ⟨_, hi⟩)
          rwa [glue_right] at this
    · intro i k f w v hi hr
      rw [List.mem_append] at hi hr
      rcases hi with hi | hi
      · have hr : Ev.ret i _ ∈ A := hr.elim id (fun h => (hd i ⟨_, hi⟩ (hB i ⟨_, h⟩)).elim)
        obtain ⟨n, n', a1, a2, a3, a4⟩ := p0 i k f w v hi hr
        refine ⟨n, n', ?_, a2.left i0 i1 hd hA ⟨_, hi⟩, a3, by rw [glue_left l4.init a2.1]; exact a4⟩
        rw [List.getElem?_append_left (List.getElem?_eq_some_iff.mp a1).1]; exact a1
      · have hr : Ev.ret i _ ∈ B := hr.elim (fun h => (hd i (hA i ⟨_, h⟩) ⟨_, hi⟩).elim) id
        obtain ⟨n, n', a1, a2, a3, a4⟩ := p1 i k f w v hi hr
        refine ⟨_, L₀.length + n', ?_, a2.right i0 i1 hd hA ⟨_, hi⟩, by omega, by rw [glue_right]; exact a4⟩
        rw [List.getElem?_append_right (by omega), Nat.add_sub_cancel_left]; exact a1

end

/-! ## One phase -/

section
variable {m : Shape} {mm : Cf V} {H : List (Ev (SOp V) (SRes V))}

theorem liftL_filter (L : List (Nat × SOp V × SRes V)) (i : Nat) :
    (L.map (liftL (X := ClearOp))).filter (fun x => x.1 = i) = (L.filter fun x => x.1 = i).map liftL := by
  rw [List.filter_map]; rfl

theorem phase {g₀ : Nat → G Bytes V} (h0 : ∀ x, Blank (g₀ x)) (hg : m.Good) (h : ((prog m).from g₀).mach.Exec mm H) :
    ∃ s, CEx (fun _ => none) (H.map liftE) s := by
  obtain ⟨L, st, hX, hR, hP⟩ := explained_from h0 hg h
  refine ⟨_, L.map liftL, st, ⟨hX.init, ?_, ?_, ?_, ?_, ?_⟩, rfl, ?_, ?_⟩
  · intro n i o r hn
    obtain ⟨op, rfl, hn'⟩ := getElem?_liftL.mp hn
    exact hX.legal n i op r hn'
  · rw [List.pairwise_map]
    refine hX.order.imp ?_
    intro x y hxy hb
    exact hxy (before_liftE.mp hb)
  · intro x hx
    obtain ⟨y, hy, rfl⟩ := List.mem_map.mp hx
    obtain ⟨op, ho⟩ := hX.invoked y hy
    exact ⟨_, mem_liftE_inv.mpr ⟨op, rfl, ho⟩⟩
  · intro i o hi
    obtain ⟨op, rfl, hi'⟩ := mem_liftE_inv.mp hi
    refine ⟨_, ?_, hX.started i op hi'⟩
    rw [liftL_filter, List.map_map, List.map_map]; rfl
  · intro i o r hi hr
    obtain ⟨op, rfl, hi'⟩ := mem_liftE_inv.mp hi
    refine ⟨_, ?_, hX.returned i op r hi' (mem_liftE_ret.mp hr)⟩
    rw [liftL_filter, List.map_map, List.map_map]; rfl
  · intro i f r hi hr
    obtain ⟨op, e, hi'⟩ := mem_liftE_inv.mp hi
    simp only [Sum.inl.injEq] at e
    subst e
    obtain ⟨l, all, a1, a2, a3, a4⟩ := hR i f r hi' (mem_liftE_ret.mp hr)
    refine ⟨l, all, a1, a2, ?_, ?_⟩
    · intro k v hk
      obtain ⟨n, n1, n2⟩ := a3 k v hk
      exact ⟨n, during_liftL.mpr n1, n2⟩
    · intro ha k hk
      exact a4 ha k fun n hn => hk n (during_liftL.mpr hn)
  · intro i k f w v hi hr
    obtain ⟨op, e, hi'⟩ := mem_liftE_inv.mp hi
    simp only [Sum.inl.injEq] at e
    subst e
    obtain ⟨n, n', a1, a2, a3, a4⟩ := hP i k f w v hi' (mem_liftE_ret.mp hr)
    exact ⟨n, n', getElem?_liftL.mpr ⟨_, rfl, a1⟩, during_liftL.mpr a2, a3, a4⟩

theorem next_lt (hg : m.Good) {op : SOp V} {tr : Tr V} {o : Nat × BOp V} (h : m.next op tr = .inl o) : o.1 < m.len := by
  have := next_inl h
  cases op with
  | mstore data => obtain ⟨k, v, -, rfl⟩ := this; exact hg.index k
  | range f => obtain ⟨rfl, h'⟩ := this; exact h'
  | _ => obtain ⟨k, b, -, rfl, -⟩ := this; exact hg.index k

/-- There are no calls of shards that do not exist. -/
theorem outside {g₀ : Nat → G Bytes V} (hg : m.Good) (h : ((prog m).from g₀).mach.Exec mm H) :
    (∀ x, m.len ≤ x → mm.g x = g₀ x) ∧ ∀ i op tr o s, mm.pc i = .at op (.inner tr o s) → o.1 < m.len := by
  induction h with
  | init => exact ⟨fun _ _ => rfl, fun i op tr o s h => by simp [Prog.mach] at h⟩
  | @tau mm mm' H hE hs ih =>
    obtain ⟨ih1, ih2⟩ := ih
    cases hs with
    | run j c _ _ he =>
      simp only [Prog.mach] at he
      split at he
      · simp at he
      · rename_i op s hpc
        have keep : ∀ (p : Proc (SOp V) (SRes V) (CPt (BOp V) (BRes V) (Pt Bytes V))), (∀ op tr o s, p = .at op (.inner tr o s) → o.1 < m.len) →
            ∀ i op tr o s, upd mm.pc j p i = .at op (.inner tr o s) → o.1 < m.len := by
          intro p hp i op tr o s h
          by_cases hij : i = j
          · subst hij; rw [upd_same] at h; exact hp _ _ _ _ h
          · rw [upd_ne _ _ hij] at h; exact ih2 _ _ _ _ _ h
        simp only [Prog.from, prog, Client.prog, client] at he
        cases s with
        | between tr =>
          simp only at he
          cases hn : m.next op tr with
          | inl o =>
            simp only [hn, Option.some.injEq, Prod.mk.injEq, true_and] at he
            subst he
            refine ⟨ih1, keep _ ?_⟩
            intro op' tr' o' s' h
            simp only [Proc.at.injEq, CPt.inner.injEq] at h
            rw [← h.2.2.1]; exact next_lt hg hn
          | inr r =>
            simp only [hn, Option.some.injEq, Prod.mk.injEq, true_and] at he
            subst he
            exact ⟨ih1, keep _ (by simp)⟩
        | inner tr o s =>
          simp only at he
          have ho := ih2 _ _ _ _ _ hpc
          have hup : ∀ (g' : G Bytes V) x, m.len ≤ x → upd mm.g o.1 g' x = g₀ x := by
            intro g' x hx
            rw [upd_ne _ _ (by omega)]; exact ih1 x hx
          cases hst : MapConc.prog.step (mm.g o.1) (Nat.pair j tr.length) o.2 s c with
          | none => simp [hst] at he
          | some y =>
            obtain ⟨g', y⟩ := y
            cases y with
            | inl s' =>
              simp only [hst, Option.some.injEq, Prod.mk.injEq, true_and] at he
              subst he
              refine ⟨hup g', keep _ ?_⟩
              intro op' tr' o' s' h
              simp only [Proc.at.injEq, CPt.inner.injEq] at h
              rw [← h.2.2.1]; exact ho
            | inr r =>
              simp only [hst, Option.some.injEq, Prod.mk.injEq, true_and] at he
              subst he
              exact ⟨hup g', keep _ (by simp)⟩
      · simp at he
      · simp at he
  | @ev mm mm' H e hE hs ih =>
    obtain ⟨ih1, ih2⟩ := ih
    cases hs with
    | inv j op _ he =>
      simp only [Prog.mach] at he
      split at he
      · simp only [Option.some.injEq] at he
        subst he
        refine ⟨ih1, ?_⟩
        intro i op' tr o s h
        by_cases hij : i = j
        · subst hij; simp [Prog.from, prog, Client.prog] at h
        · simp only [upd_ne _ _ hij] at h; exact ih2 _ _ _ _ _ h
      · simp at he
    | run j c _ _ he =>
      simp only [Prog.mach] at he
      split at he
      · simp at he
      · split at he <;> simp at he
      · simp only [Option.some.injEq, Prod.mk.injEq] at he
        obtain ⟨-, rfl⟩ := he
        refine ⟨ih1, ?_⟩
        intro i op' tr o s h
        by_cases hij : i = j
        · subst hij; simp at h
        · simp only [upd_ne _ _ hij] at h; exact ih2 _ _ _ _ _ h
      · simp at he

/-- Nobody holds a lock when nothing runs. -/
theorem quiet_mu {g₀ : Nat → G Bytes V} (h0 : ∀ x, Blank (g₀ x)) (h : ((prog m).from g₀).mach.Exec mm H) (hq : mm.Quiet) (x : Nat) :
    (mm.g x).mu = none ∧ ∀ e, (mm.g x).next ≤ e → (mm.g x).key e = none := by
  obtain ⟨vx, gx, hI, -, h2⟩ := shards_from h0 h x
  refine ⟨?_, hI.fresh⟩
  cases hm : (mm.g x).mu with
  | none => rfl
  | some j =>
    obtain ⟨o, s, h3, -⟩ := hI.muIn j hm
    obtain ⟨i, op, tr, -, hp⟩ := h2 j o s h3
    rcases hq i with h | ⟨o, r, h⟩ <;> simp [h] at hp

/-- `Clear` has run alone up to a point. -/
structure Clearing (m : Shape) (g g' : Nat → G Bytes V) (i : Nat) (y : SClearPt ⊕ SRes V) : Prop where
  blank : ∀ x, (match y with | .inl (.next n) | .inl (.inner n _) => x < n | .inr _ => x < m.len) → Blank (g' x)
  same : ∀ x, (match y with | .inl (.next n) => n ≤ x | .inl (.inner n _) => n < x | .inr _ => m.len ≤ x) → g' x = g x
  here : ∀ n s, y = .inl (.inner n s) → n < m.len ∧ XRun (fun _ : ClearOp => ClearPt.lock) clearStep (g n) (Nat.pair i n) .clear (g' n) (.inl s)
  le : ∀ n, y = .inl (.next n) → n ≤ m.len
  res : ∀ r, y = .inr r → r = .unit

theorem clearing {g g' : Nat → G Bytes V} {i : Nat} {x : ClearOp} {y : SClearPt ⊕ SRes V} (hm : ∀ x, (g x).mu = none)
    (hf : ∀ x e, (g x).next ≤ e → (g x).key e = none)
    (h : XRun (fun _ => SClearPt.next 0) (sclearStep m) g i x g' y) : Clearing m g g' i y := by
  induction h with
  | start => exact ⟨by simp, fun _ _ => rfl, by simp, by simp, by simp⟩
  | @step g' g'' t c y h1 hst ih =>
    cases t with
    | next n =>
      simp only [sclearStep] at hst
      split at hst
      · rename_i hlt
        simp only [Option.some.injEq, Prod.mk.injEq] at hst
        obtain ⟨rfl, rfl⟩ := hst
        refine ⟨ih.blank, fun x hx => ih.same x (by simp only at hx ⊢; omega), ?_, by simp, by simp⟩
        intro n' s he
        simp only [Sum.inl.injEq, SClearPt.inner.injEq] at he
        obtain ⟨rfl, rfl⟩ := he
        rw [ih.same n (by simp)]
        exact ⟨hlt, .start⟩
      · rename_i hlt
        simp only [Option.some.injEq, Prod.mk.injEq] at hst
        obtain ⟨rfl, rfl⟩ := hst
        have hle := ih.le n rfl
        have : n = m.len := by omega
        subst this
        exact ⟨ih.blank, ih.same, by simp, by simp, by simp⟩
    | inner n s =>
      obtain ⟨hlt, hrun⟩ := ih.here n s rfl
      simp only [sclearStep] at hst
      cases x
      cases hc : clearStep (g' n) (Nat.pair i n) .clear s c with
      | none => simp [hc] at hst
      | some z =>
        obtain ⟨gn, z⟩ := z
        have hz := XRun.step hrun hc
        cases z with
        | inl s' =>
          simp only [hc, Option.some.injEq, Prod.mk.injEq] at hst
          obtain ⟨rfl, rfl⟩ := hst
          refine ⟨?_, ?_, ?_, by simp, by simp⟩
          · intro x hx
            simp only at hx
            rw [upd_ne _ _ (by omega)]; exact ih.blank x hx
          · intro x hx
            simp only at hx
            rw [upd_ne _ _ (by omega)]; exact ih.same x hx
          · intro n' s'' he
            simp only [Sum.inl.injEq, SClearPt.inner.injEq] at he
            obtain ⟨rfl, rfl⟩ := he
            rw [upd_same]
            exact ⟨hlt, hz⟩
        | inr r =>
          simp only [hc, Option.some.injEq, Prod.mk.injEq] at hst
          obtain ⟨rfl, rfl⟩ := hst
          have hC := MapConc.clearing (hm n) hz
          refine ⟨?_, ?_, by simp, by simp; omega, by simp⟩
          · intro x hx
            simp only at hx
            by_cases hxn : x = n
            · subst hxn
              rw [upd_same]
              exact ⟨hC.mu, (hC.read trivial).1, (hC.read trivial).2, hC.dirty trivial, by rw [hC.next, hC.key]; exact hf x⟩
            · rw [upd_ne _ _ hxn]; exact ih.blank x (by simp only; omega)
          · intro x hx
            simp only at hx
            rw [upd_ne _ _ (by omega)]; exact ih.same x (by simp only; omega)

theorem clear_blank (hg : m.Good) {g₀ : Nat → G Bytes V} {i : Nat} {x : ClearOp} {g' : Nat → G Bytes V} {r : SRes V} (h0 : ∀ x, Blank (g₀ x))
    (h : ((prog m).from g₀).mach.Exec mm H) (hq : mm.Quiet) (hx : XRun (fun _ => SClearPt.next 0) (sclearStep m) mm.g i x g' (.inr r)) :
    (∀ x, Blank (g' x)) ∧ r = .unit := by
  have hc := clearing (fun x => (quiet_mu h0 h hq x).1) (fun x => (quiet_mu h0 h hq x).2) hx
  refine ⟨fun x => ?_, hc.res r rfl⟩
  rcases Nat.lt_or_ge x m.len with hlt | hge
  · exact hc.blank x hlt
  · rw [hc.same x hge, (outside hg h).1 x hge]; exact h0 x

theorem clear_ex (s : M Bytes V) (i : Nat) (x : ClearOp) :
    CEx s [.inv i (.inr x), .ret i .unit] (fun _ => none) := by
  refine ⟨[(i, .inr x, .unit)], fun n => if n = 0 then s else fun _ => none, ⟨by simp, ?_, by simp, by simp, ?_, ?_⟩, by simp,
    by intro i f r h; simp at h, by intro i k f w v h; simp at h⟩
  · intro n k o q hn
    cases n with
    | zero =>
      simp only [List.getElem?_cons_zero, Option.some.injEq, Prod.mk.injEq] at hn
      obtain ⟨rfl, rfl, rfl⟩ := hn
      exact ⟨rfl, rfl⟩
    | succ n => simp at hn
  · intro j o hj
    simp only [List.mem_cons, Ev.inv.injEq, reduceCtorEq, List.not_mem_nil, or_false] at hj
    obtain ⟨rfl, rfl⟩ := hj
    simp [StartedC]
  · intro j o r hj hr
    simp only [List.mem_cons, Ev.inv.injEq, Ev.ret.injEq, reduceCtorEq, List.not_mem_nil, or_false, false_or] at hj hr
    obtain ⟨rfl, rfl⟩ := hj
    simp [EffectsC, hr.2]

end

/-- Abbreviation. -/
abbrev CfC (V : Type) := Conf (Nat → G Bytes V) (SOp V ⊕ ClearOp) (SRes V) (CPt (BOp V) (BRes V) (Pt Bytes V) ⊕ SClearPt)

variable {opts : List Int} {m : Shape} {mm : CfC V} {H : List (Ev (SOp V ⊕ ClearOp) (SRes V))}

theorem explainedC (hg : m.Good) (h : (progC m).mach.Exec mm H) (hx : Exclusive H) :
    ∃ L st, ExplainsC (fun _ => none) H L st ∧ RangeOkC H L st ∧ PresentOkC H L st := by
  obtain ⟨s, L, st, a1, -, a3, a4⟩ := exclusive_explained (P := prog m) (Ex := CEx) (abs := fun _ => fun _ => none) (Ok := fun g => ∀ x, Blank (g x))
    explainingC (fun _ => MapConc.blank_zero) (fun g₀ m₁ H₁ h0 hE => phase h0 hg hE)
    (fun g₀ m₁ H₁ i x g' r h0 hE hq hx => by
      obtain ⟨b1, rfl⟩ := clear_blank hg h0 hE hq hx
      exact ⟨b1, fun s => clear_ex s i x⟩) h hx
  exact ⟨L, st, a1, a3, a4⟩

theorem ExplainsC.linearizable {L : List (Nat × (SOp V ⊕ ClearOp) × SRes V)} {st : Nat → M Bytes V} (hX : ExplainsC (fun _ => none) H L st)
    (hk : ∀ i op, Ev.inv i (.inl op) ∈ H → op.OneKey ∧ ∀ k f, op ≠ .computeIfPresent k f) (hr : ∀ i r, Ev.ret i r ∈ H → ∃ op, Ev.inv i op ∈ H) :
    Linearization strictSharedC H L st := by
  have hone : ∀ {i : Nat} {o : SOp V ⊕ ClearOp}, Ev.inv i o ∈ H → ∀ l, StartedC o l → l <+: [o] := by
    intro i o ho l hl
    cases o with
    | inr x => exact hl
    | inl op =>
      obtain ⟨l', rfl, hl⟩ := hl
      have h1 := (hk i op ho).1
      have h2 : l' <+: [op] := by cases op <;> first | exact hl | exact absurd h1 id
      exact h2.map Sum.inl
  have hinv : ∀ x ∈ L, Ev.inv x.1 x.2.1 ∈ H := by
    intro x hx
    obtain ⟨op, ho⟩ := hX.invoked x hx
    have h1 := hone ho _ (hX.started _ _ ho)
    have h2 : x.2.1 ∈ [op] := h1.subset (List.mem_map.mpr ⟨x, List.mem_filter.mpr ⟨hx, by simp⟩, rfl⟩)
    rw [List.mem_singleton] at h2
    rw [h2]; exact ho
  refine ⟨?_, hinv, ?_, hX.init, ?_, hX.order⟩
  · rw [List.nodup_iff_count_le_one]
    intro i
    by_cases hm : i ∈ L.map (·.1)
    · obtain ⟨x, hx, rfl⟩ := List.mem_map.mp hm
      have ho := hinv x hx
      have h1 := (hone ho _ (hX.started _ _ ho)).length_le
      rw [List.length_map, List.length_singleton] at h1
      rw [List.count_eq_countP, List.countP_map, List.countP_eq_length_filter]
      refine Nat.le_trans (Nat.le_of_eq ?_) h1
      congr 1
    · rw [List.count_eq_zero_of_not_mem hm]; omega
  · intro i r hret
    obtain ⟨o, ho⟩ := hr i r hret
    have he := hX.returned i o r ho hret
    have h1 : (L.filter fun x => x.1 = i).map (fun x => x.2) = [(o, r)] := by
      cases o with
      | inr x => exact he
      | inl op =>
        obtain ⟨l', hl, he⟩ := he
        have h1 := (hk i op ho).1
        have h2 : l' = [(op, r)] := by cases op <;> first | exact he | exact absurd h1 id
        rw [hl, h2]; rfl
    have h2 : (o, r) ∈ (L.filter fun x => x.1 = i).map fun x => x.2 := by rw [h1]; simp
    obtain ⟨⟨j, y⟩, hy, rfl⟩ := List.mem_map.mp h2
    simp only [List.mem_filter, decide_eq_true_eq] at hy
    obtain ⟨hy, rfl⟩ := hy
    exact ⟨_, hy⟩
  · intro n i o r hn
    have := hX.legal n i o r hn
    cases o with
    | inr x => exact this
    | inl op =>
      refine ⟨this, ?_⟩
      rintro k f w v rfl
      exact absurd rfl ((hk _ _ (hinv _ (List.mem_of_getElem? hn))).2 k f)

/-! ## Properties -/

/-- `n` steps of the call `i`. -/
def runsC (n i : Nat) : List (Act (SOp Nat ⊕ ClearOp)) := List.replicate n (.run i 0)

/-- Keys of two shards are stored, `Clear` runs alone, and then nothing is there. -/
def clearedHist : List (Ev (SOp Nat ⊕ ClearOp) (SRes Nat)) :=
  [.inv 1 (.inl (.store [97] 5)), .inv 2 (.inl (.store [98] 6)), .ret 2 .unit, .ret 1 .unit, .inv 3 (.inr .clear), .ret 3 .unit,
   .inv 4 (.inl (.has [98])), .ret 4 (.bool false), .inv 5 (.inl (.loadOrStore [97] 7)), .ret 5 (.bool true)]

theorem demoClear : ∃ mm, (progC (V := Nat) two).mach.Exec mm clearedHist :=
  Mach.exists_exec _ ([.inv 1 (.inl (.store [97] 5)), .inv 2 (.inl (.store [98] 6))] ++ runsC 3 1 ++ runsC 11 2 ++ runsC 8 1 ++
    [.inv 3 (.inr .clear)] ++ runsC 14 3 ++ [.inv 4 (.inl (.has [98]))] ++ runsC 4 4 ++ [.inv 5 (.inl (.loadOrStore [97] 7))] ++ runsC 11 5) _ rfl

theorem demoExclusive : Exclusive clearedHist := by
  intro i x j o hi hj hne
  simp only [clearedHist, List.mem_cons, Ev.inv.injEq, reduceCtorEq, List.not_mem_nil, or_false, false_or, and_false, or_self] at hi
  obtain ⟨rfl, hi⟩ := hi
  simp only [clearedHist, List.mem_cons, Ev.inv.injEq, reduceCtorEq, List.not_mem_nil, or_false, false_or] at hj
  rcases hj with h | h | h | h | h <;> obtain ⟨rfl, rfl⟩ := h
  · right; exact ⟨List.take 4 _, List.drop 4 _, .unit, .inr x, (List.take_append_drop 4 _).symm, by simp [clearedHist], by simp [clearedHist, hi]⟩
  · right; exact ⟨List.take 4 _, List.drop 4 _, .unit, .inr x, (List.take_append_drop 4 _).symm, by simp [clearedHist], by simp [clearedHist, hi]⟩
  · exact absurd rfl hne
  · left; exact ⟨List.take 6 _, List.drop 6 _, .unit, _, (List.take_append_drop 6 _).symm, by simp [clearedHist], by simp [clearedHist]; rfl⟩
  · left; exact ⟨List.take 6 _, List.drop 6 _, .unit, _, (List.take_append_drop 6 _).symm, by simp [clearedHist], by simp [clearedHist]; rfl⟩

/-- **C105.** If no `Clear` overlaps another call, every concurrent history of `Load`, `Has`, `Store`, `LoadOrStore`, `ComputeIfAbsent`,
`Delete` and `Clear` on a `SharedMap` is linearizable with respect to an ordinary map on which `Clear` removes everything, for every shard
count from 1 to 2^31. -/
theorem C105_clear_linearizable (h1 : 1 ≤ requested opts) (h2 : requested opts ≤ 2^31) (hm : newShape opts = some m) (h : (progC m).mach.Exec mm H)
    (hx : Exclusive H) (hk : ∀ i op, Ev.inv i (.inl op) ∈ H → op.OneKey ∧ ∀ k f, op ≠ .computeIfPresent k f) : Linearizable strictSharedC H := by
  obtain ⟨L, st, hX, -⟩ := explainedC (shape_good h1 h2 hm) h hx
  refine (hX.linearizable hk ?_).linearizable
  intro i r hr
  obtain ⟨op, ho⟩ := ((progC m).hist h).2 i r hr
  exact ⟨op, (((progC m).hist h).1 i op).mpr ⟨_, ho⟩⟩

example : Linearizable strictSharedC clearedHist :=
  demoClear.elim fun _ h => C105_clear_linearizable (opts := [2]) (by decide) (by decide) rfl h demoExclusive (by
    intro i op hi
    simp only [clearedHist, List.mem_cons, Ev.inv.injEq, reduceCtorEq, List.not_mem_nil, or_false, false_or, Sum.inl.injEq, and_false] at hi
    rcases hi with ⟨_, rfl⟩ | ⟨_, rfl⟩ | ⟨_, rfl⟩ | ⟨_, rfl⟩ <;> exact ⟨trivial, by simp⟩)

/-- **C105.** With `MStore`, `Range` and `ComputeIfPresent`: there is an explanation as in C88, in which a `Clear` removes everything at one
instant of the call. -/
theorem C105_clear_effects (h1 : 1 ≤ requested opts) (h2 : requested opts ≤ 2^31) (hm : newShape opts = some m) (h : (progC m).mach.Exec mm H)
    (hx : Exclusive H) : ∃ L st, ExplainsC (fun _ => none) H L st ∧ RangeOkC H L st ∧ PresentOkC H L st :=
  explainedC (shape_good h1 h2 hm) h hx

example := demoClear.elim fun _ h => C105_clear_effects (opts := [2]) (by decide) (by decide) rfl h demoExclusive

/-- **C105.** No operation panics. -/
theorem C105_clear_no_panic (h1 : 1 ≤ requested opts) (h2 : requested opts ≤ 2^31) (hm : newShape opts = some m) (h : (progC m).mach.Exec mm H)
    (hx : Exclusive H) {i : Nat} {r : SRes V} (hr : Ev.ret i r ∈ H) : r ≠ .panic := by
  obtain ⟨L, st, hX, hR, -⟩ := explainedC (shape_good h1 h2 hm) h hx
  obtain ⟨o, ho⟩ := ((progC m).hist h).2 i r hr
  have hi := (((progC m).hist h).1 i o).mpr ⟨_, ho⟩
  have he := hX.returned i o r hi hr
  have key : (L.filter fun x => x.1 = i).map (fun x => x.2) = [(o, r)] → (∀ f, o ≠ .inl (.range f)) → r ≠ .panic := by
    intro h1 hnr
    have h2 : (o, r) ∈ (L.filter fun x => x.1 = i).map fun x => x.2 := by rw [h1]; simp
    obtain ⟨⟨j, y⟩, hy, rfl⟩ := List.mem_map.mp h2
    obtain ⟨n, hn⟩ := List.getElem?_of_mem (List.mem_of_mem_filter hy)
    have hl := hX.legal n _ _ _ hn
    rintro rfl
    generalize st (n + 1) = s at hl
    cases o with
    | inr x => have := hl.1; simp at this
    | inl op =>
      have hl : SDoes _ op _ _ := hl
      cases hl
      exact hnr _ rfl
  cases o with
  | inr x => exact key he (by simp)
  | inl op =>
    obtain ⟨l', hl', he⟩ := he
    have one : l' = [(op, r)] → (∀ f, op ≠ .range f) → r ≠ .panic := fun e hn => key (by rw [hl', e]; rfl) (fun f h => hn f (by simpa using h))
    cases op with
    | mstore data => rw [he.1]; simp
    | range f =>
      obtain ⟨l, all, rfl, -⟩ := hR i f r hi hr
      simp
    | _ => exact one he (by simp)

example : (SRes.bool false : SRes Nat) ≠ .panic :=
  demoClear.elim fun _ h => C105_clear_no_panic (opts := [2]) (by decide) (by decide) rfl h demoExclusive (i := 4) (by simp [clearedHist])

/-- **C105.** A `Clear` that has been called is never blocked: it takes its next step whenever it is scheduled. -/
theorem C105_clear_runs (h1 : 1 ≤ requested opts) (h2 : requested opts ≤ 2^31) (hm : newShape opts = some m) (h : (progC m).mach.Exec mm H)
    (hx : Exclusive H) {i : Nat} (hi : Ev.inv i (.inr .clear) ∈ H) (hr : ∀ r, Ev.ret i r ∉ H) (c : Nat) :
    ∃ l mm', (progC m).mach.next mm i c = some (l, mm') := by
  have hg := shape_good h1 h2 hm
  rcases (progC m).pending h hi hr with ⟨s, hs⟩ | ⟨r, hs⟩
  · cases pinv (P := prog m) (Ex := fun _ _ _ => True) (abs := fun _ => ()) (Ok := fun g => ∀ x, Blank (g x)) ⟨by simp, by simp, by simp⟩
      (fun _ => MapConc.blank_zero) (by simp) (fun g₀ m₁ H₁ i x g' r h0 h hq hx => ⟨(clear_blank hg h0 h hq hx).1, by simp⟩) h hx with
    | normal H₀ g₀ H₁ m₁ hN hg hH =>
      exfalso
      by_cases h0 : HasInv H₀ i
      · obtain ⟨_, _, hd⟩ := hN.past.done i h0; rw [hs] at hd; simp at hd
      · have := hN.new i h0 (by simp)
        rw [hs] at this
        cases hp : m₁.pc i <;> simp [hp, Proc.liftX] at this
    | alone H₀ g₀ H₁ m₁ j x y hN hq hj hidle hrun hpi hH =>
      have hij : i = j := by
        by_contra hne
        by_cases h0 : HasInv H₀ i
        · obtain ⟨_, _, hd⟩ := hN.past.done i h0; rw [hs] at hd; simp at hd
        · have := hN.new i h0 (by simpa using fun h => hne h.symm)
          rw [hs] at this
          cases hp : m₁.pc i <;> simp [hp, Proc.liftX] at this
      subst hij
      have hqm := fun x => quiet_mu hN.past.ok hN.exec hq x
      have hc := clearing (fun x => (hqm x).1) (fun x => (hqm x).2) hrun
      cases y with
      | inr r => simp only at hpi; rw [hs] at hpi; simp at hpi
      | inl t =>
        simp only at hpi
        cases t with
        | next n =>
          by_cases hn : n < m.len <;> simp [progC, Prog.mach, Prog.withX, hpi, sclearStep, hn]
        | inner n t =>
          have hmu := (MapConc.clearing (hqm n).1 (hc.here n t rfl).2).mu
          cases t <;> simp only at hmu <;> simp [progC, Prog.mach, Prog.withX, hpi, sclearStep, clearStep, hmu]
  · simp [Prog.mach, hs]

/-- A pending `Clear`, in the second shard. -/
theorem demoPending : ∃ mm, (progC (V := Nat) two).mach.Exec mm [.inv 1 (.inr .clear)] :=
  Mach.exists_exec _ ([.inv 1 (.inr .clear)] ++ runsC 8 1) _ rfl

example : ∃ mm l mm', (progC (V := Nat) two).mach.Exec mm [.inv 1 (.inr .clear)] ∧ (progC two).mach.next mm 1 0 = some (l, mm') := by
  obtain ⟨mm, h⟩ := demoPending
  obtain ⟨l, mm', h'⟩ := C105_clear_runs (opts := [2]) (by decide) (by decide) rfl h (fun i x j o hi hj hne => by
    simp only [List.mem_singleton, Ev.inv.injEq] at hi hj; exact absurd (hj.1.trans hi.1.symm) hne) (i := 1) (by simp) (by simp) 0
  exact ⟨mm, l, mm', h, h'⟩

end Verif.XSync.SharedConc
