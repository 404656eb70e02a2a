import Verif.Conc.Family
import Mathlib.Data.Nat.Pairing
/-!
# Calls that consist of calls of other objects

A `Client` describes operations that are carried out by calls of the objects of a family, one after the other: `next op tr` is the next
call of an object, or the result, after the calls and results `tr`. The call `i` of the client makes the calls `Nat.pair i 0`, `Nat.pair i 1`,
... of the objects. `Client.decompose`: behind every execution of the client there is an execution of the family of objects, in which the
calls of the objects lie inside the calls of the client.
-/
namespace Verif.Conc

variable {σ G Op Res Op' Res' S' : Type}

/-- General machinery, no code of /repo: a program that is written in terms of calls of other objects (used for shared_map.go:69-168, whose methods call those of the shards). -/
structure Client (Op' Res' Op Res : Type) where
  next : Op' → List ((Nat × Op) × Res) → (Nat × Op) ⊕ Res'

/-- Local points of a call of the client: between two calls of objects, or inside one. -/
inductive CPt (Op Res S' : Type) where
  | between (tr : List ((Nat × Op) × Res))
  | inner (tr : List ((Nat × Op) × Res)) (o : Nat × Op) (s : S')

/-- General machinery, no code of /repo: the program of a client, a step of which is a step of the call of the other object it is in. -/
def Client.prog (C : Client Op' Res' Op Res) (P : Prog G Op Res S') : Prog (Nat → G) Op' Res' (CPt Op Res S') where
  init := fun _ => P.init
  begin _ := .between []
  step g i op s c := match s with
    | .between tr => match C.next op tr with
      | .inl o => some (g, .inl (.inner tr o (P.begin o.2)))
      | .inr r => some (g, .inr r)
    | .inner tr o s => match P.step (g o.1) (Nat.pair i tr.length) o.2 s c with
      | none => none
      | some (g', .inl s') => some (upd g o.1 g', .inl (.inner tr o s'))
      | some (g', .inr r) => some (upd g o.1 g', .inl (.between (tr ++ [(o, r)])))

/-- `tr` are the calls the client makes for `op`, given the results. -/
def Client.Script (C : Client Op' Res' Op Res) (op : Op') (tr : List ((Nat × Op) × Res)) : Prop :=
  ∀ t o r, tr[t]? = some (o, r) → C.next op (tr.take t) = .inl o

/-- The calls of objects made by one call of the client: `tr` have returned, `p` is the current one. -/
def subs (tr : List ((Nat × Op) × Res)) (p : Proc (Nat × Op) Res S') (t : Nat) : Proc (Nat × Op) Res S' :=
  match tr[t]? with
  | some (o, r) => .done o r
  | none => if t = tr.length then p else .idle

/-- Proof only: how the state of a call of the client goes with the states of the calls it makes. -/
def Coupled (C : Client Op' Res' Op Res) (pc : Proc Op' Res' (CPt Op Res S')) (sub : Nat → Proc (Nat × Op) Res S') : Prop :=
  match pc with
  | .idle => ∀ t, sub t = .idle
  | .at op (.between tr) => C.Script op tr ∧ ∀ t, sub t = subs tr .idle t
  | .at op (.inner tr o s) => C.Script op tr ∧ C.next op tr = .inl o ∧ ∀ t, sub t = subs tr (.at o s) t
  | .ret op r | .done op r => ∃ tr, C.Script op tr ∧ C.next op tr = .inr r ∧ ∀ t, sub t = subs tr .idle t

/-- The calls of objects lie inside the calls of the client, and those of one call are made one after the other. -/
structure Inside (H : List (Ev Op' Res')) (E : List (Ev (Nat × Op) Res)) : Prop where
  before : ∀ i i' t t' o o', Before H i i' → Ev.inv (Nat.pair i t) o ∈ E → Ev.inv (Nat.pair i' t') o' ∈ E →
    Before E (Nat.pair i t) (Nat.pair i' t')
  serial : ∀ i t t' o, t < t' → Ev.inv (Nat.pair i t') o ∈ E → Before E (Nat.pair i t) (Nat.pair i t')

theorem Before.append {H H' : List (Ev Op Res)} {a b : Nat} (h : Before H a b) : Before (H ++ H') a b := by
  obtain ⟨H₁, H₂, r, op, rfl, h1, h2⟩ := h
  exact ⟨H₁, H₂ ++ H', r, op, by simp, h1, by simp [h2]⟩

theorem before_now {H : List (Ev Op Res)} {a b : Nat} {r : Res} {op : Op} (h : Ev.ret a r ∈ H) : Before (H ++ [.inv b op]) a b :=
  ⟨H, [.inv b op], r, op, rfl, h, by simp⟩

theorem subs_append (tr : List ((Nat × Op) × Res)) (o : Nat × Op) (r : Res) (t : Nat) :
    subs (S' := S') (tr ++ [(o, r)]) .idle t = if t = tr.length then .done o r else subs tr .idle t := by
  unfold subs
  rcases Nat.lt_trichotomy t tr.length with h | h | h
  · rw [List.getElem?_append_left h, List.getElem?_eq_getElem h]
    simp only
    rw [if_neg (by omega)]
  · subst h; simp
  · rw [List.getElem?_eq_none (by simp; omega), List.getElem?_eq_none (by omega)]
    simp [show t ≠ tr.length by omega]

theorem subs_other (tr : List ((Nat × Op) × Res)) (p p' : Proc (Nat × Op) Res S') {t : Nat} (h : t ≠ tr.length) : subs tr p t = subs tr p' t := by
  unfold subs
  split
  · rfl
  · simp [h]

theorem subs_cur (tr : List ((Nat × Op) × Res)) (p : Proc (Nat × Op) Res S') : subs tr p tr.length = p := by simp [subs]

theorem subs_lt {tr : List ((Nat × Op) × Res)} {p : Proc (Nat × Op) Res S'} {t : Nat} (h : t < tr.length) : ∃ o r, subs tr p t = .done o r := by
  unfold subs
  rw [List.getElem?_eq_getElem h]
  exact ⟨_, _, rfl⟩

/-- Behind every execution of the client there is an execution of the objects. -/
theorem Client.decompose (C : Client Op' Res' Op Res) (P : Prog G Op Res S') {g₀ : Nat → G} {m : Conf (Nat → G) Op' Res' (CPt Op Res S')}
    {H : List (Ev Op' Res')} (h : ((C.prog P).from g₀).mach.Exec m H) :
    ∃ mE E, (P.family.from g₀).mach.Exec mE E ∧ mE.g = m.g ∧ (∀ i, Coupled C (m.pc i) fun t => mE.pc (Nat.pair i t)) ∧ Inside H E := by
  have hpair : ∀ i t j, Nat.pair i t = j ↔ i = (Nat.unpair j).1 ∧ t = (Nat.unpair j).2 := by
    intro i t j
    constructor
    · rintro rfl; simp
    · rintro ⟨rfl, rfl⟩; simp
  -- the calls of a call that has returned have returned
  have hfin : ∀ {m : Conf (Nat → G) Op' Res' (CPt Op Res S')} {H : List (Ev Op' Res')} {mE : Conf (Nat → G) (Nat × Op) Res S'}
      {E : List (Ev (Nat × Op) Res)}, ((C.prog P).from g₀).mach.Exec m H → (P.family.from g₀).mach.Exec mE E →
      (∀ i, Coupled C (m.pc i) fun t => mE.pc (Nat.pair i t)) → ∀ i r, Ev.ret i r ∈ H →
      (∀ op s, m.pc i ≠ .at op s) ∧ ∀ t o, Ev.inv (Nat.pair i t) o ∈ E → ∃ r', Ev.ret (Nat.pair i t) r' ∈ E := by
    intro m H mE E hm hE hc i r hr
    obtain ⟨op, hv⟩ := (((C.prog P).from g₀).hist hm).2 i r hr
    simp only [Conf.view] at hv
    have hci := hc i
    have hnat : ∀ op s, m.pc i ≠ .at op s := by
      intro op s hp; rw [hp] at hv; simp [Proc.view] at hv
    refine ⟨hnat, fun t o ho => ?_⟩
    obtain ⟨x, hx⟩ := (((P.family.from g₀).hist hE).1 _ o).mp ho
    simp only [Conf.view] at hx
    have key : (∃ tr, ∀ t, mE.pc (Nat.pair i t) = subs tr .idle t) := by
      cases hp : m.pc i with
      | idle => rw [hp] at hv; simp [Proc.view] at hv
      | «at» op s => exact absurd hp (hnat op s)
      | ret op r => rw [hp] at hci; obtain ⟨tr, -, -, h⟩ := hci; exact ⟨tr, h⟩
      | done op r => rw [hp] at hci; obtain ⟨tr, -, -, h⟩ := hci; exact ⟨tr, h⟩
    obtain ⟨tr, htr⟩ := key
    by_cases hlt : t < tr.length
    · obtain ⟨o', r', h'⟩ := subs_lt (p := (.idle : Proc (Nat × Op) Res S')) hlt
      exact ⟨r', (P.family.from g₀).done_mem hE ((htr t).trans h')⟩
    · have : mE.pc (Nat.pair i t) = .idle := by
        rw [htr, subs, List.getElem?_eq_none (by omega)]; simp
      rw [this] at hx; simp [Proc.view] at hx
  -- one step of a call
  have hat : ∀ {m m' : Conf (Nat → G) Op' Res' (CPt Op Res S')} {H : List (Ev Op' Res')} {mE : Conf (Nat → G) (Nat × Op) Res S'}
      {E : List (Ev (Nat × Op) Res)} {i c : Nat} {op : Op'} {s : CPt Op Res S'}, ((C.prog P).from g₀).mach.Exec m H → (P.family.from g₀).mach.Exec mE E →
      mE.g = m.g → (∀ i, Coupled C (m.pc i) fun t => mE.pc (Nat.pair i t)) → Inside H E → m.pc i = .at op s →
      ((C.prog P).from g₀).mach.next m i c = some (none, m') →
      ∃ mE E, (P.family.from g₀).mach.Exec mE E ∧ mE.g = m'.g ∧ (∀ i, Coupled C (m'.pc i) fun t => mE.pc (Nat.pair i t)) ∧ Inside H E := by
    intro m m' H mE E i c op s hm hE hg hc hI hpc hst
    simp only [Prog.mach, Prog.from, hpc, Client.prog] at hst
    have hci := hc i
    rw [hpc] at hci
    -- another point of the same call
    have other : ∀ {pc' : Proc Op' Res' (CPt Op Res S')} {g' : Nat → G} {mE' : Conf (Nat → G) (Nat × Op) Res S'},
        (∀ j, (∀ t, Nat.pair i t ≠ j) → mE'.pc j = mE.pc j) → Coupled C pc' (fun t => mE'.pc (Nat.pair i t)) →
        ∀ i', Coupled C ((Conf.mk g' (upd m.pc i pc')).pc i') fun t => mE'.pc (Nat.pair i' t) := by
      intro pc' g' mE' h1 h2 i'
      by_cases hi : i' = i
      · subst hi; simpa using h2
      · simp only [upd_ne _ _ hi]
        have : (fun t => mE'.pc (Nat.pair i' t)) = fun t => mE.pc (Nat.pair i' t) := by
          funext t
          refine h1 _ fun t' ht' => hi ?_
          have := (hpair i t' _).mp ht'
          simpa using this.1.symm
        rw [this]; exact hc i'
    cases s with
    | between tr =>
      obtain ⟨hsc, hsub⟩ := hci
      replace hsub : ∀ t, mE.pc (Nat.pair i t) = subs tr .idle t := hsub
      simp only at hst
      cases hn : C.next op tr with
      | inr r =>
        simp only [hn, Option.some.injEq, Prod.mk.injEq, true_and] at hst
        subst hst
        exact ⟨mE, E, hE, hg, other (fun _ _ => rfl) ⟨tr, hsc, hn, hsub⟩, hI⟩
      | inl o =>
        simp only [hn, Option.some.injEq, Prod.mk.injEq, true_and] at hst
        subst hst
        have hidle : mE.pc (Nat.pair i tr.length) = .idle := by rw [hsub, subs_cur]
        have hnew : ∀ o', Ev.inv (Nat.pair i tr.length) o' ∉ E := by
          intro o' ho'
          obtain ⟨x, hx⟩ := (((P.family.from g₀).hist hE).1 _ o').mp ho'
          simp only [Conf.view, hidle, Proc.view] at hx
          simp at hx
        refine ⟨⟨mE.g, upd mE.pc (Nat.pair i tr.length) (.at o (P.begin o.2))⟩, E ++ [.inv (Nat.pair i tr.length) o],
          .ev hE (.inv mE (Nat.pair i tr.length) o _ (by simp only [Prog.mach, hidle]; rfl)), hg, other ?_ ⟨hsc, hn, fun t => ?_⟩, ?_, ?_⟩
        · intro j hj
          exact upd_ne _ _ fun e => hj _ e.symm
        · by_cases ht : t = tr.length
          · subst ht; simp [subs_cur]
          · simp only
            rw [upd_ne _ _ (fun e => ht (by simpa using congrArg (fun x => (Nat.unpair x).2) e)), hsub t]
            exact subs_other tr _ _ ht
        · intro a b t t' o1 o2 hb h1 h2
          obtain ⟨ra, hra⟩ := (before_mem hb).1
          obtain ⟨hna, hall⟩ := hfin hm hE hc a ra hra
          have hai : a ≠ i := by rintro rfl; exact hna _ _ hpc
          have h1' : Ev.inv (Nat.pair a t) o1 ∈ E := by
            simp only [List.mem_append, List.mem_singleton, Ev.inv.injEq] at h1
            rcases h1 with h1 | h1
            · exact h1
            · exact absurd (by simpa using congrArg (fun x => (Nat.unpair x).1) h1.1) hai
          simp only [List.mem_append, List.mem_singleton, Ev.inv.injEq] at h2
          rcases h2 with h2 | ⟨h2, -⟩
          · exact (hI.before a b t t' o1 o2 hb h1' h2).append
          · obtain ⟨r', hr'⟩ := hall t o1 h1'
            rw [h2]; exact before_now hr'
        · intro a t t' o1 hlt h1
          simp only [List.mem_append, List.mem_singleton, Ev.inv.injEq] at h1
          rcases h1 with h1 | ⟨h1, -⟩
          · exact (hI.serial a t t' o1 hlt h1).append
          · have e1 : a = i := by simpa using congrArg (fun x => (Nat.unpair x).1) h1
            have e2 : t' = tr.length := by simpa using congrArg (fun x => (Nat.unpair x).2) h1
            subst e1; subst e2
            obtain ⟨o', r', h'⟩ := subs_lt (p := (.idle : Proc (Nat × Op) Res S')) hlt
            exact before_now ((P.family.from g₀).done_mem hE ((hsub t).trans h'))
    | inner tr o s =>
      obtain ⟨hsc, hn, hsub⟩ := hci
      replace hsub : ∀ t, mE.pc (Nat.pair i t) = subs tr (.at o s) t := hsub
      simp only at hst
      have hcur : mE.pc (Nat.pair i tr.length) = .at o s := by rw [hsub, subs_cur]
      have hkeep : ∀ p t, t ≠ tr.length → upd mE.pc (Nat.pair i tr.length) p (Nat.pair i t) = subs tr .idle t := by
        intro p t ht
        rw [upd_ne _ _ (fun e => ht (by simpa using congrArg (fun x => (Nat.unpair x).2) e)), hsub t]
        exact subs_other tr _ _ ht
      cases hp : P.step (m.g o.1) (Nat.pair i tr.length) o.2 s c with
      | none => simp [hp] at hst
      | some y =>
        obtain ⟨g', z⟩ := y
        have hfs : (P.family.from g₀).step mE.g (Nat.pair i tr.length) o s c = some (upd mE.g o.1 g', z) := by
          simp only [Prog.from, Prog.family, hg, hp]; rfl
        cases z with
        | inl s' =>
          simp only [hp, Option.some.injEq, Prod.mk.injEq, true_and] at hst
          subst hst
          refine ⟨⟨upd mE.g o.1 g', upd mE.pc (Nat.pair i tr.length) (.at o s')⟩, E, .tau hE (.run mE (Nat.pair i tr.length) c _ _ ?_), by simp [hg],
            other ?_ ⟨hsc, hn, fun t => ?_⟩, hI⟩
          · simp only [Prog.mach, hcur, hfs]
          · intro j hj
            exact upd_ne _ _ fun e => hj _ e.symm
          · by_cases ht : t = tr.length
            · subst ht; simp [subs_cur]
            · rw [subs_other tr (.at o s') .idle ht]; exact hkeep _ t ht
        | inr r =>
          simp only [hp, Option.some.injEq, Prod.mk.injEq, true_and] at hst
          subst hst
          have hE1 : (P.family.from g₀).mach.Exec ⟨upd mE.g o.1 g', upd mE.pc (Nat.pair i tr.length) (.ret o r)⟩ E :=
            .tau hE (.run mE (Nat.pair i tr.length) c _ _ (by simp only [Prog.mach, hcur, hfs]))
          have hE2 : (P.family.from g₀).mach.Exec ⟨upd mE.g o.1 g', upd mE.pc (Nat.pair i tr.length) (.done o r)⟩ (E ++ [.ret (Nat.pair i tr.length) r]) := by
            refine .ev hE1 (.run _ (Nat.pair i tr.length) c _ _ ?_)
            simp only [Prog.mach, upd_same, Option.some.injEq, Prod.mk.injEq, true_and, Conf.mk.injEq]
            funext j
            by_cases hj : j = Nat.pair i tr.length
            · subst hj; simp
            · simp [upd_ne _ _ hj]
          refine ⟨_, _, hE2, by simp [hg], other ?_ ⟨?_, fun t => ?_⟩, ?_, ?_⟩
          · intro j hj
            exact upd_ne _ _ fun e => hj _ e.symm
          · intro t o' r' ht
            rcases getElem?_append_one ht with ht | ⟨ht, he⟩
            · have hlt := (List.getElem?_eq_some_iff.mp ht).1
              rw [List.take_append_of_le_length (by omega)]
              exact hsc t o' r' ht
            · simp only [Prod.mk.injEq] at he
              subst ht
              rw [List.take_left, he.1]; exact hn
          · rw [subs_append]
            by_cases ht : t = tr.length
            · subst ht; simp
            · rw [if_neg ht]; exact hkeep _ t ht
          · intro a b t t' o1 o2 hb h1 h2
            exact (hI.before a b t t' o1 o2 hb (by simpa using h1) (by simpa using h2)).append
          · intro a t t' o1 hlt h1
            exact (hI.serial a t t' o1 hlt (by simpa using h1)).append
  induction h with
  | init => exact ⟨_, _, .init, rfl, fun i t => rfl, ⟨by simp, by simp⟩⟩
  | @tau m m' H hm hs ih =>
    obtain ⟨mE, E, hE, hg, hc, hI⟩ := ih
    cases hs with
    | run i c _ _ he =>
      cases hpc : m.pc i with
      | «at» op s => exact hat hm hE hg hc hI hpc he
      | idle => simp [Prog.mach, hpc] at he
      | ret op r => simp [Prog.mach, hpc] at he
      | done op r => simp [Prog.mach, hpc] at he
  | @ev m m' H e hm hs ih =>
    obtain ⟨mE, E, hE, hg, hc, hI⟩ := ih
    cases hs with
    | inv i op _ he =>
      simp only [Prog.mach] at he
      split at he
      · rename_i hpc
        simp only [Option.some.injEq] at he
        subst he
        have hci := hc i
        rw [hpc] at hci
        have hnew : ∀ t o, Ev.inv (Nat.pair i t) o ∉ E := by
          intro t o ho
          obtain ⟨x, hx⟩ := (((P.family.from g₀).hist hE).1 _ o).mp ho
          have := hci t
          simp only at this
          simp only [Conf.view, this, Proc.view] at hx
          simp at hx
        refine ⟨mE, E, hE, hg, fun i' => ?_, ?_, hI.serial⟩
        · by_cases hi : i' = i
          · subst hi
            simp only [upd_same]
            refine ⟨fun t o r h => by simp at h, fun t => ?_⟩
            rw [hci t, subs]; simp
          · simp only [upd_ne _ _ hi]; exact hc i'
        · intro a b t t' o1 o2 hb h1 h2
          rcases before_append hb with hb | ⟨op', r, he, -⟩
          · exact hI.before a b t t' o1 o2 hb h1 h2
          · simp only [Ev.inv.injEq] at he
            rw [← he.1] at h2
            exact absurd h2 (hnew t' o2)
      · simp at he
    | run i c _ _ he =>
      simp only [Prog.mach] at he
      cases hpc : m.pc i with
      | idle => simp [hpc] at he
      | done op r => simp [hpc] at he
      | «at» op s =>
        simp only [hpc] at he
        split at he <;> simp at he
      | ret op r =>
        simp only [hpc, Option.some.injEq, Prod.mk.injEq] at he
        obtain ⟨rfl, rfl⟩ := he
        have hci := hc i
        rw [hpc] at hci
        refine ⟨mE, E, hE, hg, fun i' => ?_, ?_, hI.serial⟩
        · by_cases hi : i' = i
          · subst hi; simp only [upd_same]; exact hci
          · simp only [upd_ne _ _ hi]; exact hc i'
        · intro a b t t' o1 o2 hb h1 h2
          rcases before_append hb with hb | ⟨op', r, he, -⟩
          · exact hI.before a b t t' o1 o2 hb h1 h2
          · simp at he

end Verif.Conc
