import Verif.Conc.Crash
/-!
# Calls that are ended by a panic of the run-time system

`P.must B` is the program `P` in which a call that comes to a point with `B op s` ends there with a panic: the result is `none`, and the shared state
stays as it is. As in `Crash` nothing is deferred in the calls modelled.
-/
namespace Verif.Conc

variable {G Op Res S : Type}

/-- General machinery, no code of /repo: the program `P`, in which a call panics at the points `B`. -/
def Prog.must (P : Prog G Op Res S) (B : Op → S → Bool) : Prog G Op (Option Res) S where
  init := P.init
  begin := P.begin
  step g i op s c := if B op s then some (g, .inr none) else lift (P.step g i op s c)

/-- An execution of `P` is one of `Q` if every step of a call, at a point at which a call of `P` can be, is a step of `Q`. -/
theorem Prog.exec_into (P Q : Prog G Op Res S) (J : Op → S → Prop) (hi : P.init = Q.init) (hb : P.begin = Q.begin) (h0 : ∀ op, J op (P.begin op))
    (hJ : ∀ g i op s c g' s', J op s → P.step g i op s c = some (g', .inl s') → J op s')
    (hs : ∀ g i op s c y, J op s → P.step g i op s c = some y → ∃ c', Q.step g i op s c' = some y)
    {m : Conf G Op Res S} {H : List (Ev Op Res)} (h : P.mach.Exec m H) :
    Q.mach.Exec m H ∧ ∀ i op s, m.view i = some (op, .inl s) → J op s := by
  have key : ∀ {m m' : Conf G Op Res S} {l : Option (Ev Op Res)}, (∀ i op s, m.view i = some (op, .inl s) → J op s) → P.mach.Step m l m' → Q.mach.Step m l m' := by
    intro m m' l hv hst
    cases hst with
    | inv i op _ he =>
      refine .inv _ _ _ _ ?_
      simp only [Prog.mach] at he ⊢
      rw [← hb]; exact he
    | run i c _ _ he =>
      simp only [Prog.mach] at he
      cases hpc : m.pc i with
      | idle => simp [hpc] at he
      | done _ _ => simp [hpc] at he
      | ret op r =>
        refine .run _ i 0 _ _ ?_
        simp only [hpc] at he
        simp only [Prog.mach, hpc]; exact he
      | «at» op s =>
        simp only [hpc] at he
        cases hp : P.step m.g i op s c with
        | none => simp [hp] at he
        | some y =>
          obtain ⟨c', hc'⟩ := hs _ _ _ _ _ _ (hv i op s (by simp [Conf.view, hpc, Proc.view])) hp
          refine .run _ i c' _ _ ?_
          simp only [hp] at he
          simp only [Prog.mach, hpc, hc']; exact he
  have inv : ∀ {m : Conf G Op Res S} {H : List (Ev Op Res)}, P.mach.Exec m H → ∀ i op s, m.view i = some (op, .inl s) → J op s := by
    intro m H h
    refine P.induct (fun _ v _ => ∀ i op s, v i = some (op, .inl s) → J op s) (by simp) ?_ ?_ ?_ h
    · intro g v H i op hI _ j op' s hj
      by_cases e : j = i
      · subst e
        simp only [upd_same, Option.some.injEq, Prod.mk.injEq, Sum.inl.injEq] at hj
        obtain ⟨rfl, rfl⟩ := hj
        exact h0 _
      · rw [upd_ne _ _ e] at hj; exact hI j op' s hj
    · intro g v H i op s c g' x hI hv hst j op' s' hj
      by_cases e : j = i
      · subst e
        simp only [upd_same, Option.some.injEq, Prod.mk.injEq] at hj
        obtain ⟨rfl, rfl⟩ := hj
        exact hJ _ _ _ _ _ _ _ (hI _ _ _ hv) hst
      · rw [upd_ne _ _ e] at hj; exact hI j op' s' hj
    · intro g v H i op r hI _; exact hI
  refine ⟨?_, inv h⟩
  induction h with
  | init => have : P.mach.start = Q.mach.start := by simp [Prog.mach, hi]
            rw [this]; exact .init
  | tau he hst ih => exact .tau ih (key (inv he) hst)
  | ev he hst ih => exact .ev ih (key (inv he) hst)

theorem must_cases {P : Prog G Op Res S} {B : Op → S → Bool} {g g' : G} {i c : Nat} {op : Op} {s : S} {x : S ⊕ Option Res}
    (h : (P.must B).step g i op s c = some (g', x)) :
    (B op s = true ∧ g' = g ∧ x = .inr none) ∨
    (B op s = false ∧ ∃ y, P.step g i op s c = some (g', y) ∧ ((∃ s', y = .inl s' ∧ x = .inl s') ∨ ∃ r, y = .inr r ∧ x = .inr (some r))) := by
  simp only [Prog.must] at h
  cases hB : B op s with
  | true => simp only [hB, if_true, Option.some.injEq, Prod.mk.injEq] at h; exact .inl ⟨rfl, h.1.symm, h.2.symm⟩
  | false =>
    refine .inr ⟨rfl, ?_⟩
    simp only [hB, Bool.false_eq_true, if_false] at h
    cases hp : P.step g i op s c with
    | none => simp [hp, lift] at h
    | some z =>
      obtain ⟨gz, xz⟩ := z
      cases xz with
      | inl s' => simp only [hp, lift, Option.some.injEq, Prod.mk.injEq] at h; exact ⟨.inl s', by rw [h.1], .inl ⟨s', rfl, h.2.symm⟩⟩
      | inr r => simp only [hp, lift, Option.some.injEq, Prod.mk.injEq] at h; exact ⟨.inr r, by rw [h.1], .inr ⟨r, rfl, h.2.symm⟩⟩

theorem Weights.Sinks.must {W : Weights G Op S} {P : Prog G Op Res S} (hW : W.Sinks P) (B : Op → S → Bool) : W.Sinks (P.must B) where
  step g i op s c g' s' h := by
    rcases must_cases h with ⟨_, _, hx⟩ | ⟨_, y, hy, ⟨s'', rfl, hx⟩ | ⟨r, rfl, hx⟩⟩
    · simp at hx
    · simp only [Sum.inl.injEq] at hx
      subst hx
      exact hW.step _ _ _ _ _ _ _ hy
    · simp at hx
  res g i op s c g' r h := by
    rcases must_cases h with ⟨_, rfl, _⟩ | ⟨_, y, hy, ⟨s'', rfl, hx⟩ | ⟨r', rfl, hx⟩⟩
    · exact .inr (.inr fun _ _ => Nat.le_refl _)
    · simp at hx
    · exact hW.res _ _ _ _ _ _ _ hy

end Verif.Conc
