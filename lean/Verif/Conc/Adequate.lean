import Verif.Conc.Family
import Verif.Conc.Must
import Verif.Conc.Phase
import Verif.Conc.Client
/-!
# What composed programs can do

The programs made from others in `Family.lean`, `Must.lean`, `Phase.lean` and `Client.lean` make exactly the steps they should: every step of the
parts, with every choice of the environment, and no other ones. General machinery, no code of /repo.
-/
namespace Verif.Conc

variable {G Op Res S X T Op' Res' : Type}

/-- A step of a family is a step of the object, and leaves the others as they are. -/
theorem family_steps (P : Prog G Op Res S) (g g' : Nat → G) (i k : Nat) (op : Op) (s : S) (x : S ⊕ Res) (c : Nat) :
    P.family.step g i (k, op) s c = some (g', x) ↔ P.step (g k) i op s c = some (g' k, x) ∧ ∀ y, y ≠ k → g' y = g y := by
  simp only [Prog.family, Option.map_eq_some_iff, Prod.mk.injEq]
  constructor
  · rintro ⟨⟨a, b⟩, h, rfl, rfl⟩
    exact ⟨by simpa [upd] using h, fun y hy => upd_ne _ _ hy⟩
  · rintro ⟨h1, h2⟩
    refine ⟨_, h1, ?_, rfl⟩
    funext y
    by_cases e : y = k
    · subst e; simp [upd]
    · rw [upd_ne _ _ e, h2 y e]

/-- Where a call panics it does nothing else; elsewhere it does what it did. -/
theorem must_steps (P : Prog G Op Res S) (B : Op → S → Bool) (g : G) (i : Nat) (op : Op) (s : S) (r : G × (S ⊕ Option Res)) (c : Nat) :
    (P.must B).step g i op s c = some r ↔ (B op s = true ∧ r = (g, .inr none)) ∨ (B op s = false ∧ lift (P.step g i op s c) = some r) := by
  simp only [Prog.must]
  cases hb : B op s
  · simp
  · simp only [if_true, Option.some.injEq, true_and, Bool.true_eq_false, false_and, or_false]
    exact eq_comm

/-- The operations of the program do what they did, and do not return something else. -/
theorem withX_old (P : Prog G Op Res S) (xb : X → T) (xs : G → Nat → X → T → Nat → Option (G × (T ⊕ Res))) (g g' : G) (i : Nat) (op : Op) (s : S) (c : Nat) :
    (∀ s', (P.withX xb xs).step g i (.inl op) (.inl s) c = some (g', .inl (.inl s')) ↔ P.step g i op s c = some (g', .inl s')) ∧
    (∀ r, (P.withX xb xs).step g i (.inl op) (.inl s) c = some (g', .inr r) ↔ P.step g i op s c = some (g', .inr r)) ∧
    ∀ t, (P.withX xb xs).step g i (.inl op) (.inl s) c ≠ some (g', .inl (.inr t)) := by
  simp only [Prog.withX]
  rcases P.step g i op s c with _ | ⟨_, _ | _⟩ <;> simp

/-- The additional operations do what they are said to. -/
theorem withX_new (P : Prog G Op Res S) (xb : X → T) (xs : G → Nat → X → T → Nat → Option (G × (T ⊕ Res))) (g g' : G) (i : Nat) (x : X) (t : T) (c : Nat) :
    (∀ t', (P.withX xb xs).step g i (.inr x) (.inr t) c = some (g', .inl (.inr t')) ↔ xs g i x t c = some (g', .inl t')) ∧
    (∀ r, (P.withX xb xs).step g i (.inr x) (.inr t) c = some (g', .inr r) ↔ xs g i x t c = some (g', .inr r)) ∧
    ∀ s, (P.withX xb xs).step g i (.inr x) (.inr t) c ≠ some (g', .inl (.inl s)) := by
  simp only [Prog.withX]
  rcases xs g i x t c with _ | ⟨_, _ | _⟩ <;> simp

/-- Inside a call of an object a client makes the steps of this call, on this object only; when it returns its result is noted. -/
theorem client_steps (C : Client Op' Res' Op Res) (P : Prog G Op Res S) (g g' : Nat → G) (i k : Nat) (op : Op') (tr : List ((Nat × Op) × Res)) (o : Op) (s : S)
    (x : CPt Op Res S ⊕ Res') (c : Nat) :
    (C.prog P).step g i op (.inner tr (k, o) s) c = some (g', x) ↔ (∀ y, y ≠ k → g' y = g y) ∧
      ((∃ s', P.step (g k) (Nat.pair i tr.length) o s c = some (g' k, .inl s') ∧ x = .inl (.inner tr (k, o) s')) ∨
       ∃ r, P.step (g k) (Nat.pair i tr.length) o s c = some (g' k, .inr r) ∧ x = .inl (.between (tr ++ [((k, o), r)]))) := by
  have fold : ∀ a : G, upd g k a = g' ↔ g' k = a ∧ ∀ y, y ≠ k → g' y = g y := by
    intro a
    constructor
    · rintro rfl; exact ⟨by simp [upd], fun y hy => upd_ne _ _ hy⟩
    · rintro ⟨h1, h2⟩
      funext y
      by_cases e : y = k
      · subst e; simp [upd, h1]
      · rw [upd_ne _ _ e, h2 y e]
  simp only [Client.prog]
  rcases P.step (g k) (Nat.pair i tr.length) o s c with _ | ⟨a, s' | r⟩
  · simp
  · simp only [Option.some.injEq, Prod.mk.injEq, fold, Sum.inl.injEq, reduceCtorEq, and_false, false_and, exists_false, or_false]
    constructor
    · rintro ⟨⟨h1, h2⟩, h3⟩; exact ⟨h2, s', ⟨h1.symm, rfl⟩, h3.symm⟩
    · rintro ⟨h2, _, ⟨h1, rfl⟩, h3⟩; exact ⟨⟨h1.symm, h2⟩, h3.symm⟩
  · simp only [Option.some.injEq, Prod.mk.injEq, fold, Sum.inr.injEq, reduceCtorEq, and_false, false_and, exists_false, false_or]
    constructor
    · rintro ⟨⟨h1, h2⟩, h3⟩; exact ⟨h2, r, ⟨h1.symm, rfl⟩, h3.symm⟩
    · rintro ⟨h2, _, ⟨h1, rfl⟩, h3⟩; exact ⟨⟨h1.symm, h2⟩, h3.symm⟩

/-- Between calls of objects a client makes the call that its code says, or returns. -/
theorem client_between (C : Client Op' Res' Op Res) (P : Prog G Op Res S) (g g' : Nat → G) (i : Nat) (op : Op') (tr : List ((Nat × Op) × Res))
    (x : CPt Op Res S ⊕ Res') (c : Nat) :
    (C.prog P).step g i op (.between tr) c = some (g', x) ↔ g' = g ∧
      ((∃ o, C.next op tr = .inl o ∧ x = .inl (.inner tr o (P.begin o.2))) ∨ ∃ r, C.next op tr = .inr r ∧ x = .inr r) := by
  simp only [Client.prog]
  rcases C.next op tr with o | r <;> simp [eq_comm]

end Verif.Conc
