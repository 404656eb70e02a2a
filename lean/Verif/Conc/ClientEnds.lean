import Verif.Conc.Client
import Verif.Conc.Ends
/-!
# Calls that consist of calls of other objects end if those do
-/
namespace Verif.Conc

variable {G Op Res Op' Res' S' : Type}

/-- The weights of a client that makes at most `n op` calls for `op`, if a call of an object starts with at most `a` in the first part. -/
def Client.weights (W : Weights G Op S') (n : Op' → Nat) (a : Nat) : Weights (Nat → G) Op' (CPt Op Res S') where
  A op
    | .between tr => (n op - tr.length) * (a + 2)
    | .inner tr o s => (n op - tr.length - 1) * (a + 2) + W.A o.2 s + 1
  R _
    | .between _ => 0
    | .inner _ o s => W.R o.2 s
  T g _
    | .between _ => 0
    | .inner _ o s => W.T (g o.1) o.2 s

theorem Client.sinks {W : Weights G Op S'} {P : Prog G Op Res S'} (hW : W.Sinks P) {C : Client Op' Res' Op Res} {n : Op' → Nat} {a : Nat}
    (hn : ∀ op tr o, C.next op tr = .inl o → tr.length < n op) (ha : ∀ op, W.A op (P.begin op) ≤ a) :
    (Client.weights (Res := Res) W n a).Sinks (C.prog P) := by
  constructor
  · intro g i op s c g' s' h
    cases s with
    | between tr =>
      simp only [Client.prog] at h
      split at h <;> simp only [Option.some.injEq, Prod.mk.injEq, Sum.inl.injEq, reduceCtorEq, and_false] at h
      rename_i o ho
      obtain ⟨rfl, rfl⟩ := h
      have h1 := hn op tr o ho
      have h2 := ha o.2
      refine .inl ?_
      simp only [Client.weights]
      obtain ⟨k, hk⟩ : ∃ k, n op - tr.length = k + 1 := ⟨n op - tr.length - 1, by omega⟩
      rw [hk, Nat.add_sub_cancel, Nat.succ_mul]
      omega
    | inner tr o s =>
      simp only [Client.prog] at h
      split at h <;> simp only [Option.some.injEq, Prod.mk.injEq, Sum.inl.injEq, reduceCtorEq] at h
      · rename_i g1 s1 hst
        obtain ⟨rfl, rfl⟩ := h
        simp only [Client.weights]
        rcases hW.step _ _ _ _ _ _ _ hst with h | ⟨h1, h | ⟨h2, h3, h4⟩⟩
        · exact .inl (by omega)
        · exact .inr ⟨by omega, .inl h⟩
        · refine .inr ⟨by omega, .inr ⟨h2, by rw [upd_same]; exact h3, fun op' t => ?_⟩⟩
          cases t with
          | between tr => exact Nat.le_refl _
          | inner tr o' s' =>
            by_cases ho : o'.1 = o.1
            · simp only [ho, upd_same]; exact h4 _ _
            · simp only [upd_ne _ _ ho]; exact Nat.le_refl _
      · obtain ⟨rfl, rfl⟩ := h
        refine .inl ?_
        simp only [Client.weights, List.length_append, List.length_singleton, Nat.sub_add_eq]
        omega
  · intro g i op s c g' r h
    cases s with
    | between tr =>
      simp only [Client.prog] at h
      split at h <;> simp only [Option.some.injEq, Prod.mk.injEq, reduceCtorEq, and_false] at h
      obtain ⟨rfl, _⟩ := h
      exact .inr (.inr fun _ _ => Nat.le_refl _)
    | inner tr o s =>
      exact .inl (by simp only [Client.weights]; omega)

end Verif.Conc
