import Verif.XRing.Lemmas
/-! # Property theorems for the ring (C01) -/
namespace Verif.XRing
open Verif.Go
variable {α : Type}

/-- C01: every sequential history of `Add`/`Take` on a ring of any capacity `n ≥ 1` succeeds, and each `Take`
returns the last `min n k` of the `k` values added before it, oldest first. The bound `2^63` is the range of the
`int` counter. -/
theorem C01_take_returns_last_n (nil : α) (n : Int) (hn : 1 ≤ n) (cs : List (Call α))
    (hb : (countAdds cs : Int) < 2 ^ 63) :
    ∃ r r', newRing nil n = some r ∧ run r cs = some (specRun n.toNat [] cs, r') := by
  obtain ⟨r, e, h⟩ := rep_new nil hn
  obtain ⟨r', e'⟩ := rep_run cs [] r h (by simpa using hb)
  exact ⟨r, r', e, e'⟩

/-- A concrete case: a ring of 3, wrapped around by 5 values, with a `Take` in the middle. -/
example : ∃ r r', newRing 0 3 = some r ∧ run r [.add 1, .add 2, .take, .add 3, .add 4, .add 5, .take] = some ([[1, 2], [3, 4, 5]], r') :=
  C01_take_returns_last_n 0 3 (by decide) [.add 1, .add 2, .take, .add 3, .add 4, .add 5, .take] (by decide)

/-- C01, sharp form of one observation: after adding `vs`, `Take` is the suffix of `vs` of length `min n |vs|`. -/
theorem C01_take_suffix (nil : α) (n : Int) (hn : 1 ≤ n) (vs : List α) (hb : (vs.length : Int) < 2 ^ 63) :
    ∃ r r' out, newRing nil n = some r ∧ run r (vs.map Call.add ++ [.take]) = some ([out], r') ∧
      out <:+ vs ∧ out.length = min n.toNat vs.length := by
  have hc : ∀ vs : List α, countAdds (vs.map Call.add ++ [Call.take]) = vs.length := by
    intro vs; induction vs with
    | nil => rfl
    | cons v vs ih => simp [countAdds, ih]
  have hs : ∀ (vs log : List α), specRun n.toNat log (vs.map Call.add ++ [Call.take])
      = [lastN n.toNat (log ++ vs)] := by
    intro vs; induction vs with
    | nil => intro log; simp [specRun]
    | cons v vs ih => intro log; simp [specRun, ih]
  obtain ⟨r, r', e, e'⟩ := C01_take_returns_last_n nil n hn (vs.map Call.add ++ [.take]) (by rw [hc]; exact hb)
  rw [hs] at e'
  refine ⟨r, r', _, e, e', List.drop_suffix _ _, ?_⟩
  simp [lastN]; omega

example : ∃ r r' out, newRing 0 2 = some r ∧ run r ([4, 5, 6].map Call.add ++ [.take]) = some ([out], r') ∧ out <:+ [4, 5, 6] ∧ out.length = 2 :=
  C01_take_suffix 0 2 (by decide) [4, 5, 6] (by decide)

/-- C01: `NewRing(n)` panics exactly for `n < 1`. -/
theorem C01_newRing_panics_iff (nil : α) (n : Int) : newRing nil n = none ↔ n < 1 := by
  unfold newRing; split <;> simp_all

example : newRing 0 0 = none ∧ newRing 0 1 ≠ none := ⟨(C01_newRing_panics_iff 0 0).mpr (by decide), fun h => absurd ((C01_newRing_panics_iff 0 1).mp h) (by decide)⟩

/-- Concrete non-trivial instance of the hypotheses: a ring of 3 wrapped around by 5 values. -/
example : (newRing 0 3).bind (fun r => (run r [.add 1, .add 2, .take, .add 3, .add 4, .add 5, .take]).map Prod.fst)
    = some [[1, 2], [3, 4, 5]] := by decide

/-- The bound of C01 is needed: a ring whose counter has reached `2^63 - 1` panics on `Take` after one more `Add`
(the counter wraps to a negative size). -/
theorem C01_counter_overflow_panics :
    ((Ring.mk [0] (2 ^ 63 - 1)).add 7).bind Ring.take = none := by decide

end Verif.XRing
