/-!
# Pieces of the Go language used by every model

* A Go `int` (64-bit) is modelled by an `Int` in `[-2^63, 2^63)`; where the code's arithmetic can leave that
  range the model applies `wrap64` (two's complement wrap-around, Go spec "Integer overflow").
* A panic is modelled by `none` in an `Option` result.
* Go's `%` on ints truncates towards zero: `Int.tmod`.
-/
namespace Verif.Go

/-- Two's complement wrap-around of a mathematical integer to a Go `int` / `int64`. -/
def wrap64 (x : Int) : Int := (x + 2 ^ 63) % 2 ^ 64 - 2 ^ 63

/-- The integers a Go `int` can hold. -/
def IsInt64 (x : Int) : Prop := -2 ^ 63 ≤ x ∧ x < 2 ^ 63

theorem wrap64_of_isInt64 {x : Int} (h : IsInt64 x) : wrap64 x = x := by
  obtain ⟨h1, h2⟩ := h
  unfold wrap64
  rw [Int.emod_eq_of_lt (by omega) (by omega)]
  omega

theorem wrap64_isInt64 (x : Int) : IsInt64 (wrap64 x) := by
  unfold wrap64 IsInt64
  have h1 := Int.emod_nonneg (x + 2 ^ 63) (b := 2 ^ 64) (by decide)
  have h2 := Int.emod_lt_of_pos (x + 2 ^ 63) (b := 2 ^ 64) (by decide)
  omega

example : wrap64 (2 ^ 63) = -2 ^ 63 := by decide

end Verif.Go
