import Verif.Go.Utf8
/-!
# Specification of xstring, over lists of characters

Nothing here refers to the model of the code; characters are the decoded runes.
-/
namespace Verif.XString
open Verif.Go

/-- Lowest position selected by a start index: negative ones count from the end, clamped at 0. -/
def loPos (n : Nat) (start : Int) : Nat := if start < 0 then (start + n).toNat else start.toNat

/-- First position not selected by an end index: negative ones count from the end, clamped at the length. -/
def hiPos (n : Nat) (stop : Int) : Nat := if stop < 0 then (stop + n).toNat else min n stop.toNat

/-- Characters moved to the front by a circular shift of `shift`: `shift mod n`. -/
def rotateSpec (rs : List Int) (shift : Int) : List Int :=
  let k := (shift % (rs.length : Int)).toNat
  rs.drop (rs.length - k) ++ rs.take (rs.length - k)

/-- `i` is the first position at which the lists do not all agree (a list that has ended counts as differing from one
that has not), or -1 if they are all equal. -/
def IsFirstDiff (ls : List (List Int)) (i : Int) : Prop :=
  (i = -1 ∧ ∀ a ∈ ls, ∀ b ∈ ls, a = b) ∨
  (∃ n : Nat, i = n ∧ (∀ j < n, ∀ a ∈ ls, ∀ b ∈ ls, a[j]? = b[j]?) ∧ ∃ a ∈ ls, ∃ b ∈ ls, a[n]? ≠ b[n]?)

/-- `out` is `s` with all non-overlapping occurrences of `t`, taken from left to right, deleted. -/
inductive Removed (t : Bytes) : Bytes → Bytes → Prop where
  | none {s} : (∀ a b, s ≠ a ++ t ++ b) → Removed t s s
  | found {a b out} : (∀ a' b', a ++ t ++ b = a' ++ t ++ b' → a.length ≤ a'.length) → Removed t b out →
      Removed t (a ++ t ++ b) (a ++ out)

/-- `out` is `rs` without leading (if `l`) and trailing (if `r`) characters satisfying `p`, and without any such
character left at these ends. -/
def Trimmed (p : Int → Bool) (l r : Bool) (rs out : List Int) : Prop :=
  ∃ pre post, rs = pre ++ out ++ post ∧ (∀ c ∈ pre, p c = true) ∧ (∀ c ∈ post, p c = true) ∧
    (l = false → pre = []) ∧ (r = false → post = []) ∧
    (l = true → ∀ c, out.head? = some c → p c = false) ∧ (r = true → ∀ c, out.getLast? = some c → p c = false)

/-- A decimal numeral: one or more digits, optionally followed by a decimal point and any number of digits. -/
def IsNumeral (rs : List Int) : Prop :=
  ∃ d1 d2 : List Int, d1 ≠ [] ∧ (∀ c ∈ d1, 48 ≤ c ∧ c ≤ 57) ∧ (∀ c ∈ d2, 48 ≤ c ∧ c ≤ 57) ∧
    (rs = d1 ∨ rs = d1 ++ [46] ++ d2)

end Verif.XString
