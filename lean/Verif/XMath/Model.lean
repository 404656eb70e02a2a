import Verif.Go.Base
/-!
# Model of the integer functions of `xmath/xmath.go`

`float64(a)` for an `int` is IEEE-754 round-to-nearest-even to 53 significant bits; the result is always an integer,
so it is modelled by an `Int`. Among such values there is no NaN, no infinity and no negative zero, so `math.Max`
and `math.Min` are plain comparisons (`if x > y {return x}; return y`, `if x < y {return x}; return y`).
`int(f)` is exact when `f` is in range; otherwise the Go spec leaves the result implementation dependent, which is
the parameter `ovf` (amd64: always `-2^63`).
-/
namespace Verif.XMath
open Verif.Go

/-- Round a natural number to 53 significant bits, ties to even: the value of `float64(m)`. -/
def roundNat (m : Nat) : Nat :=
  if m < 2 ^ 53 then m
  else
    let e := Nat.log2 m - 52
    let q := m / 2 ^ e
    let r := m % 2 ^ e
    if 2 * r > 2 ^ e ∨ (2 * r = 2 ^ e ∧ q % 2 = 1) then (q + 1) * 2 ^ e else q * 2 ^ e

/-- `float64(x)` for an `int` `x`, as the exact integer it denotes. -/
def toF64 (x : Int) : Int := if 0 ≤ x then (roundNat x.toNat : Int) else -(roundNat (-x).toNat : Int)

/-- `int(f)` for a float holding the integer `f`. -/
def ofF64 (ovf : Int → Int) (f : Int) : Int := if -2 ^ 63 ≤ f ∧ f < 2 ^ 63 then f else ovf f

/-- Go's `math.Max` on finite floats without negative zero. -/
def fmax (x y : Int) : Int := if x > y then x else y

/-- Go's `math.Min` on finite floats without negative zero. -/
def fmin (x y : Int) : Int := if x < y then x else y

/-- xmath.go:22-24 `MaxInt` -/
def maxInt (ovf : Int → Int) (a b : Int) : Int := ofF64 ovf (fmax (toF64 a) (toF64 b))

/-- xmath.go:27-29 `MinInt` -/
def minInt (ovf : Int → Int) (a b : Int) : Int := ofF64 ovf (fmin (toF64 a) (toF64 b))

/-- xmath.go:32-34 `MaxInt64` -/
def maxInt64 (ovf : Int → Int) (a b : Int) : Int := ofF64 ovf (fmax (toF64 a) (toF64 b))

/-- xmath.go:37-39 `MinInt64` -/
def minInt64 (ovf : Int → Int) (a b : Int) : Int := ofF64 ovf (fmin (toF64 a) (toF64 b))

/-- `int(f)` out of range on amd64 (CVTTSD2SQ): the "integer indefinite" value. -/
def ovfAmd64 (_ : Int) : Int := -2 ^ 63

end Verif.XMath
