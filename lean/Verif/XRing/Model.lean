import Verif.Go.Base
/-!
# Model of `xring/xring.go` (and of its unlocked copy `xstream/ring.go`)

Sequential part. The lock is modelled separately in `Verif.XRing.Conc`.
-/
namespace Verif.XRing
open Verif.Go

variable {α : Type}

/-- xring.go:22-26 `Ring` / ring.go:19-22 `ring`: the slots and the number of additions so far.
`interface{}` values are an arbitrary type `α`. The lock field is not part of the sequential model. -/
structure Ring (α : Type) where
  elements : List α
  index : Int
  deriving Repr, DecidableEq

/-- xring.go:29-37 `NewRing`: panics for `n < 1`, else `n` slots holding the zero value `nil`. -/
def newRing (nil : α) (n : Int) : Option (Ring α) :=
  if n < 1 then none else some { elements := List.replicate n.toNat nil, index := 0 }

/-- ring.go:25-27 `newRing(n uint)` of package xstream: no check. -/
def newRingU (nil : α) (n : Nat) : Ring α := { elements := List.replicate n nil, index := 0 }

/-- xring.go:40-46 `Add` / ring.go:30-34 `add`:
`r.elements[r.index%len(r.elements)] = v; r.index++`. Integer division by zero and a negative index panic;
`r.index++` wraps around. -/
def Ring.add (r : Ring α) (v : α) : Option (Ring α) :=
  if r.elements.length = 0 then none
  else
    let i := r.index.tmod r.elements.length
    if i < 0 then none
    else some { elements := r.elements.set i.toNat v, index := wrap64 (r.index + 1) }

/-- xring.go:62-65 / ring.go:49-52: the copying loop `elements[i] = r.elements[(start+i)%n]` for
`i` from `i0` while `cnt` iterations remain. -/
def copyLoop (es : List α) (start : Nat) : (i : Nat) → (cnt : Nat) → Option (List α)
  | _, 0 => some []
  | i, cnt + 1 => do
    let x ← es[(start + i) % es.length]?
    let rest ← copyLoop es start (i + 1) cnt
    pure (x :: rest)

/-- xring.go:49-68 `Take` / ring.go:37-55 `take`. `make` panics on a negative size. -/
def Ring.take (r : Ring α) : Option (List α) :=
  let n : Int := r.elements.length
  let size : Int := if r.index > n then n else r.index
  let start : Int := if r.index > n then r.index.tmod n else 0
  if size < 0 then none
  else copyLoop r.elements start.toNat 0 size.toNat

/-- The calls a user can make on a ring. -/
inductive Call (α : Type) where
  | add (v : α)
  | take
  deriving Repr, DecidableEq

/-- A sequential history: the outputs of all `Take` calls and the final ring; `none` if a call panics. -/
def run (r : Ring α) : List (Call α) → Option (List (List α) × Ring α)
  | [] => some ([], r)
  | .add v :: cs => do
    let r' ← r.add v
    run r' cs
  | .take :: cs => do
    let out ← r.take
    let (outs, r') ← run r cs
    pure (out :: outs, r')

end Verif.XRing
