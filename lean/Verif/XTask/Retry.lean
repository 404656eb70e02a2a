import Verif.Go.Base
import Verif.XError.Model
/-!
# Model of `xtask/retry.go`

`fn` is an arbitrary, possibly stateful function: `fn k` is the outcome of its `k`-th call (counting from 0). The loop
is executed with a step budget (`fuel`); `running` means the budget was used up and the loop is still going.
-/
namespace Verif.XTask.Retry
open Verif.Go Verif.XError

variable {E P : Type}

/-- Outcome of one call of `fn`: nil, a non-nil error, or a panic. -/
inductive Attempt (E P : Type) where
  | ok
  | err (e : E)
  | panic (p : P)
  deriving DecidableEq, Repr

/-- Outcome of `DoWithRetry` together with the number of calls of `fn` made. -/
inductive Outcome (E P : Type) where
  | returned (r : Res E) (calls : Nat)
  | panicked (p : P) (calls : Nat)
  | running (calls : Nat)
  deriving DecidableEq, Repr

/-- retry.go:27-29 `retryOptions` is the single int `times`; retry.go:33-37 `WithRetry(times)` overwrites it;
retry.go:58-62 `newRetryOptions`: default 3. -/
def optTimes (opts : List Int) : Int := opts.foldl (fun _ t => t) 3

/-- retry.go:47-53 the loop: `for i := 0; i <= times; i++`, with `i++` wrapping around. -/
def loop (fn : Nat → Attempt E P) (times : Int) : (fuel : Nat) → (i : Int) → (calls : Nat) → BatchError E → Outcome E P
  | 0, _, calls, _ => .running calls
  | f + 1, i, calls, be =>
    if i ≤ times then
      match fn calls with
      | .err e => loop fn times f (wrap64 (i + 1)) (calls + 1) (be.add (some e))
      | .ok => .returned .nil (calls + 1)
      | .panic p => .panicked p (calls + 1)
    else .returned be.err calls

/-- retry.go:40-56 `DoWithRetry` -/
def doWithRetry (fn : Nat → Attempt E P) (opts : List Int) (fuel : Nat) : Outcome E P :=
  loop fn (optTimes opts) fuel 0 0 BatchError.zero

end Verif.XTask.Retry
