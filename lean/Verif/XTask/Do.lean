import Verif.Go.Chan
/-!
# Model of `xtask/do.go`

The caller of `Do`, the goroutine started by `Do` and the context run concurrently. The user's `do` is arbitrary: it
may take any time, never end, return any error, panic with any value or end its goroutine without either (
`runtime.Goexit`). Errors and panic values are arbitrary types `E`, `V`; `nil` errors are ordinary elements of `E`.
-/
namespace Verif.XTask
open Verif.Go

variable {E V : Type}

/-- How `do` can end. -/
inductive Outcome (E V : Type) where
  | returned (e : E)
  | panicked (p : V)
  /-- `runtime.Goexit()`, or `panic(nil)` before Go 1.21: `recover()` gives nil -/
  | exited
  deriving DecidableEq

/-- How `Do` leaves: it returns an error, or it panics with the text made from the value `p` (do.go:45). -/
inductive Out (E V : Type) where
  | err (e : E)
  | panic (p : V)
  deriving DecidableEq

/-- Program points of the caller. -/
inductive Caller (E V : Type) where
  /-- do.go:29-37: the deferred call is registered, then the first `select` -/
  | entry
  /-- do.go:39-50: make the channels, start the goroutine -/
  | spawn
  /-- do.go:52-59: the second `select` -/
  | wait
  /-- leaving with this result; the deferred call is still to be run -/
  | leave (o : Out E V)
  | left (o : Out E V)
  deriving DecidableEq

/-- Program points of the goroutine. -/
inductive Gor (E V : Type) where
  | none
  /-- `do` is executing -/
  | running
  /-- `do` has ended like this; the result is to be delivered -/
  | finished (o : Outcome E V)
  | ended (o : Outcome E V)
  deriving DecidableEq

/-- The variables of a call of `Do` (do.go:28-62) and the points of its two goroutines. -/
structure DoSt (E V : Type) where
  /-- the context: `some e` – done with `ctx.Err() = e` -/
  ctx : Option E
  doneChan : Chan E
  panicChan : Chan V
  caller : Caller E V
  gor : Gor E V
  /-- how often `deferFunc` has been called (history variable) -/
  defers : Nat
  /-- whether `do` has been called (history variable) -/
  started : Bool

/-- do.go:28: on entry; the context may already be done. -/
def doInit (ctx : Option E) : DoSt E V :=
  ⟨ctx, Chan.make 1, Chan.make 1, .entry, .none, 0, false⟩

/-- do.go:28-62 `Do`; `hasDefer` tells whether `deferFunc` is non-nil. `Step` gives all interleavings of the atomic steps. -/
inductive DoStep (hasDefer : Bool) : DoSt E V → DoSt E V → Prop where
  /-- the context becomes done -/
  | cancel (m : DoSt E V) (e : E) : m.ctx = none → DoStep hasDefer m { m with ctx := some e }
  /-- do.go:33-35 -/
  | entryDone (m : DoSt E V) (e : E) : m.caller = .entry → m.ctx = some e → DoStep hasDefer m { m with caller := .leave (.err e) }
  /-- do.go:36 `default` -/
  | entryGo (m : DoSt E V) : m.caller = .entry → m.ctx = none → DoStep hasDefer m { m with caller := .spawn }
  /-- do.go:39-50 -/
  | spawn (m : DoSt E V) : m.caller = .spawn →
      DoStep hasDefer m { m with doneChan := Chan.make 1, panicChan := Chan.make 1, caller := .wait, gor := .running, started := true }
  /-- `do` ends in some way, at any time -/
  | finish (m : DoSt E V) (o : Outcome E V) : m.gor = .running → DoStep hasDefer m { m with gor := .finished o }
  /-- do.go:49 `doneChan <- do()` -/
  | deliverRet (m : DoSt E V) (e : E) (c : Chan E) : m.gor = .finished (.returned e) → m.doneChan.send e = .sent c →
      DoStep hasDefer m { m with doneChan := c, gor := .ended (.returned e) }
  /-- do.go:43-47, `recover() != nil` -/
  | deliverPanic (m : DoSt E V) (p : V) (c : Chan V) : m.gor = .finished (.panicked p) → m.panicChan.send p = .sent c →
      DoStep hasDefer m { m with panicChan := c, gor := .ended (.panicked p) }
  /-- do.go:43-47, `recover() == nil` -/
  | deliverNone (m : DoSt E V) : m.gor = .finished .exited → DoStep hasDefer m { m with gor := .ended .exited }
  /-- do.go:53-54 -/
  | recvPanic (m : DoSt E V) (p : V) (c : Chan V) : m.caller = .wait → m.panicChan.recv = .got p c →
      DoStep hasDefer m { m with panicChan := c, caller := .leave (.panic p) }
  /-- do.go:55-56 -/
  | recvDone (m : DoSt E V) (e : E) (c : Chan E) : m.caller = .wait → m.doneChan.recv = .got e c →
      DoStep hasDefer m { m with doneChan := c, caller := .leave (.err e) }
  /-- do.go:57-58 -/
  | recvCtx (m : DoSt E V) (e : E) : m.caller = .wait → m.ctx = some e → DoStep hasDefer m { m with caller := .leave (.err e) }
  /-- do.go:29-31: the deferred `deferFunc`, run on every way out -/
  | leave (m : DoSt E V) (o : Out E V) : m.caller = .leave o →
      DoStep hasDefer m { m with caller := .left o, defers := m.defers + (if hasDefer then 1 else 0) }

/-- Reachable states. -/
inductive DoReach (hasDefer : Bool) (ctx : Option E) : DoSt E V → Prop where
  | init : DoReach hasDefer ctx (doInit ctx)
  | step {m m' : DoSt E V} : DoReach hasDefer ctx m → DoStep hasDefer m m' → DoReach hasDefer ctx m'

/-- do.go:72-74 `DoWithoutDefer`: `Do` with a nil `deferFunc`. -/
def DoWithoutDeferReach (ctx : Option E) : DoSt E V → Prop := DoReach false ctx

/-- do.go:65-69 `DoWithTimeout`: `Do` with a context that can only be done by its deadline (error `deadline`), and is
already done on entry if the timeout is not positive. The caller alone knows this context. -/
inductive DoWithTimeoutReach (hasDefer : Bool) (deadline : E) (timeout : Int) : DoSt E V → Prop where
  | init : DoWithTimeoutReach hasDefer deadline timeout (doInit (if timeout ≤ 0 then some deadline else none))
  | step {m m' : DoSt E V} : DoWithTimeoutReach hasDefer deadline timeout m → DoStep hasDefer m m' →
      (m'.ctx = m.ctx ∨ m'.ctx = some deadline) → DoWithTimeoutReach hasDefer deadline timeout m'

end Verif.XTask
