import Verif.XTask.Do
/-!
# Model of `xworker/xworker.go`

A worker, any number of `Run` calls on it (from any goroutines), the goroutines they start, their contexts and the
functions `run` and `deferFunc`, which may take any time. Every accepted `Run` embeds the model of `xtask.Do`
(`Verif.XTask.DoStep`). Simplification: every call has its own context; calls sharing a context are the executions in which
these contexts become done together.
-/
namespace Verif.XWorker
open Verif.Go Verif.XTask

variable {E V : Type}

/-- Where the deferred function of an accepted call is (xworker.go:43-46). -/
inductive Phase where
  | before
  /-- `deferFunc()` is executing -/
  | executing
  /-- `deferFunc()` has returned, `<-w.c` is next -/
  | after
  /-- `deferFunc()` has panicked, or it was nil -/
  | panicked
  deriving DecidableEq

/-- One call of `Run`. -/
inductive Job (E V : Type) where
  /-- xworker.go:37: at `w.c <- struct{}{}`; `ctx` is the state of the context, `nilDefer` tells that `deferFunc` is nil -/
  | pending (ctx : Option E) (nilDefer : Bool)
  /-- xworker.go:39-47: `Run` has returned, `Do` runs in a goroutine. `calls` counts the calls of `deferFunc`. -/
  | accepted (ctx0 : Option E) (nilDefer : Bool) (d : DoSt E V) (ph : Phase) (calls : Nat)

/-- A `Worker` (xworker.go:26-28) with the calls of `Run` it has accepted. -/
structure Worker (E V : Type) where
  /-- xworker.go:27 -/
  c : Chan Unit
  jobs : List (Job E V)
  /-- an unrecovered panic has ended the program -/
  crashed : Bool

/-- xworker.go:31-33 `NewWorker`: `make` panics for a negative size. -/
def newWorker (size : Int) : Option (Worker E V) :=
  if size < 0 then none else some ⟨Chan.make size.toNat, [], false⟩

/-- xworker.go:36-48 `Run`: all interleavings. Nothing happens any more after a crash. -/
inductive WStep : Worker E V → Worker E V → Prop where
  /-- somebody calls `Run` with a context in the state `ctx` -/
  | call (w : Worker E V) (ctx : Option E) (nilDefer : Bool) : w.crashed = false →
      WStep w { w with jobs := w.jobs ++ [.pending ctx nilDefer] }
  /-- the context of a waiting call becomes done -/
  | cancel (w : Worker E V) (i : Nat) (b : Bool) (e : E) : w.crashed = false → w.jobs[i]? = some (.pending none b) →
      WStep w { w with jobs := w.jobs.set i (.pending (some e) b) }
  /-- xworker.go:37, 39 -/
  | accept (w : Worker E V) (i : Nat) (ctx : Option E) (b : Bool) (c : Chan Unit) : w.crashed = false →
      w.jobs[i]? = some (.pending ctx b) → w.c.send () = .sent c →
      WStep w { w with c := c, jobs := w.jobs.set i (.accepted ctx b (doInit ctx) .before 0) }
  /-- xworker.go:40-42: any step of `xtask.Do` or of `run`, except the deferred function of `Do` -/
  | doStep (w : Worker E V) (i : Nat) (ctx0 : Option E) (b : Bool) (d d' : DoSt E V) (ph : Phase) (n : Nat) : w.crashed = false →
      w.jobs[i]? = some (.accepted ctx0 b d ph n) → DoStep true d d' → (∀ o, d'.caller = .left o → d.caller = .left o) →
      WStep w { w with jobs := w.jobs.set i (.accepted ctx0 b d' ph n) }
  /-- xworker.go:44: `deferFunc` is called … -/
  | deferCall (w : Worker E V) (i : Nat) (ctx0 : Option E) (d : DoSt E V) (n : Nat) (o : Out E V) : w.crashed = false →
      w.jobs[i]? = some (.accepted ctx0 false d .before n) → d.caller = .leave o →
      WStep w { w with jobs := w.jobs.set i (.accepted ctx0 false d .executing (n + 1)) }
  /-- … a nil `deferFunc` panics outside of any recover: the program crashes … -/
  | deferNil (w : Worker E V) (i : Nat) (ctx0 : Option E) (d : DoSt E V) (n : Nat) (o : Out E V) : w.crashed = false →
      w.jobs[i]? = some (.accepted ctx0 true d .before n) → d.caller = .leave o →
      WStep w { w with jobs := w.jobs.set i (.accepted ctx0 true d .panicked (n + 1)), crashed := true }
  /-- … a panic of `deferFunc` is not recovered either … -/
  | deferPanic (w : Worker E V) (i : Nat) (ctx0 : Option E) (b : Bool) (d : DoSt E V) (n : Nat) : w.crashed = false →
      w.jobs[i]? = some (.accepted ctx0 b d .executing n) →
      WStep w { w with jobs := w.jobs.set i (.accepted ctx0 b d .panicked n), crashed := true }
  /-- … and it returns at any time -/
  | deferReturn (w : Worker E V) (i : Nat) (ctx0 : Option E) (b : Bool) (d : DoSt E V) (n : Nat) : w.crashed = false →
      w.jobs[i]? = some (.accepted ctx0 b d .executing n) →
      WStep w { w with jobs := w.jobs.set i (.accepted ctx0 b d .after n) }
  /-- xworker.go:45 `<-w.c`; then `Do` is left. A panic of `Do` is not recovered (xworker.go:39-47): the program crashes. -/
  | release (w : Worker E V) (i : Nat) (ctx0 : Option E) (b : Bool) (d d' : DoSt E V) (n : Nat) (c : Chan Unit) (o : Out E V) :
      w.crashed = false → w.jobs[i]? = some (.accepted ctx0 b d .after n) → d.caller = .leave o → w.c.recv = .got () c →
      DoStep true d d' → d'.caller = .left o →
      WStep w { w with c := c, jobs := w.jobs.set i (.accepted ctx0 b d' .after n), crashed := match o with | .err _ => false | .panic _ => true }

/-- The states that a `Worker` can reach. -/
inductive WReach (size : Int) : Worker E V → Prop where
  | init {w : Worker E V} : newWorker size = some w → WReach size w
  | step {w w' : Worker E V} : WReach size w → WStep w w' → WReach size w'

end Verif.XWorker
