import Verif.XTask.Do
/-!
# Model of `xmapreduce/xmapreduce.go`

One call of `Map` with everything it starts: the generator goroutine, `doMap`, one worker goroutine (with the model of
`xtask.Do`) and one goroutine executing `mapFunc` per item, the context, and the consumer of the returned channel.

* `items` are the values `generateFunc` sends before it returns.
* `f x` are the values `mapFunc` writes for the item `x` before it returns; `mapFunc` itself neither panics nor hangs (a
  `Write` in it can do both).
* `size` is the worker size (a negative one makes `make` panic in `Map`).
* The collector has room for `size` values; for `size = 0` no mapping is ever started (C14), so that the absence of
  rendezvous in `Chan` does not matter.
-/
namespace Verif.XMapReduce
open Verif.Go Verif.XTask

variable {α β : Type}

/-- The errors occurring in `Do`: nil from `run`, and `ctx.Err()`. -/
inductive Err where
  | nil
  | ctx
  deriving DecidableEq

/-- One accepted `worker.Run`. -/
structure Job (α β : Type) where
  item : α
  /-- the state of `xtask.Do` for it (xworker.go:40) -/
  d : DoSt Err Unit
  /-- the deferred `waitGroup.Done()` has been executed (xmapreduce.go:111-113) -/
  deferred : Bool
  /-- what `mapFunc` has still to write -/
  writes : List β
  /-- `mapFunc` is inside `Write`, behind the test of the context (writebarrier.go:48-49) -/
  sending : Bool
  /-- the results of the `Write` calls so far (history variable) -/
  results : List Bool

/-- Program points of `doMap`. -/
inductive Pc (α : Type) where
  /-- xmapreduce.go:101 -/
  | select
  /-- xmapreduce.go:108 -/
  | add (x : α)
  /-- xmapreduce.go:109, at `w.c <- struct{}{}` (xworker.go:37) -/
  | run (x : α)
  /-- xmapreduce.go:94 -/
  | wait
  /-- xmapreduce.go:95 -/
  | close
  | ended
  deriving DecidableEq

/-- The state of a call of `Map` (xmapreduce.go:64-116): the variables of `doMap`, the generator, the jobs and the consumer. -/
structure MR (α β : Type) where
  ctx : Option Err
  /-- what the generator has still to send on the unbuffered `source` -/
  gen : List α
  /-- `source` has been closed (xmapreduce.go:83) -/
  srcClosed : Bool
  pc : Pc α
  /-- the counter of the wait group -/
  wg : Int
  /-- the slots of the worker (xworker.go:27) -/
  slots : Chan Unit
  collector : Chan β
  jobs : List (Job α β)
  /-- what the consumer has received -/
  out : List β
  /-- the consumer has seen the end of the channel -/
  drained : Bool
  /-- an unrecovered panic has ended the program -/
  crashed : Bool
  /-- how often `close(collector)` has been executed (history variable) -/
  closes : Nat

/-- xmapreduce.go:64-72 `Map`, up to the start of the goroutines. -/
def start (items : List α) (size : Nat) (ctx : Option Err) : MR α β :=
  ⟨ctx, items, false, .select, 0, Chan.make size, Chan.make size, [], [], false, false, 0⟩

/-- xworker.go:36-40: a goroutine that is about to call `Do`; `mapFunc` will be called with `x` (xmapreduce.go:109-111). -/
def Job.new (ctx : Option Err) (f : α → List β) (x : α) : Job α β := ⟨x, doInit ctx, false, f x, false, []⟩

/-- All interleavings. Nothing happens any more after a crash. -/
inductive Step (f : α → List β) : MR α β → MR α β → Prop where
  /-- the context becomes done, for everybody -/
  | cancel (m : MR α β) : m.crashed = false → m.ctx = none →
      Step f m { m with ctx := some .ctx, jobs := m.jobs.map fun j => { j with d := { j.d with ctx := some .ctx } } }
  /-- xmapreduce.go:84 and 104: an item is handed over -/
  | handOver (m : MR α β) (x : α) (xs : List α) : m.crashed = false → m.gen = x :: xs → m.pc = .select →
      Step f m { m with gen := xs, pc := .add x }
  /-- xmapreduce.go:83 -/
  | closeSource (m : MR α β) : m.crashed = false → m.gen = [] → m.srcClosed = false → Step f m { m with srcClosed := true }
  /-- xmapreduce.go:102-103 -/
  | selectDone (m : MR α β) : m.crashed = false → m.pc = .select → m.ctx ≠ none → Step f m { m with pc := .wait }
  /-- xmapreduce.go:105-107 -/
  | selectClosed (m : MR α β) : m.crashed = false → m.pc = .select → m.srcClosed = true → Step f m { m with pc := .wait }
  /-- xmapreduce.go:108 -/
  | add (m : MR α β) (x : α) : m.crashed = false → m.pc = .add x → Step f m { m with wg := m.wg + 1, pc := .run x }
  /-- xmapreduce.go:109, xworker.go:37-39 -/
  | run (m : MR α β) (x : α) (c : Chan Unit) : m.crashed = false → m.pc = .run x → m.slots.send () = .sent c →
      Step f m { m with slots := c, jobs := m.jobs ++ [Job.new m.ctx f x], pc := .select }
  /-- xworker.go:40: a step of `Do`, other than the end of `mapFunc`, the deferred function and cancellation -/
  | doStep (m : MR α β) (l₁ l₂ : List (Job α β)) (j : Job α β) (d' : DoSt Err Unit) : m.crashed = false → m.jobs = l₁ ++ j :: l₂ →
      DoStep true j.d d' → d'.ctx = j.d.ctx → (∀ o, d'.caller = .left o → j.d.caller = .left o) →
      (∀ o, d'.gor = .finished o → j.d.gor = .finished o) →
      Step f m { m with jobs := l₁ ++ { j with d := d' } :: l₂ }
  /-- writebarrier.go:48, the context is not done -/
  | writeGo (m : MR α β) (l₁ l₂ : List (Job α β)) (j : Job α β) (v : β) (vs : List β) : m.crashed = false → m.jobs = l₁ ++ j :: l₂ →
      j.d.gor = .running → j.writes = v :: vs → j.sending = false → m.ctx = none →
      Step f m { m with jobs := l₁ ++ { j with sending := true } :: l₂ }
  /-- writebarrier.go:46-47, the context is done -/
  | writeDone (m : MR α β) (l₁ l₂ : List (Job α β)) (j : Job α β) (v : β) (vs : List β) : m.crashed = false → m.jobs = l₁ ++ j :: l₂ →
      j.d.gor = .running → j.writes = v :: vs → j.sending = false → m.ctx ≠ none →
      Step f m { m with jobs := l₁ ++ { j with writes := vs, results := j.results ++ [false] } :: l₂ }
  /-- writebarrier.go:49-50 -/
  | writeSent (m : MR α β) (l₁ l₂ : List (Job α β)) (j : Job α β) (v : β) (vs : List β) (c : Chan β) : m.crashed = false →
      m.jobs = l₁ ++ j :: l₂ → j.d.gor = .running → j.writes = v :: vs → j.sending = true → m.collector.send v = .sent c →
      Step f m { m with collector := c, jobs := l₁ ++ { j with writes := vs, sending := false, results := j.results ++ [true] } :: l₂ }
  /-- writebarrier.go:49 on a closed channel: a panic, which ends `mapFunc` -/
  | writePanic (m : MR α β) (l₁ l₂ : List (Job α β)) (j : Job α β) (v : β) (vs : List β) (d' : DoSt Err Unit) : m.crashed = false →
      m.jobs = l₁ ++ j :: l₂ → j.d.gor = .running → j.writes = v :: vs → j.sending = true → m.collector.send v = .panic →
      DoStep true j.d d' → d'.gor = .finished (.panicked ()) →
      Step f m { m with jobs := l₁ ++ { j with d := d' } :: l₂ }
  /-- `mapFunc` returns -/
  | mapReturn (m : MR α β) (l₁ l₂ : List (Job α β)) (j : Job α β) (d' : DoSt Err Unit) : m.crashed = false →
      m.jobs = l₁ ++ j :: l₂ → j.d.gor = .running → j.writes = [] → DoStep true j.d d' → d'.gor = .finished (.returned .nil) →
      Step f m { m with jobs := l₁ ++ { j with d := d' } :: l₂ }
  /-- xmapreduce.go:112 in the deferred function of `Do`; a negative counter panics -/
  | done (m : MR α β) (l₁ l₂ : List (Job α β)) (j : Job α β) (o : Out Err Unit) : m.crashed = false → m.jobs = l₁ ++ j :: l₂ →
      j.d.caller = .leave o → j.deferred = false →
      Step f m { m with wg := m.wg - 1, jobs := l₁ ++ { j with deferred := true } :: l₂, crashed := decide (m.wg ≤ 0) }
  /-- xworker.go:45; a panic of `Do` is not recovered -/
  | release (m : MR α β) (l₁ l₂ : List (Job α β)) (j : Job α β) (o : Out Err Unit) (d' : DoSt Err Unit) (c : Chan Unit) : m.crashed = false →
      m.jobs = l₁ ++ j :: l₂ → j.d.caller = .leave o → j.deferred = true → m.slots.recv = .got () c → DoStep true j.d d' → d'.caller = .left o →
      Step f m { m with slots := c, jobs := l₁ ++ { j with d := d' } :: l₂, crashed := match o with | .err _ => false | .panic _ => true }
  /-- xmapreduce.go:94 -/
  | waited (m : MR α β) : m.crashed = false → m.pc = .wait → m.wg = 0 → Step f m { m with pc := .close }
  /-- xmapreduce.go:95; closing a closed channel panics -/
  | close (m : MR α β) : m.crashed = false → m.pc = .close →
      Step f m { m with pc := .ended, collector := { m.collector with closed := true }, closes := m.closes + 1, crashed := m.collector.closed }
  /-- the consumer receives a value -/
  | consume (m : MR α β) (v : β) (c : Chan β) : m.crashed = false → m.collector.recv = .got v c →
      Step f m { m with collector := c, out := m.out ++ [v] }
  /-- the consumer sees the end of the channel -/
  | consumeEnd (m : MR α β) : m.crashed = false → m.drained = false → m.collector.recv = .closed → Step f m { m with drained := true }

/-- Reachable states; `ctx` is the state of the context at the call of `Map`. -/
inductive Reach (items : List α) (f : α → List β) (size : Nat) (ctx : Option Err) : MR α β → Prop where
  | init : Reach items f size ctx (start items size ctx)
  | step {m m' : MR α β} : Reach items f size ctx m → Step f m m' → Reach items f size ctx m'

/-- xmapreduce.go:53-61 `loadOption`: the default worker size is 16, the last option wins. -/
def loadOption (opts : List Int) : Int := opts.foldl (fun _ n => n) 16

/-- xmapreduce.go:64-72: `make` panics for a negative worker size. -/
def map (items : List α) (ctx : Option Err) (opts : List Int) : Option (MR α β) :=
  if loadOption opts < 0 then none else some (start items (loadOption opts).toNat ctx)

end Verif.XMapReduce
