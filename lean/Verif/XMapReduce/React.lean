import Verif.XMapReduce.Model
/-!
# `xmapreduce.Map` with a `mapFunc` that reacts to the results of `Write`

In `Model.lean` `mapFunc` is a list of values, all of which it tries to write, whatever `Write` reports. Here it is any program that decides
by the results of its `Write` calls what it does next: `Write` returns `false` when the context is done (writebarrier.go:46-47), and it is
usual to return then (xmapreduce_test.go does not look at the result, but nothing else tells `mapFunc` about the cancellation).

Everything else is as in `Model.lean`: the same goroutines, the same channels.
-/
namespace Verif.XMapReduce
open Verif.Go Verif.XTask

variable {α β : Type}

/-- What `mapFunc` does for one item: it returns, or it calls `Write(v)` and goes on with `k`, applied to the result of this call.
It neither panics nor hangs (a `Write` in it can do both). -/
inductive MapF (β : Type) where
  | ret
  | write (v : β) (k : Bool → MapF β)

/-- One accepted `worker.Run`, as `Job`. -/
structure JobA (α β : Type) where
  item : α
  /-- the state of `xtask.Do` for it (xworker.go:40) -/
  d : DoSt Err Unit
  /-- the deferred `waitGroup.Done()` has been executed (xmapreduce.go:111-113) -/
  deferred : Bool
  /-- the rest of `mapFunc` -/
  code : MapF β
  /-- `mapFunc` is inside `Write`, behind the test of the context (writebarrier.go:48-49) -/
  sending : Bool
  /-- the results of the `Write` calls so far (history variable) -/
  results : List Bool

/-- As `MR`. -/
structure MRA (α β : Type) where
  ctx : Option Err
  /-- what the generator has still to send on the unbuffered `source` -/
  gen : List α
  /-- `source` has been closed (xmapreduce.go:83) -/
  srcClosed : Bool
  pc : Pc α
  /-- the counter of the wait group -/
  wg : Int
  /-- the slots of the worker (xworker.go:27) -/
  slots : Chan Unit
  collector : Chan β
  jobs : List (JobA α β)
  /-- what the consumer has received -/
  out : List β
  /-- the consumer has seen the end of the channel -/
  drained : Bool
  /-- an unrecovered panic has ended the program -/
  crashed : Bool
  /-- how often `close(collector)` has been executed (history variable) -/
  closes : Nat

/-- xmapreduce.go:64-72 `Map`, up to the start of the goroutines. -/
def startA (items : List α) (size : Nat) (ctx : Option Err) : MRA α β :=
  ⟨ctx, items, false, .select, 0, Chan.make size, Chan.make size, [], [], false, false, 0⟩

/-- xworker.go:37-40: `mapFunc` will be called with the item `x`. -/
def JobA.new (ctx : Option Err) (F : α → MapF β) (x : α) : JobA α β := ⟨x, doInit ctx, false, F x, false, []⟩

/-- All interleavings, as `Step`; different are only the steps of `mapFunc`. Nothing happens any more after a crash. -/
inductive StepA (F : α → MapF β) : MRA α β → MRA α β → Prop where
  /-- the context becomes done, for everybody -/
  | cancel (m : MRA α β) : m.crashed = false → m.ctx = none →
      StepA F m { m with ctx := some .ctx, jobs := m.jobs.map fun j => { j with d := { j.d with ctx := some .ctx } } }
  /-- xmapreduce.go:84 and 104: an item is handed over -/
  | handOver (m : MRA α β) (x : α) (xs : List α) : m.crashed = false → m.gen = x :: xs → m.pc = .select →
      StepA F m { m with gen := xs, pc := .add x }
  /-- xmapreduce.go:83 -/
  | closeSource (m : MRA α β) : m.crashed = false → m.gen = [] → m.srcClosed = false → StepA F m { m with srcClosed := true }
  /-- xmapreduce.go:102-103 -/
  | selectDone (m : MRA α β) : m.crashed = false → m.pc = .select → m.ctx ≠ none → StepA F m { m with pc := .wait }
  /-- xmapreduce.go:105-107 -/
  | selectClosed (m : MRA α β) : m.crashed = false → m.pc = .select → m.srcClosed = true → StepA F m { m with pc := .wait }
  /-- xmapreduce.go:108 -/
  | add (m : MRA α β) (x : α) : m.crashed = false → m.pc = .add x → StepA F m { m with wg := m.wg + 1, pc := .run x }
  /-- xmapreduce.go:109, xworker.go:37-39 -/
  | run (m : MRA α β) (x : α) (c : Chan Unit) : m.crashed = false → m.pc = .run x → m.slots.send () = .sent c →
      StepA F m { m with slots := c, jobs := m.jobs ++ [JobA.new m.ctx F x], pc := .select }
  /-- xworker.go:40: a step of `Do`, other than the end of `mapFunc`, the deferred function and cancellation -/
  | doStep (m : MRA α β) (l₁ l₂ : List (JobA α β)) (j : JobA α β) (d' : DoSt Err Unit) : m.crashed = false → m.jobs = l₁ ++ j :: l₂ →
      DoStep true j.d d' → d'.ctx = j.d.ctx → (∀ o, d'.caller = .left o → j.d.caller = .left o) →
      (∀ o, d'.gor = .finished o → j.d.gor = .finished o) →
      StepA F m { m with jobs := l₁ ++ { j with d := d' } :: l₂ }
  /-- writebarrier.go:48, the context is not done -/
  | writeGo (m : MRA α β) (l₁ l₂ : List (JobA α β)) (j : JobA α β) (v : β) (k : Bool → MapF β) : m.crashed = false → m.jobs = l₁ ++ j :: l₂ →
      j.d.gor = .running → j.code = .write v k → j.sending = false → m.ctx = none →
      StepA F m { m with jobs := l₁ ++ { j with sending := true } :: l₂ }
  /-- writebarrier.go:46-47, the context is done: `Write` returns `false` -/
  | writeDone (m : MRA α β) (l₁ l₂ : List (JobA α β)) (j : JobA α β) (v : β) (k : Bool → MapF β) : m.crashed = false → m.jobs = l₁ ++ j :: l₂ →
      j.d.gor = .running → j.code = .write v k → j.sending = false → m.ctx ≠ none →
      StepA F m { m with jobs := l₁ ++ { j with code := k false, results := j.results ++ [false] } :: l₂ }
  /-- writebarrier.go:49-50: `Write` returns `true` -/
  | writeSent (m : MRA α β) (l₁ l₂ : List (JobA α β)) (j : JobA α β) (v : β) (k : Bool → MapF β) (c : Chan β) : m.crashed = false →
      m.jobs = l₁ ++ j :: l₂ → j.d.gor = .running → j.code = .write v k → j.sending = true → m.collector.send v = .sent c →
      StepA F m { m with collector := c, jobs := l₁ ++ { j with code := k true, sending := false, results := j.results ++ [true] } :: l₂ }
  /-- writebarrier.go:49 on a closed channel: a panic, which ends `mapFunc` -/
  | writePanic (m : MRA α β) (l₁ l₂ : List (JobA α β)) (j : JobA α β) (v : β) (k : Bool → MapF β) (d' : DoSt Err Unit) : m.crashed = false →
      m.jobs = l₁ ++ j :: l₂ → j.d.gor = .running → j.code = .write v k → j.sending = true → m.collector.send v = .panic →
      DoStep true j.d d' → d'.gor = .finished (.panicked ()) →
      StepA F m { m with jobs := l₁ ++ { j with d := d' } :: l₂ }
  /-- `mapFunc` returns -/
  | mapReturn (m : MRA α β) (l₁ l₂ : List (JobA α β)) (j : JobA α β) (d' : DoSt Err Unit) : m.crashed = false →
      m.jobs = l₁ ++ j :: l₂ → j.d.gor = .running → j.code = .ret → DoStep true j.d d' → d'.gor = .finished (.returned .nil) →
      StepA F m { m with jobs := l₁ ++ { j with d := d' } :: l₂ }
  /-- xmapreduce.go:112 in the deferred function of `Do`; a negative counter panics -/
  | done (m : MRA α β) (l₁ l₂ : List (JobA α β)) (j : JobA α β) (o : Out Err Unit) : m.crashed = false → m.jobs = l₁ ++ j :: l₂ →
      j.d.caller = .leave o → j.deferred = false →
      StepA F m { m with wg := m.wg - 1, jobs := l₁ ++ { j with deferred := true } :: l₂, crashed := decide (m.wg ≤ 0) }
  /-- xworker.go:45; a panic of `Do` is not recovered -/
  | release (m : MRA α β) (l₁ l₂ : List (JobA α β)) (j : JobA α β) (o : Out Err Unit) (d' : DoSt Err Unit) (c : Chan Unit) : m.crashed = false →
      m.jobs = l₁ ++ j :: l₂ → j.d.caller = .leave o → j.deferred = true → m.slots.recv = .got () c → DoStep true j.d d' → d'.caller = .left o →
      StepA F m { m with slots := c, jobs := l₁ ++ { j with d := d' } :: l₂, crashed := match o with | .err _ => false | .panic _ => true }
  /-- xmapreduce.go:94 -/
  | waited (m : MRA α β) : m.crashed = false → m.pc = .wait → m.wg = 0 → StepA F m { m with pc := .close }
  /-- xmapreduce.go:95; closing a closed channel panics -/
  | close (m : MRA α β) : m.crashed = false → m.pc = .close →
      StepA F m { m with pc := .ended, collector := { m.collector with closed := true }, closes := m.closes + 1, crashed := m.collector.closed }
  /-- the consumer receives a value -/
  | consume (m : MRA α β) (v : β) (c : Chan β) : m.crashed = false → m.collector.recv = .got v c →
      StepA F m { m with collector := c, out := m.out ++ [v] }
  /-- the consumer sees the end of the channel -/
  | consumeEnd (m : MRA α β) : m.crashed = false → m.drained = false → m.collector.recv = .closed → StepA F m { m with drained := true }

/-- Reachable states; `ctx` is the state of the context at the call of `Map`. -/
inductive ReachA (items : List α) (F : α → MapF β) (size : Nat) (ctx : Option Err) : MRA α β → Prop where
  | init : ReachA items F size ctx (startA items size ctx)
  | step {m m' : MRA α β} : ReachA items F size ctx m → StepA F m m' → ReachA items F size ctx m'

/-- Executions with their number of steps. -/
inductive RunA (F : α → MapF β) : Nat → MRA α β → MRA α β → Prop where
  | nil (m : MRA α β) : RunA F 0 m m
  | snoc {n : Nat} {m m' m'' : MRA α β} : RunA F n m m' → StepA F m' m'' → RunA F (n + 1) m m''

/-! ## Specification -/

/-- What `mapFunc` writes if every `Write` reports `true`. -/
def MapF.all : MapF β → List β
  | .ret => []
  | .write v k => v :: (k true).all

/-- The largest number of `Write` calls of `mapFunc`. -/
def MapF.depth : MapF β → Nat
  | .ret => 0
  | .write _ k => 1 + max (k true).depth (k false).depth

/-- What `mapFunc` has still to do after `Write` calls with these results. -/
def MapF.after : MapF β → List Bool → MapF β
  | c, [] => c
  | .ret, _ :: _ => .ret
  | .write _ k, b :: bs => (k b).after bs

/-- The values `mapFunc` passes to `Write` if the calls have these results, each with the result of its call. -/
def MapF.calls : MapF β → List Bool → List (β × Bool)
  | _, [] => []
  | .ret, _ :: _ => []
  | .write v k, b :: bs => (v, b) :: (k b).calls bs

/-- The values that were accepted among these calls. -/
def accepted (l : List (β × Bool)) : List β := (l.filter (·.2)).map (·.1)

end Verif.XMapReduce
