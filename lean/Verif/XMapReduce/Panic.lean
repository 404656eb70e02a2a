import Verif.XMapReduce.Model
/-!
# `Map` with functions that panic

The model of `Model.lean` with a `mapFunc` that panics for some items, after it has written the values `f x`, and a `generateFunc` that may
panic after it has sent its items.
-/
namespace Verif.XMapReduce
open Verif.Go Verif.XTask

variable {α β : Type}

/-- All interleavings. `dies x` tells whether `mapFunc` panics for the item `x`, `genDies` whether `generateFunc` panics. -/
inductive StepP (f : α → List β) (dies : α → Bool) (genDies : Bool) : MR α β → MR α β → Prop where
  /-- every step of `Model.lean`; but where `mapFunc` panics, it does not return -/
  | other (m m' : MR α β) : Step f m m' →
      (∀ (i : Nat) (j j' : Job α β), m.jobs[i]? = some j → m'.jobs[i]? = some j' → j.d.gor = .running → j'.d.gor = .finished (.returned .nil) →
        dies j.item = false) →
      StepP f dies genDies m m'
  /-- xmapreduce.go:110: `mapFunc` panics -/
  | mapPanic (m : MR α β) (l₁ l₂ : List (Job α β)) (j : Job α β) (d' : DoSt Err Unit) : m.crashed = false →
      m.jobs = l₁ ++ j :: l₂ → j.d.gor = .running → j.writes = [] → dies j.item = true → DoStep true j.d d' → d'.gor = .finished (.panicked ()) →
      StepP f dies genDies m { m with jobs := l₁ ++ { j with d := d' } :: l₂ }
  /-- xmapreduce.go:84: `generateFunc` panics; the deferred `close` (line 83) is executed, then the panic ends the program -/
  | genPanic (m : MR α β) : m.crashed = false → genDies = true → m.srcClosed = true → StepP f dies genDies m { m with crashed := true }

/-- Reachable states. -/
inductive ReachP (items : List α) (f : α → List β) (dies : α → Bool) (genDies : Bool) (size : Nat) (ctx : Option Err) : MR α β → Prop where
  | init : ReachP items f dies genDies size ctx (start items size ctx)
  | step {m m' : MR α β} : ReachP items f dies genDies size ctx m → StepP f dies genDies m m' → ReachP items f dies genDies size ctx m'

end Verif.XMapReduce
