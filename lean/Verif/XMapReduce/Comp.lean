import Verif.XMapReduce.Model
import Verif.Conc.Net
/-!
# `Map` and `MapStream` as a part of a program with streams

The model of `Map` in `Verif.XMapReduce.Model` contains the channel it returns and a consumer of that channel. Here the same executions are
seen from the outside: the channel is one of the channels of a network, and its reader is whoever reads the stream. In the states of
this component the channel inside is always empty and its consumer takes a value in the moment in which it is sent; the real channel, with
room for as many values as there are workers, is the one of the network. In `mapC` the context is never done, in `mapCtxC` it may become
done at any time.
-/
namespace Verif.XMapReduce
open Verif.Go Verif.XTask Verif.Conc.Net

variable {α β L : Type}

/-- xmapreduce.go:64-72 with everything it starts: `Step`, where sending to and closing the collector are steps at output 0, the consumer
inside `Step` takes every value as it is sent, and nobody cancels the context. -/
def MapStep (f : α → List β) (m : MR α β) : Lbl β L → MR α β → Prop
  | .tau, m' => Step f m m' ∧ m'.collector = m.collector ∧ m'.ctx = m.ctx ∧ m'.drained = m.drained
  | .send q v, m' => q = 0 ∧ ∃ m₁, Step f m m₁ ∧ m₁.collector.buf = [v] ∧ Step f m₁ m' ∧ m'.collector.buf = [] ∧ m'.out = m.out ++ [v]
  | .close q, m' => q = 0 ∧ Step f m m' ∧ m'.closes = m.closes + 1
  | _, _ => False

/-- All goroutines have ended: the generator, `doMap`, the workers, the mappings. -/
def MR.over (m : MR α β) : Prop :=
  m.srcClosed = true ∧ m.pc = .ended ∧ ∀ j ∈ m.jobs, (∃ o, j.d.caller = .left o) ∧ ∃ o, j.d.gor = .ended o

/-- xmapreduce.go:75-77 `MapStream` (and 64-72 `Map`): the collector has room for as many values as there are workers (line 68). -/
def mapC (items : List α) (f : α → List β) (size : Nat) : Comp β L where
  σ := MR α β
  nin := 0
  nout := 1
  init := start items size none
  cap := fun _ _ => size
  step := MapStep f
  done := MR.over

/-- The same when the context may become done: at any time, as long as that makes a difference to anybody. -/
def MapCtxStep (f : α → List β) (over : MR α β → Prop) (m : MR α β) : Lbl β L → MR α β → Prop
  | .tau, m' => Step f m m' ∧ m'.collector = m.collector ∧ m'.drained = m.drained ∧ (m'.ctx ≠ m.ctx → ¬ over m)
  | l, m' => MapStep f m l m'

/-- All goroutines have ended, except for a generator that nobody listens to any more (xmapreduce.go:84, 102-103): `doMap`, the workers, and
the mappings, some of which may not have been started because the context was done (do.go:33-35). -/
def MR.overCtx (m : MR α β) : Prop :=
  m.pc = .ended ∧ (∀ j ∈ m.jobs, (∃ o, j.d.caller = .left o) ∧ (j.d.gor = .none ∨ ∃ o, j.d.gor = .ended o)) ∧
    (m.srcClosed = true ∨ m.ctx ≠ none ∧ m.gen ≠ [])

/-- xmapreduce.go:75-77 `MapStream` (and 64-72 `Map`) with a context that may become done at any time. A context that is done from the
beginning is one that becomes done in the first step. -/
def mapCtxC (items : List α) (f : α → List β) (size : Nat) : Comp β L where
  σ := MR α β
  nin := 0
  nout := 1
  init := start items size none
  cap := fun _ _ => size
  step := MapCtxStep f MR.overCtx
  done := MR.overCtx

end Verif.XMapReduce
