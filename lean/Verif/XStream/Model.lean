import Verif.Conc.Seq
import Verif.Go.Base
import Verif.Go.GoMap
import Verif.XRing.Model
import Verif.XMapReduce.Comp
/-!
# Model of package xstream

Every stream operation is a component of a network (`Verif.Conc.Net`): its goroutines, an input channel `s.source` and an output
channel. One atomic step is one channel operation, one call of a user function or one piece of sequential code between them.

Simplifications, for the whole file: `pool.Submit` of the ants pool (xstream.go:84-86, an unlimited pool) is the `go` statement, except
that a panic in a submitted function ends this function only (ants recovers it); user functions are pure functions (calls with an
observable effect are logged); those of `Walk`, `Filter`, `Map`, `FlatMap` and `ParallelFinish` may panic, and so may the function of
`From` (which then has sent its elements, see `fromS`); the others do not panic here, see `XStream/Panic.lean` for what happens if
they do; the input channel of an operation is read by that operation only.
-/
namespace Verif.XStream
open Verif.Go Verif.Conc.Net

/-- `interface{}` values: `nil`, `[]interface{}` slices, streams (given by what their channel holds when they are handed over) and
all other values. -/
inductive Val (α : Type) where
  | nil
  | atom (a : α)
  | slice (l : List (Val α))
  | stream (l : List (Val α))

/-- What a terminal operation returns. -/
inductive Ret (α K : Type) where
  | unit
  | int (n : Int)
  | bool (b : Bool)
  /-- an element and a nil error -/
  | elem (v : Val α)
  /-- nil and `ErrNoElement` -/
  | noElement
  | groups (g : GMap K (List (Val α)))

/-- Observable events other than channel operations. -/
inductive Ev (α K : Type) where
  /-- the user function is called with this element -/
  | call (v : Val α)
  /-- the user function returns -/
  | finish (v : Val α)
  /-- the user function panics -/
  | panic (v : Val α)
  /-- the operation returns to its caller -/
  | ret (r : Ret α K)
  /-- SplitSteam closes the channel of its `k`-th chunk -/
  | closeChunk (k : Nat)

variable {α K : Type}

/-! ## Sources -/

/-- States of a goroutine that sends the elements of a list and closes the channel. -/
inductive SendSt (α : Type) where
  | loop (rest : List (Val α))
  | done

/-- The loop that sends the items and closes the channel (xstream.go:110-114, 99, 128-131). -/
def SendSt.next : SendSt α → Cmd (Val α) (Ev α K) (SendSt α)
  | .loop (v :: rest) => .send 0 v (.loop rest)
  | .loop [] => .close 0 .done
  | .done => .done

/-- xstream.go:103-117 `Of`. For no items (105-107) the shared closed channel of `Empty()` is returned, which is modelled by a channel
that is closed in the first step. -/
def ofS (items : List (Val α)) : Seq (Val α) (Ev α K) := ⟨SendSt α, 0, 1, .loop items, fun _ _ => items.length, SendSt.next⟩

/-- xstream.go:125-132 `From`, where `items` is what `generate` sends before it returns or panics (`close(source)` is deferred in the function
which the ants pool runs, so that it runs in either case); also the writer of the channel given to `Range`
(xstream.go:96-100), for any capacity. -/
def fromS (cap : Nat) (items : List (Val α)) : Seq (Val α) (Ev α K) := ⟨SendSt α, 0, 1, .loop items, fun _ _ => cap, SendSt.next⟩

/-! ## Stages that forward as they receive -/

/-- Points of the loops of `Buffer` (xstream.go:162-175) and `Peek` (589-601). -/
inductive FwdSt (α : Type) where
  | loop
  | send (v : Val α)
  | call (v : Val α)
  | closing
  | done

/-- xstream.go:168-171 -/
def bufferNext : FwdSt α → Cmd (Val α) (Ev α K) (FwdSt α)
  | .loop => .recv 0 fun | some v => .send v | none => .closing
  | .send v => .send 0 v .loop
  | .call _ => .done
  | .closing => .close 0 .done
  | .done => .done

/-- xstream.go:162-175 `Buffer(n)`: a negative `n` counts as 0. -/
def bufferS (n : Int) : Seq (Val α) (Ev α K) :=
  ⟨FwdSt α, 1, 1, .loop, fun _ _ => (if n < 0 then 0 else n).toNat, bufferNext⟩

/-- xstream.go:592-596 -/
def peekNext : FwdSt α → Cmd (Val α) (Ev α K) (FwdSt α)
  | .loop => .recv 0 fun | some v => .send v | none => .closing
  | .send v => .send 0 v (.call v)
  | .call v => .log (.call v) .loop
  | .closing => .close 0 .done
  | .done => .done

/-- xstream.go:589-600 `Peek`: the function is called after the element has been sent. -/
def peekS : Seq (Val α) (Ev α K) := ⟨FwdSt α, 1, 1, .loop, fun _ _ => 0, peekNext⟩

/-- Points of the goroutine of `Distinct` (xstream.go:138-149). -/
inductive DistinctSt (α K : Type) where
  /-- `unique`: the keys so far -/
  | loop (unique : List K)
  | send (v : Val α) (unique : List K)
  | closing
  | done

/-- xstream.go:141-148, with the deferred close (139). -/
def distinctNext [DecidableEq K] (f : Val α → K) : DistinctSt α K → Cmd (Val α) (Ev α K) (DistinctSt α K)
  | .loop u => .recv 0 fun
    | some v => if f v ∈ u then .loop u else .send v u
    | none => .closing
  | .send v u => .send 0 v (.loop (f v :: u))
  | .closing => .close 0 .done
  | .done => .done

/-- xstream.go:135-151 `Distinct`. For key functions that panic and keys that cannot be map keys see `distinctP` in `Panic.lean`. -/
def distinctS [DecidableEq K] (f : Val α → K) : Seq (Val α) (Ev α K) :=
  ⟨DistinctSt α K, 1, 1, .loop [], fun _ _ => 0, distinctNext f⟩

/-- Points of the goroutine of `Skip` (xstream.go:296-306), with the loop variable. -/
inductive SkipSt (α : Type) where
  | loop (i : Int)
  | send (v : Val α) (i : Int)
  | closing
  | done

/-- xstream.go:299-305, with the deferred close (297); `i++` wraps around. -/
def skipNext (size : Int) : SkipSt α → Cmd (Val α) (Ev α K) (SkipSt α)
  | .loop i => .recv 0 fun
    | some v => if i ≥ size then .send v i else .loop (wrap64 (i + 1))
    | none => .closing
  | .send v i => .send 0 v (.loop (wrap64 (i + 1)))
  | .closing => .close 0 .done
  | .done => .done

/-- xstream.go:295-308 -/
def skipS (size : Int) : Seq (Val α) (Ev α K) := ⟨SkipSt α, 1, 1, .loop 0, fun _ _ => 0, skipNext size⟩

/-- Points of the goroutine of `Limit` (xstream.go:322-341), with its variable `size`. -/
inductive LimitSt (α : Type) where
  /-- at the `range` receive -/
  | loop (size : Int)
  | send (v : Val α) (size : Int)
  /-- before `size--` (330) -/
  | dec (size : Int)
  /-- at the `close` inside the loop (333) -/
  | closing (size : Int)
  /-- after the loop (337) -/
  | fin (size : Int)
  | closeEnd
  | done

/-- xstream.go:325-339; `size--` wraps around. -/
def limitNext : LimitSt α → Cmd (Val α) (Ev α K) (LimitSt α)
  | .loop size => .recv 0 fun
    | some v => if size > 0 then .send v size else .dec size
    | none => .fin size
  | .send v size => .send 0 v (.dec size)
  | .dec size => .tau (if wrap64 (size - 1) = 0 then .closing (wrap64 (size - 1)) else .loop (wrap64 (size - 1)))
  | .closing size => .close 0 (.loop size)
  | .fin size => .tau (if size > 0 then .closeEnd else .done)
  | .closeEnd => .close 0 .done
  | .done => .done

/-- xstream.go:322-342 -/
def limitS (size : Int) : Seq (Val α) (Ev α K) := ⟨LimitSt α, 1, 1, .loop size, fun _ _ => 0, limitNext⟩

/-- Points of `drain` (xstream.go:636-639) behind an empty stream (313-318, 257-262). -/
inductive DrainSt where
  | close
  | loop
  | done

/-- xstream.go:636-639 `drain`; the channel of the new stream is closed first (`Empty`, 91-93). -/
def drainNext : DrainSt → Cmd (Val α) (Ev α K) DrainSt
  | .close => .close 0 .loop
  | .loop => .recv 0 fun | some _ => .loop | none => .done
  | .done => .done

/-- xstream.go:313-318 (`Limit(0)`) and 257-262 (`Tail(0)`): an empty stream, while a goroutine drains the input (636-639). The shared
closed channel is modelled by a channel that is closed in the first step. -/
def emptyS : Seq (Val α) (Ev α K) := ⟨DrainSt, 1, 1, .close, fun _ _ => 0, drainNext⟩

/-! ## Stages that collect -/

/-- Points of the goroutine of `Split` (xstream.go:193-206), with its variable `chunk`. -/
inductive SplitSt (α : Type) where
  | loop (chunk : List (Val α))
  | send (chunk : List (Val α))
  | last (chunk : List (Val α))
  | closing
  | done

/-- xstream.go:194-205. A nil slice is the empty list: `chunk` is never non-nil and empty. -/
def splitNext (n : Int) : SplitSt α → Cmd (Val α) (Ev α K) (SplitSt α)
  | .loop chunk => .recv 0 fun
    | some v => if ((chunk ++ [v]).length : Int) = n then .send (chunk ++ [v]) else .loop (chunk ++ [v])
    | none => if chunk ≠ [] then .last chunk else .closing
  | .send chunk => .send 0 (.slice chunk) (.loop [])
  | .last chunk => .send 0 (.slice chunk) .closing
  | .closing => .close 0 .done
  | .done => .done

/-- xstream.go:192-207 -/
def splitS (n : Int) : Seq (Val α) (Ev α K) := ⟨SplitSt α, 1, 1, .loop [], fun _ _ => 0, splitNext n⟩

/-- Points of the goroutine of `SplitSteam` (xstream.go:216-237). -/
inductive SplitStSt (α : Type) where
  /-- number of chunks handed over, content of the channel `chunkSource` -/
  | loop (k : Nat) (chunk : List (Val α))
  /-- at `chunkSource <- item` (222) -/
  | put (k : Nat) (chunk : List (Val α)) (v : Val α)
  | send (k : Nat) (chunk : List (Val α))
  | closeChunk (k : Nat)
  | last (k : Nat) (chunk : List (Val α))
  | closeLast (k : Nat)
  | closing
  | done

/-- xstream.go:220-235. The channel `chunkSource` has room for `n` values; a send on it that would block is an endless loop. -/
def splitSteamNext (n : Int) : SplitStSt α → Cmd (Val α) (Ev α K) (SplitStSt α)
  | .loop k chunk => .recv 0 fun
    | some v => .put k chunk v
    | none => if (chunk.length : Int) ≠ 0 then .last k chunk else .closing
  | .put k chunk v =>
    if (chunk.length : Int) < n then
      .tau (if ((chunk ++ [v]).length : Int) = n then .send k (chunk ++ [v]) else .loop k (chunk ++ [v]))
    else .tau (.put k chunk v)
  | .send k chunk => .send 0 (.stream chunk) (.closeChunk k)
  | .closeChunk k => .log (.closeChunk k) (.loop (k + 1) [])
  | .last k chunk => .send 0 (.stream chunk) (.closeLast k)
  | .closeLast k => .log (.closeChunk k) .closing
  | .closing => .close 0 .done
  | .done => .done

/-- xstream.go:218-238 -/
def splitSteamS (n : Int) : Seq (Val α) (Ev α K) := ⟨SplitStSt α, 1, 1, .loop 0 [], fun _ _ => 0, splitSteamNext n⟩

/-- Points of the goroutine of `Tail` (xstream.go:266-277), with its ring. -/
inductive TailSt (α : Type) where
  | loop (r : XRing.Ring (Val α))
  | sending (rest : List (Val α))
  | done

/-- xstream.go:270-276 with the deferred close (268). A panic in `add` or `take` (which needs an overflow of the counter) ends the
goroutine after the deferred close. -/
def tailNext : TailSt α → Cmd (Val α) (Ev α K) (TailSt α)
  | .loop r => .recv 0 fun
    | some v => match r.add v with
      | some r' => .loop r'
      | none => .sending []
    | none => match r.take with
      | some l => .sending l
      | none => .sending []
  | .sending (v :: rest) => .send 0 v (.sending rest)
  | .sending [] => .close 0 .done
  | .done => .done

/-- xstream.go:266-279 -/
def tailS (n : Int) : Seq (Val α) (Ev α K) := ⟨TailSt α, 1, 1, .loop (XRing.newRingU .nil n.toNat), fun _ _ => 0, tailNext⟩

/-- Points of the goroutine of `Merge` (xstream.go:487-495), with its variable `items`. -/
inductive MergeSt (α : Type) where
  | loop (items : List (Val α))
  | send (items : List (Val α))
  | closing
  | done

/-- xstream.go:488-494 -/
def mergeNext : MergeSt α → Cmd (Val α) (Ev α K) (MergeSt α)
  | .loop items => .recv 0 fun | some v => .loop (items ++ [v]) | none => .send items
  | .send items => .send 0 (.slice items) .closing
  | .closing => .close 0 .done
  | .done => .done

/-- xstream.go:485-498 `Merge` -/
def mergeS : Seq (Val α) (Ev α K) := ⟨MergeSt α, 1, 1, .loop [], fun _ _ => 0, mergeNext⟩

/-! ## Operations that collect everything, compute, and start a new stream -/

/-- Points of the operations that receive the whole stream and then start a new one: `Sort` (xstream.go:242-252), `Reverse` (501-513) and `Group` (466-482). -/
inductive CollectSt (α : Type) where
  | loop (items : List (Val α))
  /-- the new stream, of capacity `cap` -/
  | sending (cap : Nat) (rest : List (Val α))
  | done

/-- The capacity of the channel of the new stream. -/
def CollectSt.cap : CollectSt α → Nat → Nat
  | .sending c _, _ => c
  | _, _ => 0

/-- Collect the input, then send the result of `g`. -/
def collectNext (c : List (Val α) → Nat) (g : List (Val α) → List (Val α)) : CollectSt α → Cmd (Val α) (Ev α K) (CollectSt α)
  | .loop items => .recv 0 fun | some v => .loop (items ++ [v]) | none => .sending (c (g items)) (g items)
  | .sending c (v :: rest) => .send 0 v (.sending c rest)
  | .sending _ [] => .close 0 .done
  | .done => .done

/-- The goroutine of such an operation: `g` is what it does with the elements, `c` the capacity of the new channel. -/
def collectS (c : List (Val α) → Nat) (g : List (Val α) → List (Val α)) : Seq (Val α) (Ev α K) :=
  ⟨CollectSt α, 1, 1, .loop [], CollectSt.cap, collectNext c g⟩

/-- xstream.go:507-510: the loop for `i` down to 0; each iteration swaps `items[i]` and `items[len-1-i]`. -/
def swapLoop (items : List (Val α)) : (cnt : Nat) → List (Val α)
  | 0 => items
  | i + 1 =>
    let opp := items.length - 1 - i
    swapLoop ((items.set i (items.getD opp .nil)).set opp (items.getD i .nil)) i

/-- xstream.go:501-513 `Reverse`. The operation returns only after its input has ended; until then the operations behind it do not
exist yet, which is modelled by their waiting on an empty channel. -/
def reverseS : Seq (Val α) (Ev α K) := collectS List.length fun items => swapLoop items (items.length / 2)

/-- xstream.go:242-252 `Sort`, where `sortSlice` is Go's `sort.Slice` (given the comparison of elements instead of indices). -/
def sortS (sortSlice : (Val α → Val α → Bool) → List (Val α) → List (Val α)) (less : Val α → Val α → Bool) : Seq (Val α) (Ev α K) :=
  collectS List.length fun items => sortSlice (fun a b => less a b) items

/-- xstream.go:467-471 and collection.go:40-43: `groups[key] = append(groups[key], item)` for all items. -/
def groupLoop [DecidableEq K] (f : Val α → K) : GMap K (List (Val α)) → List (Val α) → GMap K (List (Val α))
  | m, [] => m
  | m, v :: vs => groupLoop f (GMap.set m (f v) ((GMap.get m (f v)).getD [] ++ [v])) vs

/-- xstream.go:466-482 `Group`; `order` is the iteration order over the map. -/
def groupS [DecidableEq K] (f : Val α → K) (order : GMap K (List (Val α)) → GMap K (List (Val α))) : Seq (Val α) (Ev α K) :=
  collectS (fun _ => 0) fun items => (order (groupLoop f [] items)).map fun g => .slice g.2

/-! ## Walk -/

/-- option.go:27, 43-54: `WithWorkSize(n)` and `WithOption(&Options{workSize: n})` both set the size. -/
inductive Opt where
  | workSize (n : Int)
  | options (n : Int)

/-- option.go:30-40 `loadOptions`: the last option counts, and anything not positive means 1. -/
def loadOptions (opts : List Opt) : Int :=
  let n := opts.foldl (fun _ o => match o with | .workSize n => n | .options n => n) 0
  if n ≤ 0 then 1 else n

/-- What the function given to Walk does with one element: it sends some values and then returns or panics. -/
structure Body (α : Type) where
  sends : List (Val α)
  panics : Bool := false

/-- The dispatching goroutine of Walk: xstream.go:415-435. -/
inductive WalkMain (α : Type) where
  /-- `pool <- struct{}{}` (416) -/
  | acquire
  /-- `item, ok := <-s.source` (417) -/
  | recv
  /-- `wg.Add(1)` and the start of the worker (423-425) -/
  | spawn (v : Val α)
  /-- `<-pool` (419) -/
  | release
  /-- `wg.Wait()` (434) -/
  | wait
  /-- `close(pipe)` (435) -/
  | closing
  | done

/-- A worker: xstream.go:425-432. -/
inductive Worker (α : Type) where
  | start (v : Val α)
  /-- inside `f(item, pipe)`, which still has to send `rest` -/
  | run (v : Val α) (rest : List (Val α))
  /-- `f` has returned or panicked; before `wg.Done()` in the deferred function (427) -/
  | returned
  /-- before `<-pool` (428) -/
  | exiting

/-- The variables of `Walk` (xstream.go:408-440) and the points of its goroutines. -/
structure WalkSt (α : Type) where
  main : WalkMain α
  workers : List (Worker α)
  /-- number of values in the channel `pool` -/
  pool : Nat
  wg : Nat

/-- xstream.go:411-436; `f v` is what the user function does with the element `v`. When it panics the deferred function (426-429) runs as
usual, and the panic ends in the ants pool. -/
inductive WalkStep (size : Nat) (f : Val α → Body α) : WalkSt α → Lbl (Val α) (Ev α K) → WalkSt α → Prop where
  | acquire (s : WalkSt α) : s.main = .acquire → s.pool < size → WalkStep size f s .tau { s with main := .recv, pool := s.pool + 1 }
  | recv (s : WalkSt α) (v : Val α) : s.main = .recv → WalkStep size f s (.recv 0 v) { s with main := .spawn v }
  | eof (s : WalkSt α) : s.main = .recv → WalkStep size f s (.eof 0) { s with main := .release }
  | spawn (s : WalkSt α) (v : Val α) : s.main = .spawn v →
      WalkStep size f s .tau { s with main := .acquire, wg := s.wg + 1, workers := s.workers ++ [.start v] }
  | release (s : WalkSt α) : s.main = .release → 0 < s.pool → WalkStep size f s .tau { s with main := .wait, pool := s.pool - 1 }
  | wait (s : WalkSt α) : s.main = .wait → s.wg = 0 → WalkStep size f s .tau { s with main := .closing }
  | close (s : WalkSt α) : s.main = .closing → WalkStep size f s (.close 0) { s with main := .done }
  | start (s : WalkSt α) (v : Val α) (l₁ l₂ : List (Worker α)) : s.workers = l₁ ++ .start v :: l₂ →
      WalkStep size f s (.log (.call v)) { s with workers := l₁ ++ .run v (f v).sends :: l₂ }
  | send (s : WalkSt α) (v x : Val α) (rest : List (Val α)) (l₁ l₂ : List (Worker α)) : s.workers = l₁ ++ .run v (x :: rest) :: l₂ →
      WalkStep size f s (.send 0 x) { s with workers := l₁ ++ .run v rest :: l₂ }
  | finish (s : WalkSt α) (v : Val α) (l₁ l₂ : List (Worker α)) : s.workers = l₁ ++ .run v [] :: l₂ → (f v).panics = false →
      WalkStep size f s (.log (.finish v)) { s with workers := l₁ ++ .returned :: l₂ }
  | panic (s : WalkSt α) (v : Val α) (l₁ l₂ : List (Worker α)) : s.workers = l₁ ++ .run v [] :: l₂ → (f v).panics = true →
      WalkStep size f s (.log (.panic v)) { s with workers := l₁ ++ .returned :: l₂ }
  | wgDone (s : WalkSt α) (l₁ l₂ : List (Worker α)) : s.workers = l₁ ++ .returned :: l₂ →
      WalkStep size f s .tau { s with workers := l₁ ++ .exiting :: l₂, wg := s.wg - 1 }
  | exit (s : WalkSt α) (l₁ l₂ : List (Worker α)) : s.workers = l₁ ++ .exiting :: l₂ → 0 < s.pool →
      WalkStep size f s .tau { s with workers := l₁ ++ l₂, pool := s.pool - 1 }

/-- xstream.go:408-439 `Walk` with `workSize = size`. -/
def walkC (size : Nat) (f : Val α → Body α) : Comp (Val α) (Ev α K) where
  σ := WalkSt α
  nin := 1
  nout := 1
  init := ⟨.acquire, [], 0, 0⟩
  cap _ _ := size
  step := WalkStep size f
  done s := s.main = .done ∧ s.workers = []

/-- xstream.go:399-403: the function of `Filter`; `none` stands for a panic of `fn`. -/
def filterF (fn : Val α → Option Bool) (v : Val α) : Body α :=
  match fn v with
  | some true => ⟨[v], false⟩
  | some false => ⟨[], false⟩
  | none => ⟨[], true⟩

/-- xstream.go:444-446: the function of `Map`. -/
def mapF (fn : Val α → Option (Val α)) (v : Val α) : Body α :=
  match fn v with
  | some w => ⟨[w], false⟩
  | none => ⟨[], true⟩

/-- xstream.go:456-458: the loop over a slice. -/
def flatLoop (fn : Val α → Option (Val α)) : List (Val α) → Body α
  | [] => ⟨[], false⟩
  | x :: xs =>
    match fn x with
    | some w => ⟨w :: (flatLoop fn xs).sends, (flatLoop fn xs).panics⟩
    | none => ⟨[], true⟩

/-- xstream.go:453-462: the function of `FlatMap`. A type switch with `case interface{}` does not match nil. -/
def flatMapF (fn : Val α → Option (Val α)) : Val α → Body α
  | .slice l => flatLoop fn l
  | .nil => ⟨[], false⟩
  | v => mapF fn v

/-! ## Concat -/

/-- The first goroutine of Concat: xstream.go:368-392. -/
inductive ConcatMain where
  /-- the next forwarding goroutine to start (369-387) -/
  | spawn (i : Nat)
  /-- `wg.Wait()` (389) -/
  | wait
  | closing
  | done

/-- A forwarding goroutine: xstream.go:372-377, 382-387. -/
inductive Forwarder (α : Type) where
  | idle
  | loop
  | send (v : Val α)
  /-- before `wg.Done()` -/
  | fin
  | exited

/-- The variables of `Concat` (xstream.go:365-395) and the points of its goroutines. -/
structure ConcatSt (α : Type) where
  main : ConcatMain
  fw : Nat → Forwarder α
  wg : Nat

/-- xstream.go:368-392 with `n` streams: the others in order and then `s` itself. -/
inductive ConcatStep (n : Nat) : ConcatSt α → Lbl (Val α) (Ev α K) → ConcatSt α → Prop where
  | spawn (s : ConcatSt α) (i : Nat) : s.main = .spawn i → i < n →
      ConcatStep n s .tau { main := .spawn (i + 1), fw := upd s.fw i .loop, wg := s.wg + 1 }
  | spawned (s : ConcatSt α) (i : Nat) : s.main = .spawn i → ¬ i < n → ConcatStep n s .tau { s with main := .wait }
  | wait (s : ConcatSt α) : s.main = .wait → s.wg = 0 → ConcatStep n s .tau { s with main := .closing }
  | close (s : ConcatSt α) : s.main = .closing → ConcatStep n s (.close 0) { s with main := .done }
  | recv (s : ConcatSt α) (i : Nat) (v : Val α) : i < n → s.fw i = .loop → ConcatStep n s (.recv i v) { s with fw := upd s.fw i (.send v) }
  | eof (s : ConcatSt α) (i : Nat) : i < n → s.fw i = .loop → ConcatStep n s (.eof i) { s with fw := upd s.fw i .fin }
  | send (s : ConcatSt α) (i : Nat) (v : Val α) : i < n → s.fw i = .send v → ConcatStep n s (.send 0 v) { s with fw := upd s.fw i .loop }
  | wgDone (s : ConcatSt α) (i : Nat) : i < n → s.fw i = .fin → ConcatStep n s .tau { s with fw := upd s.fw i .exited, wg := s.wg - 1 }

/-- xstream.go:365-395 `Concat` of `n` streams; input port `i < n - 1` is `others[i]`, port `n - 1` is `s`. -/
def concatC (n : Nat) : Comp (Val α) (Ev α K) where
  σ := ConcatSt α
  nin := n
  nout := 1
  init := ⟨.spawn 0, fun _ => .idle, 0⟩
  cap _ _ := 0
  step := ConcatStep n
  done s := s.main = .done ∧ ∀ i < n, s.fw i = .exited

/-! ## Copy -/

/-- Points of the goroutine of `Copy` (xstream.go:616-627). -/
inductive CopySt (α : Type) where
  | loop
  /-- the next channel that receives `v` -/
  | send (v : Val α) (i : Nat)
  | closing (i : Nat)
  | done

/-- xstream.go:617-626 with `n` channels. -/
def copyNext (n : Nat) : CopySt α → Cmd (Val α) (Ev α K) (CopySt α)
  | .loop => .recv 0 fun | some v => .send v 0 | none => .closing 0
  | .send v i => if i < n then .send i v (.send v (i + 1)) else .tau .loop
  | .closing i => if i < n then .close i (.closing (i + 1)) else .tau .done
  | .done => .done

/-- xstream.go:604-629 `Copy` into channels of the given capacities (in the order of the slice `channels`). -/
def copyS (caps : List Nat) : Seq (Val α) (Ev α K) := ⟨CopySt α, 1, caps.length, .loop, fun _ q => caps.getD q 0, copyNext caps.length⟩

/-- xstream.go:606-615: the slice of channels in iteration order `params` of the map, sorted by descending capacity (`sortSlice` is Go's `sort.Slice`); a
negative size panics in `make`. A channel is represented by the name it is returned under and its capacity. -/
def copyChannels {N : Type} (sortSlice : (N × Nat → N × Nat → Bool) → List (N × Nat) → List (N × Nat)) (params : GMap N Int) : Option (List (N × Nat)) :=
  if params.any fun p => p.2 < 0 then none else some (sortSlice (fun a b => a.2 > b.2) (params.map fun p => (p.1, p.2.toNat)))

/-! ## Terminal operations -/

/-- Points of the operations that end a stream: `Foreach` (xstream.go:346-350), `Done` (178-180), `AnyMach` (525-539), `AllMach` (542-556), `FindFirst` (559-571). -/
inductive TermSt (α K : Type) where
  | loop
  | call (v : Val α)
  | ret (r : Ret α K)
  /-- the goroutine that drains the rest (636-639) -/
  | drain
  | done

/-- xstream.go:346-350 `Foreach`; also a loop over the channel returned by `Chan` (183-185). -/
def foreachNext : TermSt α K → Cmd (Val α) (Ev α K) (TermSt α K)
  | .loop => .recv 0 fun | some v => .call v | none => .ret .unit
  | .call v => .log (.call v) .loop
  | .ret r => .log (.ret r) .done
  | .drain => .recv 0 fun | some _ => .drain | none => .done
  | .done => .done

/-- xstream.go:346-350 `Foreach` -/
def foreachS : Seq (Val α) (Ev α K) := ⟨TermSt α K, 1, 0, .loop, fun _ _ => 0, foreachNext⟩

/-- xstream.go:178-180, 636-639 `Done` -/
def doneNext : TermSt α K → Cmd (Val α) (Ev α K) (TermSt α K)
  | .loop => .recv 0 fun | some _ => .loop | none => .ret .unit
  | .ret r => .log (.ret r) .done
  | .call _ | .drain | .done => .done

/-- xstream.go:178-180 `Done` -/
def doneS : Seq (Val α) (Ev α K) := ⟨TermSt α K, 1, 0, .loop, fun _ _ => 0, doneNext⟩

/-- xstream.go:525-555 `AnyMach` (`want = true`) and `AllMach` (`want = false`): at the first element with `f(item) = want` the result is
`want` and a goroutine drains the rest; otherwise the result is the opposite. The drain goroutine is started just before the function
returns; the model lets the function return first. -/
def machNext (want : Bool) (f : Val α → Bool) : TermSt α K → Cmd (Val α) (Ev α K) (TermSt α K)
  | .loop => .recv 0 fun | some v => .call v | none => .ret (.bool (!want))
  | .call v => .log (.call v) (if f v = want then .ret (.bool want) else .loop)
  | .ret (.bool b) => .log (.ret (.bool b)) (if b = want then .drain else .done)
  | .ret r => .log (.ret r) .done
  | .drain => .recv 0 fun | some _ => .drain | none => .done
  | .done => .done

/-- xstream.go:525-556 `AnyMach` and `AllMach` -/
def machS (want : Bool) (f : Val α → Bool) : Seq (Val α) (Ev α K) := ⟨TermSt α K, 1, 0, .loop, fun _ _ => 0, machNext want f⟩

/-- xstream.go:559-570 `FindFirst` -/
def findFirstNext : TermSt α K → Cmd (Val α) (Ev α K) (TermSt α K)
  | .loop => .recv 0 fun | some v => .ret (.elem v) | none => .ret .noElement
  | .ret (.elem v) => .log (.ret (.elem v)) .drain
  | .ret r => .log (.ret r) .done
  | .drain => .recv 0 fun | some _ => .drain | none => .done
  | .call _ | .done => .done

/-- xstream.go:559-571 `FindFirst` -/
def findFirstS : Seq (Val α) (Ev α K) := ⟨TermSt α K, 1, 0, .loop, fun _ _ => 0, findFirstNext⟩

/-- Operations that fold over the elements and return. -/
inductive FoldSt (α K β : Type) where
  | loop (acc : β)
  | ret (r : Ret α K)
  | done

/-- A loop over the elements with a variable `acc`: xstream.go:154-159 `Count`, 574-586 `FindLast`, collection.go:37-47 `Group.Map`. -/
def foldNext {β : Type} (step : β → Val α → β) (fin : β → Ret α K) : FoldSt α K β → Cmd (Val α) (Ev α K) (FoldSt α K β)
  | .loop acc => .recv 0 fun | some v => .loop (step acc v) | none => .ret (fin acc)
  | .ret r => .log (.ret r) .done
  | .done => .done

/-- A loop over the elements, as a goroutine. -/
def foldS {β : Type} (step : β → Val α → β) (init : β) (fin : β → Ret α K) : Seq (Val α) (Ev α K) :=
  ⟨FoldSt α K β, 1, 0, .loop init, fun _ _ => 0, foldNext step fin⟩

/-- xstream.go:154-159 `Count`: `count++` wraps around. -/
def countS : Seq (Val α) (Ev α K) := foldS (fun c _ => wrap64 (c + 1)) 0 fun c => .int c

/-- xstream.go:574-585 `FindLast`: the variables `result` and `flag`. -/
def findLastS : Seq (Val α) (Ev α K) :=
  foldS (fun _ v => (v, false)) (Val.nil, true) fun (result, flag) => if flag then .noElement else .elem result

/-- collection.go:37-47: the first call of `Group.Map` on the collector returned by `GroupBy(f)`, after `Collection` (xstream.go:632-634)
has given it the stream (collection.go:27-29). -/
def groupByS [DecidableEq K] (f : Val α → K) : Seq (Val α) (Ev α K) :=
  foldS (fun m v => GMap.set m (f v) ((GMap.get m (f v)).getD [] ++ [v])) [] .groups

/-- collection.go:20-24 `Group`: the memoized result. -/
structure GroupC (α K : Type) where
  groups : Option (GMap K (List (Val α)))

/-- collection.go:37-47 `Map`, when `items` is what the channel still delivers until it ends. Returns the result, and what is left in
the channel. -/
def GroupC.map [DecidableEq K] (f : Val α → K) (g : GroupC α K) (items : List (Val α)) : GroupC α K × GMap K (List (Val α)) × List (Val α) :=
  match g.groups with
  | none => (⟨some (groupLoop f [] items)⟩, groupLoop f [] items, [])
  | some m => (g, m, items)

/-- Points of `ForeachOrdered` (xstream.go:353-362). -/
inductive OrderedSt (α : Type) where
  | loop (items : List (Val α))
  /-- xstream.go:359: the loop variable -/
  | back (items : List (Val α)) (i : Int)
  | ret
  | done

/-- xstream.go:353-362 `ForeachOrdered`. -/
def orderedNext : OrderedSt α → Cmd (Val α) (Ev α K) (OrderedSt α)
  | .loop items => .recv 0 fun | some v => .loop (items ++ [v]) | none => .back items ((items.length : Int) - 1)
  | .back items i => if i ≥ 0 then .log (.call (items.getD i.toNat .nil)) (.back items (i - 1)) else .tau .ret
  | .ret => .log (.ret .unit) .done
  | .done => .done

/-- xstream.go:353-362 `ForeachOrdered` -/
def orderedS : Seq (Val α) (Ev α K) := ⟨OrderedSt α, 1, 0, .loop [], fun _ _ => 0, orderedNext⟩

/-! ## Building pipelines -/

/-- The operations that return a new stream. -/
inductive Op (α K : Type) where
  | buffer (n : Int)
  | peek
  | distinct (f : Val α → K)
  | split (n : Int)
  | splitSteam (n : Int)
  | skip (n : Int)
  | limit (n : Int)
  | tail (n : Int)
  | merge
  | reverse
  | sort (sortSlice : (Val α → Val α → Bool) → List (Val α) → List (Val α)) (less : Val α → Val α → Bool)
  | group (f : Val α → K) (order : GMap K (List (Val α)) → GMap K (List (Val α)))
  | walk (f : Val α → Body α) (opts : List Opt)
  | filter (fn : Val α → Option Bool) (opts : List Opt)
  | map (fn : Val α → Option (Val α)) (opts : List Opt)
  | flatMap (fn : Val α → Option (Val α)) (opts : List Opt)

/-- The components an operation adds behind a stream, `none` if it panics. -/
def Op.build [DecidableEq K] : Op α K → Option (List (Comp (Val α) (Ev α K)))
  | .buffer n => some [(bufferS n).comp]
  | .peek => some [peekS.comp]
  | .distinct f => some [(distinctS f).comp]
  | .split n => if n < 1 then none else some [(splitS n).comp]                                              -- xstream.go:188-208
  | .splitSteam n => if n < 1 then none else some [(splitSteamS n).comp]                                    -- xstream.go:211-239
  | .skip n => if n < 0 then none else if n = 0 then some [] else some [(skipS n).comp]                     -- xstream.go:283-309
  | .limit n => if n = 0 then some [emptyS.comp] else if n < 0 then none else some [(limitS n).comp]        -- xstream.go:312-343
  | .tail n => if n ≤ 0 then (if n = 0 then some [emptyS.comp] else none) else some [(tailS n).comp]        -- xstream.go:255-280
  | .merge => some [mergeS.comp]
  | .reverse => some [reverseS.comp]
  | .sort sortSlice less => some [(sortS sortSlice less).comp]
  | .group f order => some [(groupS f order).comp]
  | .walk f opts => some [walkC (loadOptions opts).toNat f]
  | .filter fn opts => some [walkC (loadOptions opts).toNat (filterF fn)]                                   -- xstream.go:398-404
  | .map fn opts => some [walkC (loadOptions opts).toNat (mapF fn)]                                         -- xstream.go:443-447
  | .flatMap fn opts => some [walkC (loadOptions opts).toNat (flatMapF fn)]                                 -- xstream.go:452-463

/-- A chain of operations. -/
def buildAll [DecidableEq K] : List (Op α K) → Option (List (Comp (Val α) (Ev α K)))
  | [] => some []
  | op :: ops => do
    let a ← op.build
    let b ← buildAll ops
    pure (a ++ b)

/-- Ways to start a stream. -/
inductive Source (α : Type) where
  | of (items : List (Val α))
  | gen (items : List (Val α))
  | chan (cap : Nat) (items : List (Val α))

/-- The elements of a source. -/
def Source.items : Source α → List (Val α)
  | .of l | .gen l | .chan _ l => l

/-- The goroutine behind a source: `Of` (xstream.go:103-117), `From` (125-132), or whoever sends on the channel given to `Range` (96-100). -/
def Source.comp : Source α → Comp (Val α) (Ev α K)
  | .of items => (ofS items).comp
  | .gen items => (fromS 0 items).comp
  | .chan cap items => (fromS cap items).comp

/-- Ways to end a stream. -/
inductive Term (α K : Type) where
  | foreach
  | done
  | foreachOrdered
  | count
  | anyMach (f : Val α → Bool)
  | allMach (f : Val α → Bool)
  | findFirst
  | findLast
  | groupBy (f : Val α → K)

/-- The goroutine that calls an operation which ends a stream. -/
def Term.comp [DecidableEq K] : Term α K → Comp (Val α) (Ev α K)
  | .foreach => foreachS.comp
  | .done => doneS.comp
  | .foreachOrdered => orderedS.comp
  | .count => countS.comp
  | .anyMach f => (machS true f).comp
  | .allMach f => (machS false f).comp
  | .findFirst => findFirstS.comp
  | .findLast => findLastS.comp
  | .groupBy f => (groupByS f).comp

/-- xstream.go:516-520 `ParallelFinish` is a Walk whose function sends nothing, followed by Done; its function may panic for some elements. -/
def parallelFinish (panics : Val α → Bool) (opts : List Opt) : Op α K × Term α K := (.walk (fun v => ⟨[], panics v⟩) opts, .done)

/-- The pieces of a program with several streams: sources, operations (with one input and one output), Concat of `n` streams, Copy into
named channels of given capacities, streams from `xmapreduce`, terminal operations. -/
inductive Node (α K : Type) where
  | source (s : Source α)
  | op (o : Op α K)
  | concat (n : Nat)
  | copy {N : Type} (channels : List (N × Nat))
  /-- xmapreduce.go:75-77 `MapStream`: `items` are the values of the generator, `f` what the mapping writes, `opts` the worker sizes given -/
  | mapStream {β : Type} (items : List β) (f : β → List (Val α)) (opts : List Int)
  /-- the same with a context that may become done at any time -/
  | mapStreamCtx {β : Type} (items : List β) (f : β → List (Val α)) (opts : List Int)
  | term (t : Term α K)

/-- The component that runs a node (the operations that return the same stream have none). -/
def Node.Builds [DecidableEq K] : Node α K → Comp (Val α) (Ev α K) → Prop
  | .source s, C => C = s.comp
  | .op o, C => o.build = some [C]
  | .concat n, C => C = concatC n
  | .copy channels, C => C = (copyS (channels.map Prod.snd)).comp
  | .mapStream items f opts, C => C = XMapReduce.mapC items f (XMapReduce.loadOption opts).toNat
  | .mapStreamCtx items f opts, C => C = XMapReduce.mapCtxC items f (XMapReduce.loadOption opts).toNat
  | .term t, C => C = t.comp

/-- A whole program: a source, operations, a terminal operation. -/
def program [DecidableEq K] (src : Source α) (ops : List (Op α K)) (term : Term α K) : Option (Net (Val α) (Ev α K)) :=
  (buildAll ops).map fun cs => pipe (src.comp :: cs ++ [term.comp])

/-- xmapreduce.go:75-77: a program that starts with `MapStream`; `make` panics for a negative worker size (xmapreduce.go:68). -/
def mapProgram [DecidableEq K] {β : Type} (items : List β) (f : β → List (Val α)) (sizes : List Int) (ops : List (Op α K)) (term : Term α K) :
    Option (Net (Val α) (Ev α K)) :=
  if XMapReduce.loadOption sizes < 0 then none
  else (buildAll ops).map fun cs => pipe (XMapReduce.mapC items f (XMapReduce.loadOption sizes).toNat :: cs ++ [term.comp])

/-- The same with a context that may become done at any time. -/
def mapCtxProgram [DecidableEq K] {β : Type} (items : List β) (f : β → List (Val α)) (sizes : List Int) (ops : List (Op α K)) (term : Term α K) :
    Option (Net (Val α) (Ev α K)) :=
  if XMapReduce.loadOption sizes < 0 then none
  else (buildAll ops).map fun cs => pipe (XMapReduce.mapCtxC items f (XMapReduce.loadOption sizes).toNat :: cs ++ [term.comp])

end Verif.XStream
