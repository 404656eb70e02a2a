import Verif.Go.Chan
import Verif.Conc.Prog
/-!
# Model of `xbarrier`: `WriteBarrier` and `ReadBarrier` on one channel

Any number of calls of `WriteBarrier.Write`, `ReadBarrier.Read`, plain sends and receives by other goroutines, closing
of the channel and cancellation of the two contexts run concurrently.
-/
namespace Verif.XBarrier
open Verif.Go Verif.Conc

variable {α : Type}

/-- The calls: readbarrier.go:39, writebarrier.go:44, and what others do with the channel and the contexts. -/
inductive Op (α : Type) where
  /-- `WriteBarrier.Write(v)` -/
  | write (v : α)
  /-- `ReadBarrier.Read()` -/
  | read
  /-- plain `c <- v` by somebody else -/
  | send (v : α)
  /-- plain `<-c` by somebody else -/
  | recv
  /-- `close(c)` -/
  | close
  /-- the writer's context becomes done -/
  | cancelW
  /-- the reader's context becomes done -/
  | cancelR

/-- Results of the calls (readbarrier.go:39, writebarrier.go:44). -/
inductive Res (α : Type) where
  | ok (b : Bool)
  /-- value (`none`: nil, the zero value of a closed channel) and success flag -/
  | val (v : Option α) (b : Bool)
  | unit
  | panic

/-- Local points: at the `select`, at the channel operation, waiting in the channel's queue. -/
inductive Pt where
  | check
  | go
  | wait
  deriving DecidableEq

/-- The shared state. `sends` and `recvs` are history variables: the completed sends and receives in their order with
the numbers of the calls; they do not influence the program. -/
structure G (α : Type) where
  ch : BChan α
  wdone : Bool
  rdone : Bool
  sends : List (Nat × α)
  recvs : List (Nat × α)

/-- A send by call `i`, with the result `r` on success. -/
def sendStep (g : G α) (i : Nat) (v : α) (r : Res α) : Option (G α × (Pt ⊕ Res α)) :=
  match g.ch.send i v with
  | .panic => some (g, .inr .panic)
  | .sent c => some ({ g with ch := c, sends := g.sends ++ [(i, v)] }, .inr r)
  | .queued c => some ({ g with ch := c }, .inl .wait)

/-- Waiting inside a send (writebarrier.go:49). -/
def waitStep (g : G α) (i : Nat) (r : Res α) : Option (G α × (Pt ⊕ Res α)) :=
  match g.ch.wait i with
  | .panic => some (g, .inr .panic)
  | .sent => some (g, .inr r)
  | .blocked => none

/-- A receive (readbarrier.go:44). -/
def recvStep (g : G α) (i : Nat) : Option (G α × (Pt ⊕ Res α)) :=
  match g.ch.recv with
  | .got v c rel => some ({ g with ch := c, sends := g.sends ++ rel.toList, recvs := g.recvs ++ [(i, v)] }, .inr (.val (some v) true))
  | .closed => some (g, .inr (.val none true))
  | .blocked => none

/-- writebarrier.go:44-52 `Write`: the `select` with `default` looks at the context once; then an unconditional send.
readbarrier.go:39-46 `Read` likewise. -/
def step (g : G α) (i : Nat) (op : Op α) (s : Pt) (_ : Nat) : Option (G α × (Pt ⊕ Res α)) :=
  match op, s with
  | .write _, .check => some (g, if g.wdone then .inr (.ok false) else .inl .go)
  | .write v, .go => sendStep g i v (.ok true)
  | .write _, .wait => waitStep g i (.ok true)
  | .read, .check => some (g, if g.rdone then .inr (.val none false) else .inl .go)
  | .read, .go => recvStep g i
  | .send v, .go => sendStep g i v .unit
  | .send _, .wait => waitStep g i .unit
  | .recv, .go => recvStep g i
  | .close, .go =>
    match g.ch.close with
    | none => some (g, .inr .panic)
    | some c => some ({ g with ch := c }, .inr .unit)
  | .cancelW, .go => some ({ g with wdone := true }, .inr .unit)
  | .cancelR, .go => some ({ g with rdone := true }, .inr .unit)
  | _, _ => none

/-- The barriers on a channel of capacity `n`, with both contexts alive. -/
def prog (n : Nat) : Prog (G α) (Op α) (Res α) Pt where
  init := ⟨BChan.make n, false, false, [], []⟩
  begin op := match op with
    | .write _ | .read => .check
    | _ => .go
  step := step

end Verif.XBarrier
