import Mathlib.Tactic.Common
/-!
# Go channels

A channel is its buffer, its capacity and whether it has been closed. Operations are atomic. A full channel makes a
sender wait, an empty open channel makes a receiver wait; sending on or closing a closed channel panics; a closed and
drained channel yields the zero value.
-/
namespace Verif.Go

/-- Go's channels (no code of /repo): contents, capacity, and whether it has been closed. -/
structure Chan (α : Type) where
  buf : List α
  cap : Nat
  closed : Bool
  deriving Repr, DecidableEq

namespace Chan
variable {α : Type}

/-- `make(chan T, n)` -/
def make (n : Nat) : Chan α := ⟨[], n, false⟩

/-- Outcome of one attempt to send. -/
inductive SendRes (α : Type) where
  | sent (c : Chan α)
  | blocked
  | panic

/-- `c <- v` -/
def send (c : Chan α) (v : α) : SendRes α :=
  if c.closed then .panic else if c.buf.length < c.cap then .sent { c with buf := c.buf ++ [v] } else .blocked

/-- Outcome of one attempt to receive. -/
inductive RecvRes (α : Type) where
  | got (v : α) (c : Chan α)
  | closed
  | blocked

/-- `v, ok := <-c` -/
def recv (c : Chan α) : RecvRes α :=
  match c.buf with
  | v :: vs => .got v { c with buf := vs }
  | [] => if c.closed then .closed else .blocked

/-- `close(c)`; `none` is a panic. -/
def close (c : Chan α) : Option (Chan α) :=
  if c.closed then none else some { c with closed := true }

end Chan

/-! ## Channels with waiting senders

For channels on which senders may have to wait (in particular unbuffered ones) the runtime keeps a queue of waiting
senders. A receiver takes the oldest buffered value and lets the first waiting sender fill the free place; on an
unbuffered channel it takes the value from the first waiting sender. Closing makes all waiting senders panic. -/

/-- Go's channels (no code of /repo) with a queue of the senders that wait. -/
structure BChan (α : Type) where
  buf : List α
  cap : Nat
  closed : Bool
  /-- the waiting senders (number of the call and value), oldest first -/
  sendq : List (Nat × α)
  deriving Repr, DecidableEq

namespace BChan
variable {α : Type}

/-- Go's `make(chan T, n)`. -/
def make (n : Nat) : BChan α := ⟨[], n, false, []⟩

/-- Outcome of a send. -/
inductive SendRes (α : Type) where
  | sent (c : BChan α)
  | queued (c : BChan α)
  | panic

/-- First part of `c <- v`, executed by call `i`. -/
def send (c : BChan α) (i : Nat) (v : α) : SendRes α :=
  if c.closed then .panic
  else if c.buf.length < c.cap then .sent { c with buf := c.buf ++ [v] }
  else .queued { c with sendq := c.sendq ++ [(i, v)] }

/-- Outcome of waiting in the queue of senders. -/
inductive WaitRes where
  | sent
  | blocked
  | panic
  deriving DecidableEq

/-- Second part of `c <- v` for a waiting sender `i`. -/
def wait (c : BChan α) (i : Nat) : WaitRes :=
  if i ∈ c.sendq.map (·.1) then (if c.closed then .panic else .blocked) else .sent

/-- Outcome of a receive. -/
inductive RecvRes (α : Type) where
  /-- the value, the channel, and the waiting sender whose send has completed by this receive -/
  | got (v : α) (c : BChan α) (rel : Option (Nat × α))
  | closed
  | blocked

/-- `v, ok := <-c` -/
def recv (c : BChan α) : RecvRes α :=
  match c.buf with
  | v :: vs =>
    if c.closed then .got v { c with buf := vs } none
    else match c.sendq with
      | e :: q => .got v { c with buf := vs ++ [e.2], sendq := q } (some e)
      | [] => .got v { c with buf := vs } none
  | [] =>
    if c.closed then .closed
    else match c.sendq with
      | e :: q => .got e.2 { c with sendq := q } (some e)
      | [] => .blocked

/-- `close(c)`; `none` is a panic. -/
def close (c : BChan α) : Option (BChan α) :=
  if c.closed then none else some { c with closed := true }

end BChan
end Verif.Go
