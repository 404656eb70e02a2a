import Verif.Go.Chan
import Verif.Conc.Lin
/-!
# Model of `xonce`: write-once channel and write-once value

Each call is a process with its own number; every atomic access (compare-and-swap, channel operation) is a step.
-/
namespace Verif.XOnce
open Verif.Go Verif.Conc

variable {α : Type}

/-! ## `Chan` -/

/-- What users do with a `Chan`: `Write(v)`, or receive once from `Chan()` (chan.go:45-47). -/
inductive COp (α : Type) where
  | write (v : α)
  | recv

/-- Results: `Write`'s bool; the received value (`none`: closed and drained); a panic. -/
inductive CRes (α : Type) where
  | ok (b : Bool)
  | got (v : Option α)
  | panic

/-- Points of the calls on a `Chan` (chan.go:35-42). -/
inductive CPC (α : Type) where
  | idle
  /-- chan.go:36 compare-and-swap of `wrote` -/
  | cas (v : α)
  /-- chan.go:37 `c.channel <- v` -/
  | send (v : α)
  /-- chan.go:38 `close(c.channel)` -/
  | close (v : α)
  /-- chan.go:41 `return` -/
  | ret (v : α) (r : CRes α)
  /-- a user's receive from the channel -/
  | recv
  | doneW (v : α) (r : CRes α)
  | doneR (r : CRes α)

/-- chan.go:24-27 `Chan` with all calls on it. -/
structure CSt (α : Type) where
  ch : Chan α
  wrote : Bool
  pc : Nat → CPC α

/-- Call `i` goes to the point `p`. -/
def CSt.goto (m : CSt α) (i : Nat) (p : CPC α) : CSt α := { m with pc := upd m.pc i p }

/-- chan.go:30-32 `NewChan`: capacity 1. -/
def newChan : CSt α := ⟨Chan.make 1, false, fun _ => .idle⟩

/-- A call of `Write` (chan.go:35), or a receive from the channel that `Chan` returns (45-47). -/
def cInvoke (m : CSt α) (i : Nat) (op : COp α) : Option (CSt α) :=
  match m.pc i with
  | .idle => some (m.goto i (match op with | .write v => .cas v | .recv => .recv))
  | _ => none

/-- chan.go:35-42 `Write`, and a receive. -/
def cNext (m : CSt α) (i : Nat) : Option (Option (Ev (COp α) (CRes α)) × CSt α) :=
  match m.pc i with
  | .cas v => some (none, if m.wrote then m.goto i (.ret v (.ok false)) else { m.goto i (.send v) with wrote := true })
  | .send v =>
    match m.ch.send v with
    | .sent ch => some (none, { m.goto i (.close v) with ch := ch })
    | .panic => some (none, m.goto i (.ret v .panic))
    | .blocked => none
  | .close v =>
    match m.ch.close with
    | some ch => some (none, { m.goto i (.ret v (.ok true)) with ch := ch })
    | none => some (none, m.goto i (.ret v .panic))
  | .ret v r => some (some (.ret i r), m.goto i (.doneW v r))
  | .recv =>
    match m.ch.recv with
    | .got v ch => some (some (.ret i (.got (some v))), { m.goto i (.doneR (.got (some v))) with ch := ch })
    | .closed => some (some (.ret i (.got none)), m.goto i (.doneR (.got none)))
    | .blocked => none
  | .idle | .doneW _ _ | .doneR _ => none

/-- All interleavings of the calls on a `Chan` (chan.go:24-47). -/
def chanMachine : Mach (CSt α) (COp α) (CRes α) := ⟨newChan, cInvoke, fun m i _ => cNext m i⟩

/-! ## `Value`

An `interface{}` value is `none` (nil) or a pair of a dynamic type and a value of that type. -/

/-- A non-nil interface value. -/
structure Dyn (α : Type) where
  type : Nat
  val : α
  deriving Repr, DecidableEq

/-- The calls: value.go:34 `Write`, 39 `Value`. -/
inductive VOp (α : Type) where
  | write (v : Option (Dyn α))
  | value

/-- Results of the calls (value.go:34-41). -/
inductive VRes (α : Type) where
  | ok (b : Bool)
  | val (v : Option (Dyn α))
  | panic

/-- Points of the calls on a `Value` (value.go:34-41). -/
inductive VPC (α : Type) where
  | idle
  /-- value.go:35 -/
  | cas (v : Option (Dyn α))
  /-- value.go:40 -/
  | load
  | ret (op : VOp α) (r : VRes α)
  | done

/-- value.go:24-26 `Value` with all calls on it. -/
structure VSt (α : Type) where
  v : Option (Dyn α)
  pc : Nat → VPC α

/-- Call `i` goes to the point `p`. -/
def VSt.goto (m : VSt α) (i : Nat) (p : VPC α) : VSt α := { m with pc := upd m.pc i p }

/-- value.go:29-31 `NewValue` -/
def newValue : VSt α := ⟨none, fun _ => .idle⟩

/-- A call of `Write` (value.go:34) or `Value` (39). -/
def vInvoke (m : VSt α) (i : Nat) (op : VOp α) : Option (VSt α) :=
  match m.pc i with
  | .idle => some (m.goto i (match op with | .write v => .cas v | .value => .load))
  | _ => none

/-- `atomic.Value.CompareAndSwap(nil, new)`: panics for a nil `new` and when the stored value has another dynamic
type; stores into an empty `Value`; else reports false. -/
def casNil (cur new : Option (Dyn α)) : VRes α × Option (Dyn α) :=
  match new with
  | none => (.panic, cur)
  | some d =>
    match cur with
    | none => (.ok true, some d)
    | some c => if c.type = d.type then (.ok false, cur) else (.panic, cur)

/-- value.go:34-36 `Write`, value.go:39-41 `Value`. -/
def vNext (m : VSt α) (i : Nat) : Option (Option (Ev (VOp α) (VRes α)) × VSt α) :=
  match m.pc i with
  | .cas v => some (none, { m.goto i (.ret (.write v) (casNil m.v v).1) with v := (casNil m.v v).2 })
  | .load => some (none, m.goto i (.ret .value (.val m.v)))
  | .ret _ r => some (some (.ret i r), m.goto i .done)
  | .idle | .done => none

/-- All interleavings of the calls on a `Value` (value.go:24-41). -/
def valueMachine : Mach (VSt α) (VOp α) (VRes α) := ⟨newValue, vInvoke, fun m i _ => vNext m i⟩

end Verif.XOnce
