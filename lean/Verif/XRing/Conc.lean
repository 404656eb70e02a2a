import Verif.XRing.Model
import Verif.Conc.Lin
/-!
# The ring under concurrent use

Every call is a process with its own number; between two atomic steps of one call any other call may take any number
of steps. Every access to the lock, to the counter and to a slot is a step of its own. The number of calls is not
bounded. `sync.RWMutex`: `Lock` can succeed when nobody holds the lock, `RLock` when no writer holds it (the preference
given to waiting writers only removes schedules).
-/
namespace Verif.XRing.Conc
open Verif.Go Verif.Conc

variable {α : Type}

/-- What a call returns. -/
inductive Res (α : Type) where
  | unit
  | vals (l : List α)
  | panic

/-- Where a call is. -/
inductive PC (α : Type) where
  | idle
  /-- xring.go:41 `r.lock.Lock()` -/
  | addLock (v : α)
  /-- xring.go:44: load the counter and compute the slot -/
  | addSlot (v : α)
  /-- xring.go:44: store the element -/
  | addStore (v : α) (slot : Nat)
  /-- xring.go:45: `r.index++`, load -/
  | addLoad (v : α)
  /-- xring.go:45: `r.index++`, store -/
  | addSet (v : α) (t : Int)
  /-- xring.go:42 deferred `Unlock`, also run when panicking -/
  | addUnlock (v : α) (res : Res α)
  | addRet (v : α) (res : Res α)
  /-- xring.go:50 `r.lock.RLock()` -/
  | takeLock
  /-- xring.go:55: load the counter and compare -/
  | takeCmp
  /-- xring.go:56-57: load the counter, compute `start` -/
  | takeBig
  /-- xring.go:59: load the counter into `size` -/
  | takeSmall
  /-- xring.go:62 `make` -/
  | takeMake (size start : Int)
  /-- xring.go:63-65: one iteration per step; `cnt` iterations left -/
  | takeLoop (start i cnt : Nat) (acc : List α)
  /-- xring.go:51 deferred `RUnlock` -/
  | takeUnlock (res : Res α)
  | takeRet (res : Res α)
  | done

/-- A `Ring` with its lock (xring.go:22-26) and the points of all calls. -/
structure St (α : Type) where
  ring : Ring α
  writer : Option Nat
  readers : List Nat
  pc : Nat → PC α

/-- Call `i` goes to the point `p`. -/
def St.goto (m : St α) (i : Nat) (p : PC α) : St α := { m with pc := upd m.pc i p }

/-- The next atomic step of call `i`; `none`: it cannot move. -/
def next (m : St α) (i : Nat) : Option (Option (Ev (Call α) (Res α)) × St α) :=
  match m.pc i with
  | .idle => none
  | .addLock v =>
    match m.writer, m.readers with
    | none, [] => some (none, { m.goto i (.addSlot v) with writer := some i })
    | _, _ => none
  | .addSlot v =>
    if m.ring.elements.length = 0 then some (none, m.goto i (.addUnlock v .panic))
    else
      let k := m.ring.index.tmod m.ring.elements.length
      if k < 0 then some (none, m.goto i (.addUnlock v .panic)) else some (none, m.goto i (.addStore v k.toNat))
  | .addStore v slot =>
    some (none, { m.goto i (.addLoad v) with ring := { m.ring with elements := m.ring.elements.set slot v } })
  | .addLoad v => some (none, m.goto i (.addSet v (wrap64 (m.ring.index + 1))))
  | .addSet v t => some (none, { m.goto i (.addUnlock v .unit) with ring := { m.ring with index := t } })
  | .addUnlock v res => some (none, { m.goto i (.addRet v res) with writer := none })
  | .addRet _ res => some (some (.ret i res), m.goto i .done)
  | .takeLock =>
    match m.writer with
    | none => some (none, { m.goto i .takeCmp with readers := i :: m.readers })
    | some _ => none
  | .takeCmp => some (none, m.goto i (if m.ring.index > m.ring.elements.length then .takeBig else .takeSmall))
  | .takeBig => some (none, m.goto i (.takeMake m.ring.elements.length (m.ring.index.tmod m.ring.elements.length)))
  | .takeSmall => some (none, m.goto i (.takeMake m.ring.index 0))
  | .takeMake size start =>
    some (none, m.goto i (if size < 0 then .takeUnlock .panic else .takeLoop start.toNat 0 size.toNat []))
  | .takeLoop start k cnt acc =>
    match cnt with
    | 0 => some (none, m.goto i (.takeUnlock (.vals acc)))
    | cnt + 1 =>
      match m.ring.elements[(start + k) % m.ring.elements.length]? with
      | none => some (none, m.goto i (.takeUnlock .panic))
      | some x => some (none, m.goto i (.takeLoop start (k + 1) cnt (acc ++ [x])))
  | .takeUnlock res => some (none, { m.goto i (.takeRet res) with readers := m.readers.filter (· != i) })
  | .takeRet res => some (some (.ret i res), m.goto i .done)
  | .done => none

/-- A new call. -/
def invoke (m : St α) (i : Nat) (op : Call α) : Option (St α) :=
  match m.pc i with
  | .idle => some (m.goto i (match op with | .add v => .addLock v | .take => .takeLock))
  | _ => none

/-- A fresh ring that nobody uses yet. -/
def start (r : Ring α) : St α := ⟨r, none, [], fun _ => .idle⟩

/-- All interleavings of the calls on a `Ring` (xring.go:40-68). -/
def machine (r : Ring α) : Mach (St α) (Call α) (Res α) := ⟨start r, invoke, fun m i _ => next m i⟩

/-- The sequential ring as a specification. -/
def spec (r : Ring α) : Spec (Ring α) (Call α) (Res α) where
  init := r
  step s op res s' :=
    match op with
    | .add v =>
      match s.add v with
      | some s1 => res = .unit ∧ s' = s1
      | none => res = .panic ∧ s' = s
    | .take =>
      match s.take with
      | some l => res = .vals l ∧ s' = s
      | none => res = .panic ∧ s' = s

end Verif.XRing.Conc
