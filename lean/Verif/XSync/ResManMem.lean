import Verif.XSync.ResMan
/-!
# `xsync/resourcemanager.go`, access by access

As `ResMan.lean`, but every operation on the lock `rw`, every access to the field `resources` and every access to the map it points to is a
step of its own. `sync.RWMutex`: `Lock` can succeed when nobody holds the lock, `RLock` when no writer holds it (the preference given to waiting
writers only removes schedules). `singleflight` is as in `ResMan.lean`: its mutex and its map are its own.
-/
namespace Verif.XSync.ResManMem
open Verif.Conc Verif.XError Verif.XSync.ResMan

variable {K E : Type} [DecidableEq K]

/-- Points of the methods (resourcemanager.go:40-92), one for each access to the lock and to the map. -/
inductive Pt (K E : Type) where
  /-- singleflight: join or lead -/
  | start
  /-- singleflight: `c.wg.Wait()` for the flight led by call `l` -/
  | wait (l : Nat)
  /-- resourcemanager.go:59 `m.rw.RLock()` -/
  | rlock
  /-- resourcemanager.go:60: load `m.resources` -/
  | getField
  /-- resourcemanager.go:60: look the key up -/
  | getMap
  /-- resourcemanager.go:61 `m.rw.RUnlock()`, with `resource, ok` -/
  | runlock (r : Option Nat)
  /-- resourcemanager.go:66 -/
  | create
  /-- resourcemanager.go:71 `m.rw.Lock()` -/
  | storeLock
  /-- resourcemanager.go:72: load `m.resources` -/
  | storeField
  /-- resourcemanager.go:72: assign -/
  | storeMap
  /-- resourcemanager.go:73 `m.rw.Unlock()` -/
  | storeUnlock
  /-- singleflight: publish the outcome -/
  | finish (o : Outcome E)
  /-- singleflight: remove the flight; return -/
  | drop (o : Outcome E)
  /-- resourcemanager.go:86 `m.rw.Lock()` -/
  | rmLock
  /-- resourcemanager.go:87: load `m.resources` -/
  | rmField
  /-- resourcemanager.go:87: look the key up -/
  | rmGet
  /-- resourcemanager.go:88: load `m.resources` -/
  | rmField2
  /-- resourcemanager.go:88: delete -/
  | rmDel
  /-- resourcemanager.go:90 `m.rw.Unlock()`, with `exist` -/
  | rmUnlock (b : Bool)
  /-- resourcemanager.go:41 `m.rw.Lock()` -/
  | clLock
  /-- resourcemanager.go:44: load `m.resources` -/
  | clField
  /-- resourcemanager.go:44: the next entry; `seen` are the keys done -/
  | clNext (seen : List K) (be : BatchError E)
  /-- resourcemanager.go:45-47: `resource.Close()` -/
  | clCall (x : K × Nat) (seen : List K) (be : BatchError E)
  /-- resourcemanager.go:49: `m.resources = nil` -/
  | clSet (be : BatchError E)
  /-- resourcemanager.go:51-52 -/
  | clUnlock (be : BatchError E)

/-- A `ResourceManager` (resourcemanager.go:27-31), with the readers of its lock. -/
structure Mem (K E : Type) where
  /-- resourcemanager.go:29 `resources`: whether it is not nil -/
  field : Bool
  /-- the map made by `NewResourceManager` -/
  map : List (K × Nat)
  /-- who holds the lock for writing -/
  writer : Option Nat
  /-- who holds the lock for reading -/
  readers : List Nat
  /-- singleflight's map and outcomes, and the history variables, as in `ResMan.G` -/
  flight : K → Option Nat
  fin : Nat → Option (Outcome E)
  log : List (LogEv K)
  heldAt : Nat → List (K × Nat)
  closedBy : Nat → List Nat
  logAt : Nat → List (LogEv K)
  remBy : Nat → Option Nat

/-- What the map holds: nothing if the field is nil. -/
def Mem.held (M : Mem K E) : List (K × Nat) := if M.field then M.map else []

/-- The entries a loop over the map can continue with. -/
def rest (l : List (K × Nat)) (seen : List K) : List (K × Nat) := l.filter fun x => decide (x.1 ∉ seen)

/-- resourcemanager.go:56-82 `Get` and singleflight's `Do` -/
def getStep (M : Mem K E) (i : Nat) (k : K) (fail : Option E) : Pt K E → Option (Mem K E × (Pt K E ⊕ Res' E))
  | .start => match M.flight k with
    | some l => some (M, .inl (.wait l))
    | none => some ({ M with flight := fun k' => if k' = k then some i else M.flight k' }, .inl .rlock)
  | .wait l => match M.fin l with
    | some o => some (M, .inr (.get o))
    | none => none
  | .rlock => if M.writer.isSome then none else some ({ M with readers := i :: M.readers }, .inl .getField)
  | .getField => some (M, .inl (if M.field then .getMap else .runlock none))
  | .getMap => some (M, .inl (.runlock (find M.map k)))
  | .runlock r => some ({ M with readers := M.readers.filter (· != i) }, .inl (match r with | some r => .finish (.got r) | none => .create))
  | .create => match fail with
    | some e => some (M, .inl (.finish (.failed e)))
    | none => some ({ M with log := M.log ++ [.created k i] }, .inl .storeLock)
  | .storeLock => if M.writer.isSome || !M.readers.isEmpty then none else some ({ M with writer := some i }, .inl .storeField)
  -- assigning to a nil map panics while the lock is held
  | .storeField => some (M, .inl (if M.field then .storeMap else .finish .panic))
  | .storeMap => some ({ M with map := insert M.map k i, log := M.log ++ [.stored k i] }, .inl .storeUnlock)
  | .storeUnlock => some ({ M with writer := none }, .inl (.finish (.got i)))
  | .finish o => some ({ M with fin := upd M.fin i (some o) }, .inl (.drop o))
  | .drop o => some ({ M with flight := fun k' => if k' = k then none else M.flight k' }, .inr (.get o))
  | _ => none

/-- resourcemanager.go:85-92 `Remove`. `remBy` and the log record the entry removed. -/
def removeStep (M : Mem K E) (i : Nat) (k : K) : Pt K E → Option (Mem K E × (Pt K E ⊕ Res' E))
  | .rmLock => if M.writer.isSome || !M.readers.isEmpty then none else some ({ M with writer := some i }, .inl .rmField)
  | .rmField => some (M, .inl (if M.field then .rmGet else .rmUnlock false))
  | .rmGet => some (M, .inl (if (find M.map k).isSome then .rmField2 else .rmUnlock false))
  | .rmField2 => some (M, .inl (if M.field then .rmDel else .rmUnlock true))
  | .rmDel => match find M.map k with
    | some r => some ({ M with map := erase M.map k, log := M.log ++ [.removed k r], remBy := upd M.remBy r (some i) }, .inl (.rmUnlock true))
    | none => some (M, .inl (.rmUnlock true))
  | .rmUnlock b => some ({ M with writer := none }, .inr (.removed b))
  | _ => none

/-- resourcemanager.go:40-53 `Close`; the choice `c` gives the iteration order of the map. -/
def closeStep (cerr : Nat → Option E) (M : Mem K E) (i c : Nat) : Pt K E → Option (Mem K E × (Pt K E ⊕ Res' E))
  | .clLock => if M.writer.isSome || !M.readers.isEmpty then none else
    some ({ M with writer := some i, heldAt := upd M.heldAt i M.held, closedBy := upd M.closedBy i [], logAt := upd M.logAt i M.log }, .inl .clField)
  | .clField => some (M, .inl (if M.field then .clNext [] .zero else .clSet .zero))
  | .clNext seen be => match rest M.map seen with
    | [] => some (M, .inl (.clSet be))
    | l => match l[c % l.length]? with
      | none => none
      | some x => some (M, .inl (.clCall x seen be))
  | .clCall x seen be => some ({ M with log := M.log ++ [.closed x.2], closedBy := upd M.closedBy i (M.closedBy i ++ [x.2]) },
      .inl (.clNext (seen ++ [x.1]) (be.add (cerr x.2))))
  | .clSet be => some ({ M with field := false }, .inl (.clUnlock be))
  | .clUnlock be => some ({ M with writer := none }, .inr (.closed be.err))
  | _ => none

/-- resourcemanager.go:34-36 `NewResourceManager` -/
def new : Mem K E := ⟨true, [], none, [], fun _ => none, fun _ => none, [], fun _ => [], fun _ => [], fun _ => [], fun _ => none⟩

/-- All interleavings of the accesses; `cerr` are the results of the `Close` methods of the resources. -/
def prog (cerr : Nat → Option E) : Prog (Mem K E) (Op K E) (Res' E) (Pt K E) where
  init := new
  begin
    | .get _ _ => .start
    | .remove _ => .rmLock
    | .close => .clLock
  step M i op s c := match op with
    | .get k fail => getStep M i k fail s
    | .remove k => removeStep M i k s
    | .close => closeStep cerr M i c s

/-! ## Specification -/

/-- The plain memory locations. -/
inductive Loc where
  /-- the field `resources` -/
  | field
  /-- the map -/
  | map

/-- The access a call is about to make: the location, and whether it is a write. -/
def Pt.access : Pt K E → Option (Loc × Bool)
  | .getField | .storeField | .rmField | .rmField2 | .clField => some (.field, false)
  | .clSet _ => some (.field, true)
  | .getMap | .rmGet | .clNext _ _ => some (.map, false)
  | .storeMap | .rmDel => some (.map, true)
  | _ => none

end Verif.XSync.ResManMem
