import Verif.Conc.Prog
import Verif.XError.Model
/-!
# Model of `xsync/resourcemanager.go`

Any number of concurrent calls of `Get`, `Remove` and `Close`. The resource created by the `Get` call with number `i` is
represented by `i`, so that different creations give different resources (and never nil ones). `create` may fail with any
error, and `cerr r` is what the `Close` method of the resource `r` returns.

`singleflight.Group.Do` (golang.org/x/sync, not in this repository) is modelled from its documented implementation: under
its own mutex a call either joins the flight of its key or becomes the leader of a new one; the leader executes the function,
publishes the outcome (`wg.Done()`), then removes the flight from the group and returns.

Critical sections of `m.rw` without user code are one atomic step that is possible when nobody holds the write lock.
-/
namespace Verif.XSync.ResMan
open Verif.Conc Verif.XError

variable {K E : Type} [DecidableEq K]

/-- The methods: resourcemanager.go:56 `Get`, 85 `Remove`, 40 `Close`. -/
inductive Op (K E : Type) where
  /-- `Get(key, create)`, where `create` fails with `e` if `fail = some e` -/
  | get (k : K) (fail : Option E)
  | remove (k : K)
  | close

/-- Outcome of a flight. -/
inductive Outcome (E : Type) where
  | got (r : Nat)
  | failed (e : E)
  | panic

/-- Results of the methods. -/
inductive Res' (E : Type) where
  | get (o : Outcome E)
  | removed (b : Bool)
  | closed (r : Res E)

/-- Points of the methods (resourcemanager.go:40-92). -/
inductive Pt (K E : Type) where
  /-- singleflight: join or lead -/
  | start
  /-- singleflight: `c.wg.Wait()` for the flight led by call `l` -/
  | wait (l : Nat)
  /-- resourcemanager.go:59-61 -/
  | lookup
  /-- resourcemanager.go:66 -/
  | create
  /-- resourcemanager.go:71-73 -/
  | store
  /-- singleflight: publish the outcome -/
  | finish (o : Outcome E)
  /-- singleflight: remove the flight; return -/
  | drop (o : Outcome E)
  /-- resourcemanager.go:86-90 -/
  | remove
  /-- resourcemanager.go:41 -/
  | lock
  /-- resourcemanager.go:43-48: the loop, with the resources still to be closed -/
  | closing (todo : List (K × Nat)) (be : BatchError E)

/-- What happens to resources, in order (history variable). -/
inductive LogEv (K : Type) where
  /-- a `create` call made for the key has succeeded -/
  | created (k : K) (r : Nat)
  /-- the resource has been entered into the map -/
  | stored (k : K) (r : Nat)
  /-- `Remove` has removed the resource -/
  | removed (k : K) (r : Nat)
  /-- the resource's `Close` has been called -/
  | closed (r : Nat)
  deriving DecidableEq

/-- A `ResourceManager` (resourcemanager.go:27-31). -/
structure G (K E : Type) where
  /-- resourcemanager.go:29 `resources`; `none` is the nil map -/
  res : Option (List (K × Nat))
  /-- the holder of the write lock of `rw` -/
  wlock : Option Nat
  /-- singleflight's map: the leader of the current flight of a key -/
  flight : K → Option Nat
  /-- the published outcomes of flights, by leader -/
  fin : Nat → Option (Outcome E)
  log : List (LogEv K)
  /-- what was held when the `Close` call got the lock (history variable) -/
  heldAt : Nat → List (K × Nat)
  /-- what the `Close` call has closed so far (history variable) -/
  closedBy : Nat → List Nat
  /-- the log when the `Close` call got the lock (history variable) -/
  logAt : Nat → List (LogEv K)
  /-- the `Remove` call that has removed the resource (history variable) -/
  remBy : Nat → Option Nat

/-- `m[k]` -/
def find (l : List (K × Nat)) (k : K) : Option Nat :=
  match l with
  | [] => none
  | (k', r) :: l => if k' = k then some r else find l k

/-- `delete(m, k)` -/
def erase (l : List (K × Nat)) (k : K) : List (K × Nat) := l.filter fun x => decide (x.1 ≠ k)

/-- `m[k] = r` -/
def insert (l : List (K × Nat)) (k : K) (r : Nat) : List (K × Nat) := (k, r) :: erase l k

/-- resourcemanager.go:56-82 `Get` and singleflight's `Do` -/
def getStep (g : G K E) (i : Nat) (k : K) (fail : Option E) : Pt K E → Option (G K E × (Pt K E ⊕ Res' E))
  | .start => match g.flight k with
    | some l => some (g, .inl (.wait l))
    | none => some ({ g with flight := fun k' => if k' = k then some i else g.flight k' }, .inl .lookup)
  | .wait l => match g.fin l with
    | some o => some (g, .inr (.get o))
    | none => none
  -- resourcemanager.go:59-64
  | .lookup => if g.wlock.isSome then none else
    match g.res.bind (find · k) with
    | some r => some (g, .inl (.finish (.got r)))
    | none => some (g, .inl .create)
  -- resourcemanager.go:66-69
  | .create => match fail with
    | some e => some (g, .inl (.finish (.failed e)))
    | none => some ({ g with log := g.log ++ [.created k i] }, .inl .store)
  -- resourcemanager.go:71-75; assigning to a nil map panics while the lock is held
  | .store => if g.wlock.isSome then none else
    match g.res with
    | none => some ({ g with wlock := some i }, .inl (.finish .panic))
    | some l => some ({ g with res := some (insert l k i), log := g.log ++ [.stored k i] }, .inl (.finish (.got i)))
  | .finish o => some ({ g with fin := upd g.fin i (some o) }, .inl (.drop o))
  | .drop o => some ({ g with flight := fun k' => if k' = k then none else g.flight k' }, .inr (.get o))
  | _ => none

/-- resourcemanager.go:85-92 `Remove` -/
def removeStep (g : G K E) (i : Nat) (k : K) : Pt K E → Option (G K E × (Pt K E ⊕ Res' E))
  | .remove => if g.wlock.isSome then none else
    match g.res with
    | none => some (g, .inr (.removed false))
    | some l => match find l k with
      | some r => some ({ g with res := some (erase l k), log := g.log ++ [.removed k r], remBy := upd g.remBy r (some i) }, .inr (.removed true))
      | none => some (g, .inr (.removed false))
  | _ => none

/-- resourcemanager.go:40-53 `Close`; the choice `c` gives the iteration order of the map. -/
def closeStep (cerr : Nat → Option E) (g : G K E) (i c : Nat) : Pt K E → Option (G K E × (Pt K E ⊕ Res' E))
  | .lock => if g.wlock.isSome then none else
    some ({ g with wlock := some i, heldAt := upd g.heldAt i (g.res.getD []), closedBy := upd g.closedBy i [], logAt := upd g.logAt i g.log },
      .inl (.closing (g.res.getD []) .zero))
  | .closing todo be => match todo with
    | [] => some ({ g with res := none, wlock := none }, .inr (.closed be.err))
    | _ => match todo[c % todo.length]? with
      | none => none
      | some x => some ({ g with log := g.log ++ [.closed x.2], closedBy := upd g.closedBy i (g.closedBy i ++ [x.2]) },
          .inl (.closing (todo.eraseIdx (c % todo.length)) (be.add (cerr x.2))))
  | _ => none

/-- resourcemanager.go:34-36 `NewResourceManager` -/
def new : G K E := ⟨some [], none, fun _ => none, fun _ => none, [], fun _ => [], fun _ => [], fun _ => [], fun _ => none⟩

/-- All interleavings of calls of the methods; `cerr` are the results of the `Close` methods of the resources. -/
def prog (cerr : Nat → Option E) : Prog (G K E) (Op K E) (Res' E) (Pt K E) where
  init := new
  begin
    | .get _ _ => .start
    | .remove _ => .remove
    | .close => .lock
  step g i op s c := match op with
    | .get k fail => getStep g i k fail s
    | .remove k => removeStep g i k s
    | .close => closeStep cerr g i c s

/-! ## Specification -/

/-- The resource held for a key after the events of the log. -/
def held (k : K) (log : List (LogEv K)) : Option Nat :=
  log.foldl (fun cur ev => match ev with
    | .stored k' r => if k' = k then some r else cur
    | .removed k' _ => if k' = k then none else cur
    | _ => cur) none

/-- The resources that have been closed, in order. -/
def closedLog (log : List (LogEv K)) : List Nat := log.filterMap fun | .closed r => some r | _ => none

/-- What `Close` should return for the errors of the resources: nil, the error, or all of them. -/
def report : List E → Res E
  | [] => .nil
  | [e] => .one e
  | es => .array es

end Verif.XSync.ResMan
