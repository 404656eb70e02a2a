import Verif.XSync.ResMan
/-!
# `xsync/resourcemanager.go` with user functions that use the manager

As `ResMan.lean`, but the create function given to `Get` and the `Close` methods of resources may themselves call `Get` and `Remove` of the same
manager, any number of times and depending on the results of these calls, and the create functions given to such nested `Get` calls may do the
same. A goroutine is then a stack: the innermost `Get` call and the user functions that wait for it. A resource is represented by the number of
the flight (execution of singleflight's function) that has created it. What `Close` reports is left out (C31).
-/
namespace Verif.XSync.ResManNest
open Verif.Conc
open Verif.XSync.ResMan (Outcome find erase insert)

variable {K E : Type} [DecidableEq K]

/-- A user function: what it does next. -/
inductive Tree (K E : Type) where
  /-- returns, with an error or (for a create function) a new resource -/
  | ret (e : Option E)
  /-- calls `Get(k, create)` and goes on depending on the outcome; a panic of the call is a panic of the function -/
  | get (k : K) (create : Tree K E) (f : Outcome E → Tree K E)
  /-- calls `Remove(k)` -/
  | remove (k : K) (f : Bool → Tree K E)

/-- The methods: resourcemanager.go:56 `Get`, 85 `Remove`, 40 `Close`, with `create` functions that make calls themselves. -/
inductive Op (K E : Type) where
  | get (k : K) (create : Tree K E)
  | remove (k : K)
  | close

/-- Results of the methods. -/
inductive Res (E : Type) where
  | get (o : Outcome E)
  | removed (b : Bool)
  | closed
  /-- `Close` has panicked -/
  | closePanic

/-- Where a `Get` call is; `t` is the number of its flight. -/
inductive FPt (K E : Type) where
  /-- singleflight: join or lead -/
  | start (create : Tree K E)
  /-- singleflight: `c.wg.Wait()` -/
  | wait (t : Nat)
  /-- resourcemanager.go:59-61 -/
  | lookup (t : Nat) (create : Tree K E)
  /-- resourcemanager.go:66: inside `create` -/
  | creating (t : Nat) (p : Tree K E)
  /-- resourcemanager.go:71-73 -/
  | store (t : Nat)
  /-- singleflight: publish the outcome -/
  | finish (t : Nat) (o : Outcome E)
  /-- singleflight: remove the flight; return -/
  | drop (t : Nat) (o : Outcome E)

/-- What waits for a `Get` call: its user; a create function, which was called for the key `k` in flight `t` and goes on with `f`, with what
waits for that one; or the `Close` method of a resource, called by `Close`, which has the resources `todo` still to close. -/
inductive Under (K E : Type) where
  | user
  | create (k : K) (t : Nat) (f : Outcome E → Tree K E) (u : Under K E)
  | close (todo : List (K × Nat)) (f : Outcome E → Tree K E)

/-- Points of the methods (resourcemanager.go:40-92), inside the calls that user functions make. -/
inductive Pt (K E : Type) where
  /-- in a `Get` of `k` -/
  | frame (k : K) (p : FPt K E) (u : Under K E)
  /-- resourcemanager.go:86-90 -/
  | remove (k : K)
  /-- resourcemanager.go:41 -/
  | lock
  /-- resourcemanager.go:44: the loop -/
  | closing (todo : List (K × Nat))
  /-- resourcemanager.go:45: in the `Close` method of a resource -/
  | method (todo : List (K × Nat)) (p : Tree K E)

/-- What happens to resources, in order (history variable). -/
inductive LogEv (K : Type) where
  | created (k : K) (t : Nat)
  | stored (k : K) (t : Nat)
  | removed (k : K) (t : Nat)

/-- A `ResourceManager` (resourcemanager.go:27-31). -/
structure G (K E : Type) where
  /-- resourcemanager.go:29 `resources`; `none` is the nil map -/
  res : Option (List (K × Nat))
  /-- the holder of the write lock of `rw` -/
  wlock : Option Nat
  /-- singleflight's map: the current flight of a key -/
  flight : K → Option Nat
  /-- the published outcomes of flights -/
  fin : Nat → Option (Outcome E)
  /-- the number of the next flight -/
  next : Nat
  log : List (LogEv K)

/-- A `Get` call ends with the outcome `o`. -/
def leave (u : Under K E) (o : Outcome E) : Pt K E ⊕ Res E :=
  match u, o with
  | .user, o => .inr (.get o)
  | .create k t _ u, .panic => .inl (.frame k (.finish t .panic) u)
  | .create k t f u, o => .inl (.frame k (.creating t (f o)) u)
  | .close _ _, .panic => .inr .closePanic
  | .close todo f, o => .inl (.method todo (f o))

/-- resourcemanager.go:87-89: the effect of `Remove(k)` and what it returns -/
def removal (g : G K E) (k : K) : G K E × Bool :=
  match g.res with
  | none => (g, false)
  | some l => match find l k with
    | some r => ({ g with res := some (erase l k), log := g.log ++ [.removed k r] }, true)
    | none => (g, false)

/-- resourcemanager.go:56-82 `Get` and singleflight's `Do` -/
def frameStep (g : G K E) (i : Nat) (k : K) (u : Under K E) : FPt K E → Option (G K E × (Pt K E ⊕ Res E))
  | .start create => match g.flight k with
    | some t => some (g, .inl (.frame k (.wait t) u))
    | none => some ({ g with flight := fun k' => if k' = k then some g.next else g.flight k', next := g.next + 1 },
        .inl (.frame k (.lookup g.next create) u))
  | .wait t => match g.fin t with
    | some o => some (g, leave u o)
    | none => none
  | .lookup t create => if g.wlock.isSome then none else
    match g.res.bind (find · k) with
    | some r => some (g, .inl (.frame k (.finish t (.got r)) u))
    | none => some (g, .inl (.frame k (.creating t create) u))
  | .creating t (.ret (some e)) => some (g, .inl (.frame k (.finish t (.failed e)) u))
  | .creating t (.ret none) => some ({ g with log := g.log ++ [.created k t] }, .inl (.frame k (.store t) u))
  | .creating t (.get k' create f) => some (g, .inl (.frame k' (.start create) (.create k t f u)))
  | .creating t (.remove k' f) => if g.wlock.isSome then none else
    some ((removal g k').1, .inl (.frame k (.creating t (f (removal g k').2)) u))
  -- resourcemanager.go:71-75; assigning to a nil map panics while the lock is held
  | .store t => if g.wlock.isSome then none else
    match g.res with
    | none => some ({ g with wlock := some i }, .inl (.frame k (.finish t .panic) u))
    | some l => some ({ g with res := some (insert l k t), log := g.log ++ [.stored k t] }, .inl (.frame k (.finish t (.got t)) u))
  | .finish t o => some ({ g with fin := upd g.fin t (some o) }, .inl (.frame k (.drop t o) u))
  | .drop _ o => some ({ g with flight := fun k' => if k' = k then none else g.flight k' }, leave u o)

/-- All steps; `clm r` is the `Close` method of the resource `r`, and the choice `c` gives the iteration order of the map. -/
def step (clm : Nat → Tree K E) (g : G K E) (i : Nat) (_ : Op K E) (s : Pt K E) (c : Nat) : Option (G K E × (Pt K E ⊕ Res E)) :=
  match s with
  | .frame k p u => frameStep g i k u p
  | .remove k => if g.wlock.isSome then none else some ((removal g k).1, .inr (.removed (removal g k).2))
  | .lock => if g.wlock.isSome then none else some ({ g with wlock := some i }, .inl (.closing (g.res.getD [])))
  | .closing [] => some ({ g with res := none, wlock := none }, .inr .closed)
  | .closing (x :: l) => match (x :: l)[c % (l.length + 1)]? with
    | none => none
    | some y => some (g, .inl (.method ((x :: l).eraseIdx (c % (l.length + 1))) (clm y.2)))
  | .method todo (.ret _) => some (g, .inl (.closing todo))
  | .method todo (.get k create f) => some (g, .inl (.frame k (.start create) (.close todo f)))
  | .method todo (.remove k f) => if g.wlock.isSome then none else some ((removal g k).1, .inl (.method todo (f (removal g k).2)))

/-- resourcemanager.go:34-36 `NewResourceManager` -/
def new : G K E := ⟨some [], none, fun _ => none, fun _ => none, 0, []⟩

/-- All interleavings of calls of the methods; `clm` is what the `Close` methods of the resources do. -/
def prog (clm : Nat → Tree K E) : Prog (G K E) (Op K E) (Res E) (Pt K E) where
  init := new
  begin
    | .get k create => .frame k (.start create) .user
    | .remove k => .remove k
    | .close => .lock
  step := step clm

/-! ## Specification -/

/-- The function only calls `Get` with keys below `k`, and the create functions it gives to these calls do so for their keys. -/
def Tree.Below (rk : K → Nat) : K → Tree K E → Prop
  | _, .ret _ => True
  | k, .get k' create f => rk k' < rk k ∧ create.Below rk k' ∧ ∀ o, (f o).Below rk k
  | k, .remove _ f => ∀ b, (f b).Below rk k

/-- The resource held for a key after the events of the log. -/
def held (k : K) (log : List (LogEv K)) : Option Nat :=
  log.foldl (fun cur ev => match ev with
    | .stored k' r => if k' = k then some r else cur
    | .removed k' _ => if k' = k then none else cur
    | _ => cur) none

end Verif.XSync.ResManNest
