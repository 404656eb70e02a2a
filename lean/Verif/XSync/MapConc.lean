import Verif.Conc.Obs
import Verif.Go.GoMap
/-!
# Concurrent model of `xsync/map.go`

Any number of concurrent calls of `Load`, `Store`, `LoadOrStore`, `ComputeIfAbsent`, `ComputeIfPresent`, `LoadAndDelete`, `Delete` and
`Range` on one `Map`. Every atomic memory access (a load or store of `m.read`, a load, store or compare-and-swap of the pointer of an
entry), every `Lock` and `Unlock` of `m.mu` and every call of a user function is one step. The fields `m.dirty` and `m.misses` are only
used by the holder of `m.mu`, so that accesses to them are part of the neighbouring step. `Clear`, which overwrites the atomic value with a
plain assignment, is treated separately (`MapClear.lean`).

User functions are arbitrary: a result may depend on the choice `c` of the environment, hence be different in every call. They do not use
the map themselves and do not panic.
-/
namespace Verif.XSync.MapConc
open Verif.Conc Verif.Go

variable {K V : Type}

/-- map.go:69-90 the pointer of an entry: nil, `expunged` (map.go:25), or a pointer to a variable allocated by the call `i` that holds
`v`. A call stores at most one pointer, so that `cell i v` names the variable. -/
inductive Ptr (V : Type) where
  | nil
  | expunged
  | cell (i : Nat) (v : V)
  deriving DecidableEq

/-- The value that a pointer of an entry (map.go:89) stands for. -/
def Ptr.get? : Ptr V → Option V
  | .cell _ v => some v
  | _ => none

/-- map.go:29-67 `Map`, `readOnly` and the entries on the heap -/
structure G (K V : Type) where
  /-- the holder of `mu` -/
  mu : Option Nat
  /-- `read.m` -/
  read : GMap K Nat
  /-- `read.amended` -/
  amended : Bool
  /-- `none` is the nil map -/
  dirty : Option (GMap K Nat)
  misses : Nat
  /-- the heap of entries -/
  p : Nat → Ptr V
  /-- the next unused entry -/
  next : Nat
  /-- the key an entry was created for (history variable) -/
  key : Nat → Option K
  /-- how often the call has called its function (history variable) -/
  calls : Nat → Nat

/-- The zero `Map`; a `read` that was never stored loads as the zero `readOnly`. -/
def G.zero : G K V := ⟨none, [], false, none, 0, fun _ => .nil, 0, fun _ => none, fun _ => 0⟩

/-- An atomic store to `e.p`. -/
def G.setP (g : G K V) (e : Nat) (x : Ptr V) : G K V := { g with p := upd g.p e x }

/-- Lookup in `m.dirty`, which may be nil. -/
def G.dirtyGet [DecidableEq K] (g : G K V) (k : K) : Option Nat := (g.dirty.getD []).get k

/-- The methods: map.go:100 `Load`, 134 `Store`, 197 `LoadOrStore`, 269 `ComputeIfAbsent`, 334 `ComputeIfPresent`, 389 `LoadAndDelete`, 413 `Delete`, 449 `Range`. A user function gets an additional number, by which it can return something else each time. -/
inductive Op (K V : Type) where
  | load (k : K)
  | store (k : K) (v : V)
  | loadOrStore (k : K) (v : V)
  | computeIfAbsent (k : K) (f : K → Nat → V)
  | computeIfPresent (k : K) (f : K → V → Nat → V)
  | loadAndDelete (k : K)
  | delete (k : K)
  | range (f : K → V → Nat → Bool)

/-- Results of the methods. -/
inductive Res (K V : Type) where
  | unit
  /-- `(value, ok)`: `none` stands for `(nil, false)` -/
  | value (r : Option V)
  /-- `(actual, loaded)`; `none` stands for nil -/
  | loaded (actual : Option V) (loaded : Bool)
  /-- `(actual, exist)`: `none` stands for `(nil, false)`, `some (w, v)` for the result `v` of the function applied to `w` -/
  | present (r : Option (V × V))
  /-- the calls of the function, in order, and whether all of them returned true -/
  | visited (calls : List (K × V)) (all : Bool)
  | panic

/-- What the functions `try...` are called with: without `m.mu`, or with `m.mu` and an entry found in `read.m` or `m.dirty`. -/
inductive Mode where
  | free
  | inRead
  | inDirty
  deriving DecidableEq

/-- What follows after `m.mu.Unlock()`. -/
inductive Cont (K V : Type) where
  | ret (r : Res K V)
  | eload (e : Nat)
  | del (e : Nat)
  | iter (m : GMap K Nat)

/-- Local points, with the values of local variables. -/
inductive Pt (K V : Type) where
  /-- the first `m.read.Load()` -/
  | start
  /-- the first `atomic.LoadPointer(&e.p)` of a function `try...` (map.go:169, 238, 303, 360) -/
  | tryLoad (m : Mode) (e : Nat)
  /-- the call of the user function in `try...` (map.go:314, 367), after `p` was loaded -/
  | call (m : Mode) (e : Nat) (p : Ptr V)
  /-- the `CompareAndSwapPointer(&e.p, p, ..)` with the new value `x.1`; `x.2` is the argument the function was called with (map.go:173,
  251, 317, 371) -/
  | cas (m : Mode) (e : Nat) (p : Ptr V) (x : V × Option V)
  /-- the `LoadPointer` after a failed compare-and-swap (map.go:169, 254, 320, 374) -/
  | reload (m : Mode) (e : Nat) (x : V × Option V)
  /-- `m.mu.Lock()` -/
  | lock
  /-- the `m.read.Load()` under the lock -/
  | locked
  /-- `e.unexpungeLocked()` (map.go:143, 210, 280, 345) -/
  | unexp (e : Nat)
  /-- `e.storeLocked(&value)` (map.go:148, 150) -/
  | storeLocked (e : Nat)
  /-- `m.missLocked()` (map.go:115, 216, 286, 351, 402): the counter -/
  | miss (k : Cont K V)
  /-- the `m.read.Store` of `missLocked` (map.go:487-489) -/
  | promote (k : Cont K V)
  /-- the promotion by `Range` (map.go:463-466) -/
  | rpromote
  /-- `m.dirtyLocked()` (map.go:155, 221, 291), with the local variable `read.m` -/
  | build0 (rm : GMap K Nat)
  /-- the loop of `dirtyLocked` (map.go:499) -/
  | build (rm : GMap K Nat) (todo : List (K × Nat))
  /-- the `LoadPointer` in `tryExpungeLocked` (map.go:507, 512) -/
  | buildE (rm : GMap K Nat) (rest : List (K × Nat)) (k : K) (e : Nat)
  /-- the compare-and-swap in `tryExpungeLocked` (map.go:509) -/
  | buildC (rm : GMap K Nat) (rest : List (K × Nat)) (k : K) (e : Nat)
  /-- `m.read.Store(readOnly{m: read.m, amended: true})` (map.go:156, 222, 292) -/
  | amend (rm : GMap K Nat)
  /-- `computeFunc(key)` under the lock (map.go:294) -/
  | addCall
  /-- `m.dirty[key] = newEntry(value)` (map.go:158, 224, 295) -/
  | add (x : V)
  /-- `m.mu.Unlock()` -/
  | unlock (k : Cont K V)
  /-- `e.load()` in `Load` (map.go:122, 126) -/
  | eload (e : Nat)
  /-- the `LoadPointer` in `e.delete()` (map.go:429) -/
  | del (e : Nat)
  /-- the compare-and-swap in `e.delete()` (map.go:433) -/
  | delCas (e : Nat) (p : Ptr V)
  /-- the loop of `Range` (map.go:471), with the entries still to be visited and the calls made -/
  | iter (todo : List (K × Nat)) (vis : List (K × V))
  /-- the call of the function in `Range` (map.go:476) -/
  | icall (todo : List (K × Nat)) (vis : List (K × V)) (k : K) (v : V)

/-- What a function `try...` does after it has loaded the pointer of its entry. -/
inductive Dec (K V : Type) where
  /-- return `ok == false` -/
  | fail
  | done (r : Res K V)
  | cas (x : V × Option V)
  | call

/-- The first round: map.go:169-173 (`tryStore`), 238-251 (`tryLoadOrStore`), 303-314 (`tryComputeIfAbsent`), 360-367
(`tryComputeIfPresent`) -/
def first : Op K V → Ptr V → Dec K V
  | .store _ _, .expunged => .fail
  | .store _ v, _ => .cas (v, none)
  | .loadOrStore _ _, .expunged => .fail
  | .loadOrStore _ _, .cell _ w => .done (.loaded (some w) true)
  | .loadOrStore _ v, .nil => .cas (v, none)
  | .computeIfAbsent _ _, .expunged => .fail
  | .computeIfAbsent _ _, .cell _ w => .done (.loaded (some w) true)
  | .computeIfAbsent _ _, .nil => .call
  | .computeIfPresent _ _, .expunged => .fail
  | .computeIfPresent _ _, .nil => .done (.present none)
  | .computeIfPresent _ _, .cell _ _ => .call
  | _, _ => .fail

/-- After a failed compare-and-swap: map.go:169-173, 254-260, 320-326, 374-380 -/
def again (x : V × Option V) : Op K V → Ptr V → Dec K V
  | .store _ _, .expunged => .fail
  | .store _ _, _ => .cas x
  | .loadOrStore _ _, .expunged => .fail
  | .loadOrStore _ _, .cell _ w => .done (.loaded (some w) true)
  | .loadOrStore _ _, .nil => .cas x
  | .computeIfAbsent _ _, .expunged => .fail
  | .computeIfAbsent _ _, .cell _ w => .done (.loaded (some w) true)
  | .computeIfAbsent _ _, .nil => .cas x
  | .computeIfPresent _ _, .expunged => .fail
  | .computeIfPresent _ _, .nil => .fail
  | .computeIfPresent _ _, .cell _ _ => .cas x
  | _, _ => .fail

/-- The call of the user function: map.go:314, 367 -/
def callF : Op K V → Ptr V → Nat → Option (V × Option V)
  | .computeIfAbsent k f, _, c => some (f k c, none)
  | .computeIfPresent k f, .cell _ w, c => some (f k w c, some w)
  | _, _, _ => none

/-- The result after a successful compare-and-swap: map.go:137, 252, 318, 372 -/
def okRes (x : V × Option V) : Op K V → Res K V
  | .store _ _ => .unit
  | .computeIfPresent _ _ => .present (x.2.map fun w => (w, x.1))
  | _ => .loaded (some x.1) false

/-- The values returned with `ok == false` (map.go:240, 256, 305, 322, 362, 376, 379), which are the result under the lock. -/
def failRes : Op K V → Res K V
  | .computeIfPresent _ _ => .present none
  | _ => .loaded none false

/-- The result of `LoadAndDelete` and `Delete` (map.go:389-415) -/
def delRes (r : Option V) : Op K V → Res K V
  | .delete _ => .unit
  | _ => .value r

/-- After `try...` has returned `r` with `ok == true`. -/
def after (m : Mode) (r : Res K V) : Pt K V ⊕ Res K V :=
  match m with
  | .free => .inr r
  | .inRead => .inl (.unlock (.ret r))
  | .inDirty => .inl (.miss (.ret r))

/-- After `try...` has loaded the pointer `p`. -/
def decide' (op : Op K V) (m : Mode) (e : Nat) (p : Ptr V) : Dec K V → Pt K V ⊕ Res K V
  | .fail => match m with
    | .free => .inl .lock
    | _ => after m (failRes op)
  | .done r => after m r
  | .cas x => .inl (.cas m e p x)
  | .call => .inl (.call m e p)

/-- What a method does after `missLocked` (map.go:482-490). -/
def Cont.go : Cont K V → Pt K V ⊕ Res K V
  | .ret r => .inr r
  | .eload e => .inl (.eload e)
  | .del e => .inl (.del e)
  | .iter m => .inl (.iter m [])

variable [DecidableEq K]

/-- The first load of `m.read`: map.go:101-103 and 119-122 (`Load`), 135-136 (`Store`), 199-200, 270-271, 335-336, 390-392 and 406-409
(`LoadAndDelete`), 454-455 and 471 (`Range`) -/
def startStep (g : G K V) (op : Op K V) : Pt K V ⊕ Res K V :=
  match op with
  | .load k => match g.read.get k with
    | some e => .inl (.eload e)
    | none => if g.amended then .inl .lock else .inr (.value none)
  | .loadAndDelete k | .delete k => match g.read.get k with
    | some e => .inl (.del e)
    | none => if g.amended then .inl .lock else .inr (delRes none op)
  | .store k _ | .loadOrStore k _ | .computeIfAbsent k _ | .computeIfPresent k _ => match g.read.get k with
    | some e => .inl (.tryLoad .free e)
    | none => .inl .lock
  | .range _ => if g.amended then .inl .lock else .inl (.iter g.read [])

/-- The load of `m.read` under the lock and the following accesses to `m.dirty`: map.go:108-111 (`Load`), 141-153 (`Store`), 208-218
(`LoadOrStore`), 278-288 (`ComputeIfAbsent`), 343-353 (`ComputeIfPresent`), 394-398 (`LoadAndDelete`), 461-462 (`Range`) -/
def lockedStep (g : G K V) (op : Op K V) : G K V × Pt K V :=
  match op with
  | .load k => match g.read.get k with
    | some e => (g, .unlock (.eload e))
    | none => if g.amended then (match g.dirtyGet k with
        | some e => (g, .miss (.eload e))
        | none => (g, .miss (.ret (.value none))))
      else (g, .unlock (.ret (.value none)))
  | .loadAndDelete k | .delete k => match g.read.get k with
    | some e => (g, .unlock (.del e))
    | none => if g.amended then (match g.dirtyGet k with
        | some e => ({ g with dirty := g.dirty.map (·.del k) }, .miss (.del e))
        | none => ({ g with dirty := g.dirty.map (·.del k) }, .miss (.ret (delRes none op))))
      else (g, .unlock (.ret (delRes none op)))
  | .store k v => match g.read.get k with
    | some e => (g, .unexp e)
    | none => match g.dirtyGet k with
      | some e => (g, .storeLocked e)
      | none => (g, if g.amended then .add v else .build0 g.read)
  | .loadOrStore k v => match g.read.get k with
    | some e => (g, .unexp e)
    | none => match g.dirtyGet k with
      | some e => (g, .tryLoad .inDirty e)
      | none => (g, if g.amended then .add v else .build0 g.read)
  | .computeIfAbsent k _ => match g.read.get k with
    | some e => (g, .unexp e)
    | none => match g.dirtyGet k with
      | some e => (g, .tryLoad .inDirty e)
      | none => (g, if g.amended then .addCall else .build0 g.read)
  | .computeIfPresent k _ => match g.read.get k with
    | some e => (g, .unexp e)
    | none => match g.dirtyGet k with
      | some e => (g, .tryLoad .inDirty e)
      | none => (g, .unlock (.ret (.present none)))
  | .range _ => (g, if g.amended then .rpromote else .unlock (.iter g.read))

/-- `m.dirty[k] = e`; panics if `dirty` is nil -/
def G.setDirty (g : G K V) (k : K) (e : Nat) : Option (G K V) :=
  match g.dirty with
  | none => none
  | some d => some { g with dirty := some (d.set k e) }

/-- After `e.unexpungeLocked()` (map.go:148, 213, 283, 348) -/
def afterUnexp : Op K V → Nat → Pt K V
  | .store _ _, e => .storeLocked e
  | _, e => .tryLoad .inRead e

/-- The promotion of `m.dirty` (map.go:463-466, 487-489) -/
def G.promoted (g : G K V) : G K V := { g with read := g.dirty.getD [], amended := false, dirty := none, misses := 0 }

/-- The key that a method is called with. -/
def Op.key? : Op K V → Option K
  | .load k | .store k _ | .loadOrStore k _ | .computeIfAbsent k _ | .computeIfPresent k _ | .loadAndDelete k | .delete k => some k
  | .range _ => none

/-- What is stored for a new key, when it is not computed (map.go:158, 224) -/
def afterAmend : Op K V → Option (Pt K V)
  | .store _ v | .loadOrStore _ v => some (.add v)
  | .computeIfAbsent _ _ => some .addCall
  | _ => none

/-- The result of an operation that has added a new key (map.go:160, 225-229, 296-299) -/
def addRes (v : V) : Op K V → Res K V
  | .store _ _ => .unit
  | _ => .loaded (some v) false

variable [DecidableEq V]

/-- One atomic step of a call. -/
def step (g : G K V) (i : Nat) (op : Op K V) (s : Pt K V) (c : Nat) : Option (G K V × (Pt K V ⊕ Res K V)) :=
  match s with
  | .start => some (g, startStep g op)
  | .tryLoad m e => some (g, decide' op m e (g.p e) (first op (g.p e)))
  | .call m e p => match callF op p c with
    | some x => some ({ g with calls := upd g.calls i (g.calls i + 1) }, .inl (.cas m e p x))
    | none => none
  | .cas m e p x => if g.p e = p then some (g.setP e (.cell i x.1), after m (okRes x op)) else some (g, .inl (.reload m e x))
  | .reload m e x => some (g, decide' op m e (g.p e) (again x op (g.p e)))
  | .lock => if g.mu.isSome then none else some ({ g with mu := some i }, .inl .locked)
  | .locked => let (g', s') := lockedStep g op; some (g', .inl s')
  -- map.go:183-185, 143-147, 210-212, 280-282, 345-347
  | .unexp e => if g.p e = .expunged then
      match op.key? with
      | none => none
      | some k => match (g.setP e .nil).setDirty k e with
        | none => some (g.setP e .nil, .inr .panic)
        | some g' => some (g', .inl (afterUnexp op e))
    else some (g, .inl (afterUnexp op e))
  | .storeLocked e => match op with
    | .store _ v => some (g.setP e (.cell i v), .inl (.unlock (.ret .unit)))
    | _ => none
  -- map.go:483-486
  | .miss k => some ({ g with misses := g.misses + 1 }, .inl (if g.misses + 1 < (g.dirty.getD []).length then .unlock k else .promote k))
  | .promote k => some (g.promoted, .inl (.unlock k))
  | .rpromote => some (g.promoted, .inl (.unlock (.iter (g.dirty.getD []))))
  -- map.go:493-498
  | .build0 rm => match g.dirty with
    | some _ => some (g, .inl (.amend rm))
    | none => some ({ g with dirty := some [] }, .inl (.build rm g.read))
  | .build rm todo => match todo with
    | [] => some (g, .inl (.amend rm))
    | _ => match todo[c % todo.length]? with
      | none => none
      | some x => some (g, .inl (.buildE rm (todo.eraseIdx (c % todo.length)) x.1 x.2))
  -- map.go:507-514, 500-502
  | .buildE rm rest k e => match g.p e with
    | .nil => some (g, .inl (.buildC rm rest k e))
    | .expunged => some (g, .inl (.build rm rest))
    | .cell _ _ => match g.setDirty k e with
      | none => some (g, .inr .panic)
      | some g' => some (g', .inl (.build rm rest))
  | .buildC rm rest k e => if g.p e = .nil then some (g.setP e .expunged, .inl (.build rm rest)) else some (g, .inl (.buildE rm rest k e))
  | .amend rm => match afterAmend op with
    | none => none
    | some s' => some ({ g with read := rm, amended := true }, .inl s')
  | .addCall => match op with
    | .computeIfAbsent k f => some ({ g with calls := upd g.calls i (g.calls i + 1) }, .inl (.add (f k c)))
    | _ => none
  -- map.go:93-95, 158, 224, 295
  | .add v => match op.key? with
    | none => none
    | some k => match g.setDirty k g.next with
      | none => some (g, .inr .panic)
      | some g' => some ({ g' with p := upd g'.p g.next (.cell i v), next := g.next + 1, key := upd g'.key g.next (some k) },
          .inl (.unlock (.ret (addRes v op))))
  | .unlock k => some ({ g with mu := none }, k.go)
  | .eload e => some (g, .inr (.value (g.p e).get?))
  | .del e => match g.p e with
    | .cell j w => some (g, .inl (.delCas e (.cell j w)))
    | _ => some (g, .inr (delRes none op))
  | .delCas e p => if g.p e = p then some (g.setP e .nil, .inr (delRes p.get? op)) else some (g, .inl (.del e))
  -- map.go:471-475; the order of the iteration is a choice
  | .iter todo vis => match todo with
    | [] => some (g, .inr (.visited vis true))
    | _ => match todo[c % todo.length]? with
      | none => none
      | some x => match g.p x.2 with
        | .cell _ v => some (g, .inl (.icall (todo.eraseIdx (c % todo.length)) vis x.1 v))
        | _ => some (g, .inl (.iter (todo.eraseIdx (c % todo.length)) vis))
  -- map.go:476-478
  | .icall todo vis k v => match op with
    | .range f => some (g, if f k v c then .inl (.iter todo (vis ++ [(k, v)])) else .inr (.visited (vis ++ [(k, v)]) false))
    | _ => none

/-- All interleavings of calls of the methods (map.go:100-515, without `Clear`). -/
def prog : Prog (G K V) (Op K V) (Res K V) (Pt K V) where
  init := .zero
  begin _ := .start
  step := step

end Verif.XSync.MapConc
