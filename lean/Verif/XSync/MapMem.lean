import Verif.XSync.MapConc
/-!
# Memory-level model of `xsync/map.go`

`MapConc.lean` treats Go maps as values and joins accesses to the plain fields `m.dirty` and `m.misses` with neighbouring steps. This file
models the same methods one memory access at a time: Go maps are objects on a heap that `read.m`, `m.dirty` and local variables refer to,
every lookup, assignment, deletion, `len` and iteration of a map is an access to that object, and every read or write of a plain field is a
step of its own. The methods are written as trees of instructions (`Cmd`), following the Go text line by line.

The theorems (`MapMemProps.lean`) are: no two calls ever are about to access the same plain location with one of them writing (there is no
data race, hence by the Go memory model only sequentially consistent executions, and no "concurrent map read and map write" of the runtime),
and every history of this program is a history of the program of `MapConc.lean`, so that all its theorems hold here as well.

Simplifications: the variables of type `interface{}` that the pointers of entries refer to are written once, before their address is
published; as in `MapConc.lean` a pointer to such a variable is `cell i v`. Allocation gives an unused object and is not an access. The
increment `m.misses++` is one access. User functions do not use the map and do not panic.
-/
namespace Verif.XSync.MapMem
open Verif.Conc Verif.Go
open Verif.XSync.MapConc (Ptr Op Res Mode delRes)

variable {K V : Type}

/-- map.go:65-68 `readOnly`; a map is nil or refers to an object on the heap -/
structure RO where
  m : Option Nat
  amended : Bool

/-- The plain memory: the fields `m.dirty` and `m.misses` and the heap of Go maps. -/
structure Plain (K : Type) where
  dirty : Option Nat
  misses : Nat
  maps : Nat → GMap K Nat
  /-- the next unused map object -/
  nmaps : Nat
  /-- the map objects that have been stored in `m.read` (history variable) -/
  pub : List Nat

/-- The contents of a map; a nil map is empty. -/
def Plain.get (D : Plain K) (m : Option Nat) : GMap K Nat :=
  match m with
  | none => []
  | some r => D.maps r

/-- map.go:29-63 `Map`, and the heap of entries -/
structure Mem (K V : Type) where
  /-- the holder of `m.mu` -/
  mu : Option Nat
  /-- `m.read` -/
  read : RO
  d : Plain K
  /-- the field `p` of the entries -/
  ptr : Nat → Ptr V
  /-- the next unused entry -/
  ents : Nat

/-- The zero `Map` (map.go:29-62). -/
def Mem.zero : Mem K V := ⟨none, ⟨none, false⟩, ⟨none, 0, fun _ => [], 0, []⟩, fun _ => .nil, 0⟩

/-- The pointers a method stores: nil, `expunged`, or a pointer to its own new variable that holds `v`. -/
inductive New (V : Type) where
  | nil
  | expunged
  | var (v : V)

/-- The pointer of call `i`. -/
def New.ptr (i : Nat) : New V → Ptr V
  | .nil => .nil
  | .expunged => .expunged
  | .var v => .cell i v

/-- Heads of loops and functions with several callers, with their local variables. -/
inductive Label (K V : Type) where
  /-- `tryStore` and its loop, called by `Store` (map.go:167-177) -/
  | tryStore (k : K) (v : V) (e : Nat)
  /-- `tryLoadOrStore` (map.go:237) -/
  | tryLoadOrStore (md : Mode) (k : K) (v : V) (e : Nat)
  /-- the loop of `tryLoadOrStore` (map.go:250) -/
  | losLoop (md : Mode) (k : K) (v : V) (e : Nat)
  /-- `tryComputeIfAbsent` (map.go:302) -/
  | tryComputeIfAbsent (md : Mode) (k : K) (f : K → Nat → V) (e : Nat)
  /-- the loop of `tryComputeIfAbsent` (map.go:316) -/
  | ciaLoop (md : Mode) (k : K) (f : K → Nat → V) (e : Nat) (i : V)
  /-- `tryComputeIfPresent` (map.go:359) -/
  | tryComputeIfPresent (md : Mode) (k : K) (f : K → V → Nat → V) (e : Nat)
  /-- the loop of `tryComputeIfPresent` (map.go:370); `w` is the argument of the function (for the result) -/
  | cipLoop (md : Mode) (k : K) (f : K → V → Nat → V) (e : Nat) (p : Ptr V) (w i : V)
  /-- the loop of `delete` (map.go:427), called by `op` -/
  | delete (op : Op K V) (e : Nat)
  /-- the loop of `Range` over the map `m` (map.go:471); `seen` are the keys of earlier iterations, `vis` the calls made -/
  | rangeLoop (f : K → V → Nat → Bool) (m : Option Nat) (seen : List K) (vis : List (K × V))
  /-- the loop of `dirtyLocked` over the map `m` (map.go:499), called by `op` whose `read.m` is `rm` -/
  | dirtyLoop (op : Op K V) (rm m : Option Nat) (seen : List K)
  /-- `tryExpungeLocked` and its loop (map.go:506-514) -/
  | tryExpunge (op : Op K V) (rm m : Option Nat) (seen : List K) (k : K) (e : Nat)

/-- Instructions with their continuation. -/
inductive Cmd (K V : Type) where
  -- atomic operations and the mutex
  | loadRead (k : RO → Cmd K V)
  | storeRead (x : RO) (k : Cmd K V)
  | loadPtr (e : Nat) (k : Ptr V → Cmd K V)
  | storePtr (e : Nat) (x : New V) (k : Cmd K V)
  | casPtr (e : Nat) (old : Ptr V) (new : New V) (k : Bool → Cmd K V)
  | lock (k : Cmd K V)
  | unlock (k : Cmd K V)
  -- plain accesses
  | getDirty (k : Option Nat → Cmd K V)
  | setDirty (x : Option Nat) (k : Cmd K V)
  | incMisses (k : Cmd K V)
  | getMisses (k : Nat → Cmd K V)
  | setMisses (n : Nat) (k : Cmd K V)
  | mapGet (m : Option Nat) (key : K) (k : Option Nat → Cmd K V)
  | mapSet (m : Option Nat) (key : K) (e : Nat) (k : Cmd K V)
  | mapDel (m : Option Nat) (key : K) (k : Cmd K V)
  | mapLen (m : Option Nat) (k : Nat → Cmd K V)
  /-- the next key of a `range` loop, none at the end -/
  | mapNext (m : Option Nat) (seen : List K) (k : Option (K × Nat) → Cmd K V)
  -- allocation
  | newMap (k : Nat → Cmd K V)
  | newEntry (v : V) (k : Nat → Cmd K V)
  -- the call of a user function, which may depend on the environment
  | user (k : Nat → Cmd K V)
  | goto (l : Label K V)
  | ret (r : Res K V)

/-! ## The methods -/

/-- map.go:482-490 `missLocked` -/
def missLocked (k : Cmd K V) : Cmd K V :=
  .incMisses <| .getMisses fun n => .getDirty fun d => .mapLen d fun l =>
  if n < l then k else
  .getDirty fun d => .storeRead ⟨d, false⟩ <| .setDirty none <| .setMisses 0 k

/-- map.go:118-124 `e.load()` -/
def entryLoad (e : Nat) : Cmd K V := .loadPtr e fun p => .ret (.value p.get?)

/-- The end of `Load` (map.go:119-122) -/
def loadEnd : Option Nat → Cmd K V
  | some e => entryLoad e
  | none => .ret (.value none)

/-- map.go:106-116 -/
def loadSlow (key : K) : Cmd K V :=
  .lock <| .loadRead fun read => .mapGet read.m key fun
  | some e => .unlock (loadEnd (some e))
  | none => if read.amended then .getDirty fun d => .mapGet d key fun e => missLocked <| .unlock (loadEnd e) else .unlock (loadEnd none)

/-- map.go:100-123 `Load` -/
def load (key : K) : Cmd K V :=
  .loadRead fun read => .mapGet read.m key fun
  | some e => loadEnd (some e)
  | none => if read.amended then loadSlow key else loadEnd none

/-- The end of `LoadAndDelete` (map.go:406-409) -/
def deleteEnd (op : Op K V) : Option Nat → Cmd K V
  | some e => .goto (.delete op e)
  | none => .ret (delRes none op)

/-- map.go:393-404 -/
def deleteSlow (op : Op K V) (key : K) : Cmd K V :=
  .lock <| .loadRead fun read => .mapGet read.m key fun
  | some e => .unlock (deleteEnd op (some e))
  | none => if read.amended then
      .getDirty fun d => .mapGet d key fun e => .getDirty fun d => .mapDel d key <| missLocked <| .unlock (deleteEnd op e)
    else .unlock (deleteEnd op none)

/-- map.go:389-410 `LoadAndDelete`; map.go:413-415 `Delete` -/
def delete (op : Op K V) (key : K) : Cmd K V :=
  .loadRead fun read => .mapGet read.m key fun
  | some e => deleteEnd op (some e)
  | none => if read.amended then deleteSlow op key else deleteEnd op none

/-- The end of the operations that add a key: map.go:158-161, 224-229, 294-299 -/
def addEntry (key : K) (v : V) (r : Res K V) : Cmd K V :=
  .newEntry v fun e => .getDirty fun d => .mapSet d key e <| .unlock (.ret r)

/-- map.go:158, 224, 295: the new entry. -/
def addNew : Op K V → Cmd K V
  | .store key v => addEntry key v .unit
  | .loadOrStore key v => addEntry key v (.loaded (some v) false)
  | .computeIfAbsent key f => .user fun c => addEntry key (f key c) (.loaded (some (f key c)) false)
  | _ => .ret .panic

/-- map.go:156, 222, 292 -/
def amend (op : Op K V) (rm : Option Nat) : Cmd K V := .storeRead ⟨rm, true⟩ (addNew op)

/-- The second part of `dirtyLocked` (map.go:497-499) -/
def dirtyMake (op : Op K V) (rm : Option Nat) (read : RO) : Cmd K V :=
  .mapLen read.m fun _ => .newMap fun r => .setDirty (some r) <| .goto (.dirtyLoop op rm read.m [])

/-- map.go:492-498 `dirtyLocked`, called by `op` -/
def dirtyLocked (op : Op K V) (rm : Option Nat) : Cmd K V :=
  .getDirty fun
  | some _ => amend op rm
  | none => .loadRead (dirtyMake op rm)

/-- `if e.unexpungeLocked() { m.dirty[key] = e }` (map.go:143-147, 210-212, 280-282, 345-347) -/
def unexpunge (key : K) (e : Nat) (k : Cmd K V) : Cmd K V :=
  .casPtr e .expunged .nil fun was => if was then .getDirty fun d => .mapSet d key e k else k

/-- `e.storeLocked(&value)` and the end of `Store` (map.go:148, 150, 161) -/
def storeLocked (v : V) (e : Nat) : Cmd K V := .storePtr e (.var v) <| .unlock (.ret .unit)

/-- map.go:140-161 -/
def storeSlow (key : K) (v : V) : Cmd K V :=
  .lock <| .loadRead fun read => .mapGet read.m key fun
  | some e => unexpunge key e (storeLocked v e)
  | none => .getDirty fun d => .mapGet d key fun
    | some e => storeLocked v e
    | none => if read.amended then addNew (.store key v) else dirtyLocked (.store key v) read.m

/-- map.go:134-138 `Store` -/
def store (key : K) (v : V) : Cmd K V :=
  .loadRead fun read => .mapGet read.m key fun
  | some e => .goto (.tryStore key v e)
  | none => storeSlow key v

/-- The slow path of `LoadOrStore`, `ComputeIfAbsent` (map.go:207-230, 277-299): `try'` calls the function `try...`. -/
def slow (key : K) (try' : Mode → Nat → Label K V) (absent : RO → Cmd K V) : Cmd K V :=
  .lock <| .loadRead fun read => .mapGet read.m key fun
  | some e => unexpunge key e (.goto (try' .inRead e))
  | none => .getDirty fun d => .mapGet d key fun
    | some e => .goto (try' .inDirty e)
    | none => absent read

/-- map.go:207-230 -/
def loadOrStoreSlow (key : K) (v : V) : Cmd K V :=
  slow key (fun md e => .tryLoadOrStore md key v e) fun read =>
    if read.amended then addNew (.loadOrStore key v) else dirtyLocked (.loadOrStore key v) read.m

/-- map.go:277-299 -/
def computeIfAbsentSlow (key : K) (f : K → Nat → V) : Cmd K V :=
  slow key (fun md e => .tryComputeIfAbsent md key f e) fun read =>
    if read.amended then addNew (.computeIfAbsent key f) else dirtyLocked (.computeIfAbsent key f) read.m

/-- map.go:342-356 -/
def computeIfPresentSlow (key : K) (f : K → V → Nat → V) : Cmd K V :=
  slow key (fun md e => .tryComputeIfPresent md key f e) fun _ => .unlock (.ret (.present none))

/-- The start of `LoadOrStore`, `ComputeIfAbsent` and `ComputeIfPresent` (map.go:199-201, 270-272, 335-337) -/
def fast (key : K) (try' : Mode → Nat → Label K V) (slow : Cmd K V) : Cmd K V :=
  .loadRead fun read => .mapGet read.m key fun
  | some e => .goto (try' .free e)
  | none => slow

/-- What follows after a function `try...` has returned `r` and `ok` (map.go:201-207, 213-217, 230-232 and so on) -/
def finish (slow : Cmd K V) (md : Mode) (r : Res K V) (ok : Bool) : Cmd K V :=
  match md with
  | .free => if ok then .ret r else slow
  | .inRead => .unlock (.ret r)
  | .inDirty => missLocked <| .unlock (.ret r)

/-- map.go:460-469 -/
def rangeSlow (f : K → V → Nat → Bool) : Cmd K V :=
  .lock <| .loadRead fun read =>
  if read.amended then .getDirty fun d => .storeRead ⟨d, false⟩ <| .setDirty none <| .setMisses 0 <| .unlock (.goto (.rangeLoop f d [] []))
  else .unlock (.goto (.rangeLoop f read.m [] []))

/-- map.go:449-455 `Range` -/
def range (f : K → V → Nat → Bool) : Cmd K V :=
  .loadRead fun read => if read.amended then rangeSlow f else .goto (.rangeLoop f read.m [] [])

/-- The methods. -/
def entry : Op K V → Cmd K V
  | .load key => load key
  | .store key v => store key v
  | .loadOrStore key v => fast key (fun md e => .tryLoadOrStore md key v e) (loadOrStoreSlow key v)
  | .computeIfAbsent key f => fast key (fun md e => .tryComputeIfAbsent md key f e) (computeIfAbsentSlow key f)
  | .computeIfPresent key f => fast key (fun md e => .tryComputeIfPresent md key f e) (computeIfPresentSlow key f)
  | .loadAndDelete key => delete (.loadAndDelete key) key
  | .delete key => delete (.delete key) key
  | .range f => range f

variable [DecidableEq K] [DecidableEq V]

/-- The code at a label. -/
def code : Label K V → Cmd K V
  | .tryStore k v e => .loadPtr e fun p => if p = .expunged then storeSlow k v else
      .casPtr e p (.var v) fun ok => if ok then .ret .unit else .goto (.tryStore k v e)
  | .tryLoadOrStore md k v e => .loadPtr e fun
    | .expunged => finish (loadOrStoreSlow k v) md (.loaded none false) false
    | .cell _ w => finish (loadOrStoreSlow k v) md (.loaded (some w) true) true
    | .nil => .goto (.losLoop md k v e)
  | .losLoop md k v e => .casPtr e .nil (.var v) fun ok => if ok then finish (loadOrStoreSlow k v) md (.loaded (some v) false) true else
      .loadPtr e fun
      | .expunged => finish (loadOrStoreSlow k v) md (.loaded none false) false
      | .cell _ w => finish (loadOrStoreSlow k v) md (.loaded (some w) true) true
      | .nil => .goto (.losLoop md k v e)
  | .tryComputeIfAbsent md k f e => .loadPtr e fun
    | .expunged => finish (computeIfAbsentSlow k f) md (.loaded none false) false
    | .cell _ w => finish (computeIfAbsentSlow k f) md (.loaded (some w) true) true
    | .nil => .user fun c => .goto (.ciaLoop md k f e (f k c))
  | .ciaLoop md k f e i => .casPtr e .nil (.var i) fun ok => if ok then finish (computeIfAbsentSlow k f) md (.loaded (some i) false) true else
      .loadPtr e fun
      | .expunged => finish (computeIfAbsentSlow k f) md (.loaded none false) false
      | .cell _ w => finish (computeIfAbsentSlow k f) md (.loaded (some w) true) true
      | .nil => .goto (.ciaLoop md k f e i)
  | .tryComputeIfPresent md k f e => .loadPtr e fun
    | .expunged => finish (computeIfPresentSlow k f) md (.present none) false
    | .nil => finish (computeIfPresentSlow k f) md (.present none) true
    | .cell j w => .user fun c => .goto (.cipLoop md k f e (.cell j w) w (f k w c))
  | .cipLoop md k f e p w i => .casPtr e p (.var i) fun ok => if ok then finish (computeIfPresentSlow k f) md (.present (some (w, i))) true else
      .loadPtr e fun
      | .expunged => finish (computeIfPresentSlow k f) md (.present none) false
      | .nil => finish (computeIfPresentSlow k f) md (.present none) false
      | .cell j u => .goto (.cipLoop md k f e (.cell j u) w i)
  | .delete op e => .loadPtr e fun
    | .cell j w => .casPtr e (.cell j w) .nil fun ok => if ok then .ret (delRes (some w) op) else .goto (.delete op e)
    | _ => .ret (delRes none op)
  | .rangeLoop f m seen vis => .mapNext m seen fun
    | none => .ret (.visited vis true)
    | some (k, e) => .loadPtr e fun
      | .cell _ v => .user fun c => if f k v c then .goto (.rangeLoop f m (seen ++ [k]) (vis ++ [(k, v)])) else .ret (.visited (vis ++ [(k, v)]) false)
      | _ => .goto (.rangeLoop f m (seen ++ [k]) vis)
  | .dirtyLoop op rm m seen => .mapNext m seen fun
    | none => amend op rm
    | some (k, e) => .goto (.tryExpunge op rm m (seen ++ [k]) k e)
  | .tryExpunge op rm m seen k e => .loadPtr e fun
    | .nil => .casPtr e .nil .expunged fun ok => if ok then .goto (.dirtyLoop op rm m seen) else .goto (.tryExpunge op rm m seen k e)
    | .expunged => .goto (.dirtyLoop op rm m seen)
    | .cell _ _ => .getDirty fun d => .mapSet d k e <| .goto (.dirtyLoop op rm m seen)

/-! ## Meaning of the instructions -/

/-- The entries a `range` loop can continue with. -/
def Plain.rest (D : Plain K) (m : Option Nat) (seen : List K) : List (K × Nat) := (D.get m).filter fun x => decide (x.1 ∉ seen)

/-- One instruction of call `i`; `c` is a choice of the environment: the order of iteration, and the results of user functions. -/
def exec (M : Mem K V) (i : Nat) (t : Cmd K V) (c : Nat) : Option (Mem K V × (Cmd K V ⊕ Res K V)) :=
  match t with
  | .loadRead k => some (M, .inl (k M.read))
  | .storeRead x k => some ({ M with read := x, d := { M.d with pub := x.m.toList ++ M.d.pub } }, .inl k)
  | .loadPtr e k => some (M, .inl (k (M.ptr e)))
  | .storePtr e x k => some ({ M with ptr := upd M.ptr e (x.ptr i) }, .inl k)
  | .casPtr e old new k => if M.ptr e = old then some ({ M with ptr := upd M.ptr e (new.ptr i) }, .inl (k true)) else some (M, .inl (k false))
  | .lock k => if M.mu.isSome then none else some ({ M with mu := some i }, .inl k)
  | .unlock k => some ({ M with mu := none }, .inl k)
  | .getDirty k => some (M, .inl (k M.d.dirty))
  | .setDirty x k => some ({ M with d := { M.d with dirty := x } }, .inl k)
  | .incMisses k => some ({ M with d := { M.d with misses := M.d.misses + 1 } }, .inl k)
  | .getMisses k => some (M, .inl (k M.d.misses))
  | .setMisses n k => some ({ M with d := { M.d with misses := n } }, .inl k)
  | .mapGet m key k => some (M, .inl (k ((M.d.get m).get key)))
  | .mapSet m key e k => match m with
    | none => some (M, .inr .panic)
    | some r => some ({ M with d := { M.d with maps := upd M.d.maps r ((M.d.maps r).set key e) } }, .inl k)
  | .mapDel m key k => match m with
    | none => some (M, .inl k)
    | some r => some ({ M with d := { M.d with maps := upd M.d.maps r ((M.d.maps r).del key) } }, .inl k)
  | .mapLen m k => some (M, .inl (k (M.d.get m).length))
  | .mapNext m seen k => match M.d.rest m seen with
    | [] => some (M, .inl (k none))
    | l => match l[c % l.length]? with
      | none => none
      | some x => some (M, .inl (k (some x)))
  | .newMap k => some ({ M with d := { M.d with maps := upd M.d.maps M.d.nmaps [], nmaps := M.d.nmaps + 1 } }, .inl (k M.d.nmaps))
  | .newEntry v k => some ({ M with ptr := upd M.ptr M.ents (.cell i v), ents := M.ents + 1 }, .inl (k M.ents))
  | .user k => some (M, .inl (k c))
  | .goto l => some (M, .inl (code l))
  | .ret r => some (M, .inr r)

/-- All interleavings of the memory accesses of the methods (map.go:100-515, without `Clear`). -/
def prog : Prog (Mem K V) (Op K V) (Res K V) (Cmd K V) where
  init := .zero
  begin := entry
  step M i _ t c := exec M i t c

/-- Plain memory locations. -/
inductive Loc where
  | dirty
  | misses
  | map (r : Nat)

/-- The plain access of an instruction: the location, and whether it is a write. -/
def Cmd.access : Cmd K V → Option (Loc × Bool)
  | .getDirty _ => some (.dirty, false)
  | .setDirty _ _ => some (.dirty, true)
  | .incMisses _ => some (.misses, true)
  | .getMisses _ => some (.misses, false)
  | .setMisses _ _ => some (.misses, true)
  | .mapGet (some r) _ _ => some (.map r, false)
  | .mapSet (some r) _ _ _ => some (.map r, true)
  | .mapDel (some r) _ _ => some (.map r, true)
  | .mapLen (some r) _ => some (.map r, false)
  | .mapNext (some r) _ _ => some (.map r, false)
  | _ => none

end Verif.XSync.MapMem
