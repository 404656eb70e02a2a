import Verif.XSync.SharedMap
import Verif.XSync.MapConc
import Verif.Conc.Client
/-!
# Concurrent model of `xsync/shared_map.go`

Any number of concurrent calls of `Load`, `Has`, `Store`, `MStore`, `LoadOrStore`, `ComputeIfAbsent`, `ComputeIfPresent`, `Delete` and `Range`
on one `SharedMap`. A call is a sequence of calls of the shards, each of which is a map of `MapConc.lean` and takes its steps interleaved with
all other calls. `Clear` is in `SharedConcClear.lean`.
-/
namespace Verif.XSync.SharedConc
open Verif.Conc Verif.Go

variable {V : Type}

/-- Operations with their arguments. The data of `MStore` is a Go map; `data` is it in the order of iteration. User functions are arbitrary, as
in `MapConc.lean`. -/
inductive SOp (V : Type) where
  | load (k : Bytes)
  | has (k : Bytes)
  | store (k : Bytes) (v : V)
  | mstore (data : List (Bytes × V))
  | loadOrStore (k : Bytes) (v : V)
  | computeIfAbsent (k : Bytes) (f : Bytes → Nat → V)
  | computeIfPresent (k : Bytes) (f : Bytes → V → Nat → V)
  | delete (k : Bytes)
  | range (f : Bytes → V → Nat → Bool)

/-- Results of the methods of `SharedMap`. -/
inductive SRes (V : Type) where
  | unit
  | bool (b : Bool)
  /-- `(value, ok)`: `none` stands for `(nil, false)` -/
  | value (r : Option V)
  /-- `(actual, loaded)`; `none` stands for nil -/
  | loaded (actual : Option V) (loaded : Bool)
  /-- `(actual, exist)`: `none` stands for `(nil, false)`, `some (w, v)` for the result `v` of the function applied to `w` -/
  | present (r : Option (V × V))
  /-- the calls of the function, in order, and whether all of them returned true -/
  | visited (calls : List (Bytes × V)) (all : Bool)
  | panic

/-- The constant parts of a `SharedMap` (shared_map.go:23-27): the number of shards, `shardBlockSize` and `n` -/
structure Shape where
  len : Nat
  shardBlockSize : UInt32
  n : UInt32

/-- shared_map.go:44-64 `NewSharedMap` -/
def newShape (opts : List Int) : Option Shape := (Shared.newSharedMap (V := Unit) opts).map fun m => ⟨m.b.length, m.shardBlockSize, m.n⟩

/-- The index computed by shared_map.go:96-98 `GetShard` -/
def Shape.index (m : Shape) (key : Bytes) : Nat := (Shared.fnv32 key &&& m.n).toNat

/-- A method call on the shard of a key (shared_map.go:96-98); panics if there is no such shard -/
def Shape.on (m : Shape) (key : Bytes) (o : MapConc.Op Bytes V) : (Nat × MapConc.Op Bytes V) ⊕ SRes V :=
  if m.index key < m.len then .inl (m.index key, o) else .inr .panic

/-- The calls of `fn` made by the calls of `shard.Range` (shared_map.go:138-141) -/
def visits {α : Type} (tr : List (α × MapConc.Res Bytes V)) : List (Bytes × V) :=
  tr.flatMap fun x => match x.2 with
    | .visited l _ => l
    | _ => []

/-- What a method returns after the call `r` of the shard: shared_map.go:71, 80, 111, 118-119, 128, 152-153, 160 -/
def result : SOp V → MapConc.Res Bytes V → SRes V
  | .has _, .value r => .bool r.isSome
  | .loadOrStore _ _, .loaded _ loaded => .bool (!loaded)
  | .load _, .value r => .value r
  | .store _ _, .unit => .unit
  | .computeIfAbsent _ _, .loaded a b => .loaded a b
  | .computeIfPresent _ _, .present r => .present r
  | .delete _, .unit => .unit
  | _, _ => .panic

/-- The call of a shard made by the methods for one key, with the key: shared_map.go:69-74 `ComputeIfAbsent`, 78-83 `ComputeIfPresent`, 108-112
`Store`, 115-120 `LoadOrStore`, 125-129 `Load`, 149-154 `Has`, 157-161 `Delete` -/
def keyed : SOp V → Option (Bytes × MapConc.Op Bytes V)
  | .load k => some (k, .load k)
  | .has k => some (k, .load k)
  | .store k v => some (k, .store k v)
  | .loadOrStore k v => some (k, .loadOrStore k v)
  | .computeIfAbsent k f => some (k, .computeIfAbsent k f)
  | .computeIfPresent k f => some (k, .computeIfPresent k f)
  | .delete k => some (k, .delete k)
  | .mstore _ => none
  | .range _ => none

/-- The next call of a shard, or the result, after the calls `tr`. -/
def Shape.next {α : Type} (m : Shape) (op : SOp V) (tr : List (α × MapConc.Res Bytes V)) :
    (Nat × MapConc.Op Bytes V) ⊕ SRes V :=
  match op with
  -- shared_map.go:101-105
  | .mstore data => match tr.getLast? with
    | some (_, .panic) => .inr .panic
    | _ => match data[tr.length]? with
      | none => .inr .unit
      | some (k, v) => m.on k (.store k v)
  -- shared_map.go:133-146
  | .range f => match tr.getLast? with
    | some (_, .visited _ false) => .inr (.visited (visits tr) false)
    | none | some (_, .visited _ true) =>
      if tr.length < m.shardBlockSize.toNat then
        if tr.length < m.len then .inl (tr.length, .range f) else .inr .panic
      else .inr (.visited (visits tr) true)
    | some _ => .inr .panic
  | op => match tr with
    | [] => match keyed op with
      | some (k, o) => m.on k o
      | none => .inr .panic
    | x :: _ => .inr (result op x.2)

/-- The methods of `SharedMap` (shared_map.go:69-161) as a client of its shards. -/
def client (m : Shape) : Client (SOp V) (SRes V) (MapConc.Op Bytes V) (MapConc.Res Bytes V) := ⟨m.next⟩

/-- Concurrent calls on the `SharedMap`. -/
def prog [DecidableEq V] (m : Shape) : Prog (Nat → MapConc.G Bytes V) (SOp V) (SRes V) (CPt (MapConc.Op Bytes V) (MapConc.Res Bytes V) (MapConc.Pt Bytes V)) :=
  (client m).prog MapConc.prog

end Verif.XSync.SharedConc
