import Verif.XSync.MapProps
import Verif.Go.Utf8
/-!
# Sequential model of `xsync/shared_map.go`

Keys are Go strings, i.e. byte sequences. A Go panic is `none`.
-/
namespace Verif.XSync.Shared
open Verif.Go Verif.XSync.Map

variable {V : Type}

/-- shared_map.go:85-93 `getShardBlockSize` -/
def getShardBlockSize (x : UInt32) : UInt32 :=
  let x := x - 1
  let x := x ||| (x >>> 1)
  let x := x ||| (x >>> 2)
  let x := x ||| (x >>> 4)
  let x := x ||| (x >>> 8)
  let x := x ||| (x >>> 16)
  x + 1

/-- The loop of shared_map.go:174-177 -/
def fnvLoop (hash : UInt32) : Bytes → UInt32
  | [] => hash
  | b :: key => fnvLoop ((hash * 16777619) ^^^ b.toUInt32) key

/-- shared_map.go:170-179 `fnv32` -/
def fnv32 (key : Bytes) : UInt32 := fnvLoop 2166136261 key

/-- shared_map.go:23-27 `SharedMap` -/
structure SharedMap (V : Type) where
  b : List (State Bytes V)
  shardBlockSize : UInt32
  n : UInt32

/-- shared_map.go:37-41 `WithShardBlockSize`: the conversion of a Go int to uint32 -/
def withShardBlockSize (x : Int) : UInt32 := UInt32.ofNat (x % 2^32).toNat

/-- shared_map.go:44-64 `NewSharedMap`; an option sets the size, the last one wins, the default is 32 -/
def newSharedMap (opts : List Int) : Option (SharedMap V) :=
  let size := opts.foldl (fun _ x => withShardBlockSize x) 32
  if size ≤ 0 then none
  else
    let blockSize := getShardBlockSize size
    some ⟨List.replicate blockSize.toNat State.zero, blockSize, blockSize - 1⟩

/-- The index computed by shared_map.go:96-98 `GetShard` -/
def SharedMap.index (m : SharedMap V) (key : Bytes) : Nat := (fnv32 key &&& m.n).toNat

/-- shared_map.go:96-98 `GetShard`: panics if the index is out of range -/
def SharedMap.getShard (m : SharedMap V) (key : Bytes) : Option (State Bytes V) := m.b[m.index key]?

/-- A method call on the shard of a key. The shards are pointers, so the change is visible in the map. -/
def SharedMap.onShard {R : Type} (m : SharedMap V) (key : Bytes) (f : State Bytes V → Option (State Bytes V × R)) :
    Option (SharedMap V × R) := do
  let s ← m.getShard key
  let (s, r) ← f s
  return ({ m with b := m.b.set (m.index key) s }, r)

/-- shared_map.go:108-112 `Store` -/
def SharedMap.store (m : SharedMap V) (key : Bytes) (v : V) : Option (SharedMap V) :=
  (m.onShard key fun s => (Map.store s key v).map fun s => (s, ())).map (·.1)

/-- shared_map.go:101-105 `MStore`: `data` in iteration order -/
def SharedMap.mstore (m : SharedMap V) : List (Bytes × V) → Option (SharedMap V)
  | [] => some m
  | (k, v) :: data => do
    let m ← m.store k v
    m.mstore data

/-- shared_map.go:115-120 `LoadOrStore` -/
def SharedMap.loadOrStore (m : SharedMap V) (key : Bytes) (v : V) : Option (SharedMap V × Bool) :=
  m.onShard key fun s => (Map.loadOrStore s key v).bind fun (s, r) => r.map fun (_, loaded) => (s, !loaded)

/-- shared_map.go:125-129 `Load` -/
def SharedMap.load (m : SharedMap V) (key : Bytes) : Option (SharedMap V × Option V) := m.onShard key fun s => some (Map.load s key)

/-- shared_map.go:149-154 `Has` -/
def SharedMap.has (m : SharedMap V) (key : Bytes) : Option (SharedMap V × Bool) :=
  m.onShard key fun s => let (s, r) := Map.load s key; some (s, r.isSome)

/-- shared_map.go:157-161 `Delete` -/
def SharedMap.delete (m : SharedMap V) (key : Bytes) : Option (SharedMap V) :=
  (m.onShard key fun s => some (Map.delete s key, ())).map (·.1)

/-- shared_map.go:69-74 `ComputeIfAbsent` -/
def SharedMap.computeIfAbsent (m : SharedMap V) (key : Bytes) (f : Bytes → V) : Option (SharedMap V × (V × Bool) × List Bytes) :=
  m.onShard key fun s => (Map.computeIfAbsent s key f).bind fun (s, r, c) => r.map fun r => (s, r, c)

/-- shared_map.go:78-83 `ComputeIfPresent` -/
def SharedMap.computeIfPresent (m : SharedMap V) (key : Bytes) (f : Bytes → V → V) : Option (SharedMap V × Option V × List (Bytes × V)) :=
  m.onShard key fun s => Map.computeIfPresent s key f

/-- shared_map.go:164-168 `Clear` -/
def SharedMap.clear (m : SharedMap V) : SharedMap V := { m with b := m.b.map Map.clear }

/-- The variable `b` of shared_map.go:137-141: what the last call of `fn` for this shard returned, true if there was none. `before`
are the calls made for the shards before. -/
def lastResult (fn : List (Bytes × V) → Bytes × V → Bool) (before : List (Bytes × V)) (calls : List (Bytes × V)) : Bool :=
  match calls.reverse with
  | [] => true
  | x :: pre => fn (before ++ pre.reverse) x

/-- The loop of shared_map.go:135-145: `done` are the shards already visited, `order` gives the iteration orders -/
def rangeLoop (fn : List (Bytes × V) → Bytes × V → Bool) (order : Nat → GMap Bytes Nat → List (Bytes × Nat)) (i : Nat)
    (calls : List (Bytes × V)) : List (State Bytes V) → List (State Bytes V) × List (Bytes × V)
  | [] => ([], calls)
  | s :: l =>
    let (s, c) := Map.range s (fun pre x => fn (calls ++ pre) x) (order i)
    if lastResult fn calls c then
      let (l, calls) := rangeLoop fn order (i + 1) (calls ++ c) l
      (s :: l, calls)
    else (s :: l, calls ++ c)

/-- shared_map.go:133-146 `Range`; panics if there are fewer shards than `shardBlockSize` -/
def SharedMap.range (m : SharedMap V) (fn : List (Bytes × V) → Bytes × V → Bool) (order : Nat → GMap Bytes Nat → List (Bytes × Nat)) :
    Option (SharedMap V × List (Bytes × V)) :=
  if m.b.length = m.shardBlockSize.toNat then
    let (b, calls) := rangeLoop fn order 0 [] m.b
    some ({ m with b := b }, calls)
  else none

end Verif.XSync.Shared
