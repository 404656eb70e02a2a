import Verif.XSync.SharedMap
/-!
# Specification of a `SharedMap`: an ordinary map from strings to values
-/
namespace Verif.XSync.Shared
open Verif.Go Verif.XSync.Map

variable {V : Type}

/-- Operations with their arguments. `mstore` takes the data in the order of iteration, `range` the iteration order of every shard. -/
inductive SOp (V : Type) where
  | load (k : Bytes)
  | has (k : Bytes)
  | store (k : Bytes) (v : V)
  | mstore (data : List (Bytes × V))
  | loadOrStore (k : Bytes) (v : V)
  | computeIfAbsent (k : Bytes) (f : Bytes → V)
  | computeIfPresent (k : Bytes) (f : Bytes → V → V)
  | delete (k : Bytes)
  | clear
  | range (f : List (Bytes × V) → Bytes × V → Bool) (order : Nat → GMap Bytes Nat → List (Bytes × Nat))

/-- What a call returns, including the calls it makes of the user function. -/
inductive SRes (V : Type) where
  | unit
  | bool (b : Bool)
  /-- `(value, ok)`: `none` stands for `(nil, false)` -/
  | value (r : Option V)
  /-- `(actual, loaded)` and the keys for which the function was called -/
  | loaded (v : V) (b : Bool) (calls : List Bytes)
  /-- `(actual, exist)` and the arguments with which the function was called -/
  | present (r : Option V) (calls : List (Bytes × V))
  /-- the calls of the function -/
  | visited (calls : List (Bytes × V))

/-- What an ordinary map does: `SDoes s op s' r` says that `op` on the contents `s` returns `r` and leaves `s'`. The data given to
`MStore` is a Go map, so that its keys are distinct and the result is the same for every iteration order. -/
inductive SDoes : M Bytes V → SOp V → M Bytes V → SRes V → Prop where
  | load (s : M Bytes V) (k : Bytes) : SDoes s (.load k) s (.value (s k))
  | has (s : M Bytes V) (k : Bytes) : SDoes s (.has k) s (.bool (s k).isSome)
  | store (s : M Bytes V) (k : Bytes) (v : V) : SDoes s (.store k v) (s.set k v) .unit
  | mstore (s : M Bytes V) (data : List (Bytes × V)) : SDoes s (.mstore data) (fun k => (GMap.get data k).or (s k)) .unit
  | loadOrStore_found (s : M Bytes V) (k : Bytes) (v : V) (h : (s k).isSome = true) : SDoes s (.loadOrStore k v) s (.bool false)
  | loadOrStore_absent (s : M Bytes V) (k : Bytes) (v : V) (h : s k = none) : SDoes s (.loadOrStore k v) (s.set k v) (.bool true)
  | computeIfAbsent_found (s : M Bytes V) (k : Bytes) (f : Bytes → V) (w : V) (h : s k = some w) :
    SDoes s (.computeIfAbsent k f) s (.loaded w true [])
  | computeIfAbsent_absent (s : M Bytes V) (k : Bytes) (f : Bytes → V) (h : s k = none) :
    SDoes s (.computeIfAbsent k f) (s.set k (f k)) (.loaded (f k) false [k])
  | computeIfPresent_found (s : M Bytes V) (k : Bytes) (f : Bytes → V → V) (w : V) (h : s k = some w) :
    SDoes s (.computeIfPresent k f) (s.set k (f k w)) (.present (some (f k w)) [(k, w)])
  | computeIfPresent_absent (s : M Bytes V) (k : Bytes) (f : Bytes → V → V) (h : s k = none) :
    SDoes s (.computeIfPresent k f) s (.present none [])
  | delete (s : M Bytes V) (k : Bytes) : SDoes s (.delete k) (s.del k) .unit
  | clear (s : M Bytes V) : SDoes s .clear (fun _ => none) .unit
  | range (s : M Bytes V) (f : List (Bytes × V) → Bytes × V → Bool) (order : Nat → GMap Bytes Nat → List (Bytes × Nat)) (l : List (Bytes × V))
    (nodup : (l.map (·.1)).Nodup) (exact : ∀ k v, (k, v) ∈ l ↔ s k = some v) : SDoes s (.range f order) s (.visited (callsUntil f [] l))

/-- Sequences of operations. -/
inductive SDoesAll : M Bytes V → List (SOp V) → M Bytes V → List (SRes V) → Prop where
  | nil (s : M Bytes V) : SDoesAll s [] s []
  | cons {s s' s'' : M Bytes V} {op : SOp V} {r : SRes V} {ops : List (SOp V)} {rs : List (SRes V)}
    (h : SDoes s op s' r) (t : SDoesAll s' ops s'' rs) : SDoesAll s (op :: ops) s'' (r :: rs)

/-- Execute an operation of the model; `none` is a panic. -/
def exec (m : SharedMap V) : SOp V → Option (SharedMap V × SRes V)
  | .load k => (m.load k).map fun (m, r) => (m, .value r)
  | .has k => (m.has k).map fun (m, r) => (m, .bool r)
  | .store k v => (m.store k v).map fun m => (m, .unit)
  | .mstore data => (m.mstore data).map fun m => (m, .unit)
  | .loadOrStore k v => (m.loadOrStore k v).map fun (m, r) => (m, .bool r)
  | .computeIfAbsent k f => (m.computeIfAbsent k f).map fun (m, r, c) => (m, .loaded r.1 r.2 c)
  | .computeIfPresent k f => (m.computeIfPresent k f).map fun (m, r, c) => (m, .present r c)
  | .delete k => (m.delete k).map fun m => (m, .unit)
  | .clear => some (m.clear, .unit)
  | .range f order => (m.range f order).map fun (m, c) => (m, .visited c)

/-- Execute a sequence of operations; `none` is a panic. -/
def execAll (m : SharedMap V) : List (SOp V) → Option (SharedMap V × List (SRes V))
  | [] => some (m, [])
  | op :: ops => do
    let (m, r) ← exec m op
    let (m, rs) ← execAll m ops
    return (m, r :: rs)

/-- Iteration orders are permutations; the data of `MStore` has distinct keys. -/
def SOp.Valid : SOp V → Prop
  | .range _ order => ∀ i m, (order i m).Perm m
  | .mstore data => (data.map (·.1)).Nodup
  | _ => True

end Verif.XSync.Shared
