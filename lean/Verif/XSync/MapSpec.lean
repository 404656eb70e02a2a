import Verif.XSync.Map
/-!
# Specification of a map: an ordinary partial function from keys to values
-/
namespace Verif.XSync.Map
open Verif.Go

variable {K V : Type} [DecidableEq K]

/-- Operations with their arguments. The user functions are arbitrary; `range` takes the function and an iteration order. -/
inductive Op (K V : Type) where
  | load (k : K)
  | store (k : K) (v : V)
  | loadOrStore (k : K) (v : V)
  | computeIfAbsent (k : K) (f : K → V)
  | computeIfPresent (k : K) (f : K → V → V)
  | loadAndDelete (k : K)
  | delete (k : K)
  | clear
  | range (f : List (K × V) → K × V → Bool) (order : GMap K Nat → List (K × Nat))

/-- What a call returns, including the calls it makes of the user function. -/
inductive Res (K V : Type) where
  | unit
  /-- `(value, ok)`: `none` stands for `(nil, false)` -/
  | value (r : Option V)
  /-- `(actual, loaded)` and the keys for which the function was called -/
  | loaded (v : V) (b : Bool) (calls : List K)
  /-- `(actual, exist)` and the arguments with which the function was called -/
  | present (r : Option V) (calls : List (K × V))
  /-- the calls of the function -/
  | visited (calls : List (K × V))

/-- An ordinary map. -/
abbrev M (K V : Type) := K → Option V

/-- Specification: store a value for a key. -/
def M.set (s : M K V) (k : K) (v : V) : M K V := fun k' => if k' = k then some v else s k'
/-- Specification: remove a key. -/
def M.del (s : M K V) (k : K) : M K V := fun k' => if k' = k then none else s k'

/-- Calls of a function along a list, up to and including the first call that returns false. -/
def callsUntil (f : List (K × V) → K × V → Bool) (calls : List (K × V)) : List (K × V) → List (K × V)
  | [] => calls
  | x :: l => if f calls x then callsUntil f (calls ++ [x]) l else calls ++ [x]

/-- What an ordinary map does: `Does s op s' r` says that `op` on the contents `s` returns `r` and leaves `s'`. -/
inductive Does : M K V → Op K V → M K V → Res K V → Prop where
  | load (s : M K V) (k : K) : Does s (.load k) s (.value (s k))
  | store (s : M K V) (k : K) (v : V) : Does s (.store k v) (s.set k v) .unit
  | loadOrStore_found (s : M K V) (k : K) (v w : V) (h : s k = some w) : Does s (.loadOrStore k v) s (.loaded w true [])
  | loadOrStore_absent (s : M K V) (k : K) (v : V) (h : s k = none) : Does s (.loadOrStore k v) (s.set k v) (.loaded v false [])
  | computeIfAbsent_found (s : M K V) (k : K) (f : K → V) (w : V) (h : s k = some w) : Does s (.computeIfAbsent k f) s (.loaded w true [])
  | computeIfAbsent_absent (s : M K V) (k : K) (f : K → V) (h : s k = none) :
    Does s (.computeIfAbsent k f) (s.set k (f k)) (.loaded (f k) false [k])
  | computeIfPresent_found (s : M K V) (k : K) (f : K → V → V) (w : V) (h : s k = some w) :
    Does s (.computeIfPresent k f) (s.set k (f k w)) (.present (some (f k w)) [(k, w)])
  | computeIfPresent_absent (s : M K V) (k : K) (f : K → V → V) (h : s k = none) : Does s (.computeIfPresent k f) s (.present none [])
  | loadAndDelete (s : M K V) (k : K) : Does s (.loadAndDelete k) (s.del k) (.value (s k))
  | delete (s : M K V) (k : K) : Does s (.delete k) (s.del k) .unit
  | clear (s : M K V) : Does s .clear (fun _ => none) .unit
  | range (s : M K V) (f : List (K × V) → K × V → Bool) (order : GMap K Nat → List (K × Nat)) (l : List (K × V))
    (nodup : (l.map (·.1)).Nodup) (exact : ∀ k v, (k, v) ∈ l ↔ s k = some v) : Does s (.range f order) s (.visited (callsUntil f [] l))

/-- Sequences of operations. -/
inductive DoesAll : M K V → List (Op K V) → M K V → List (Res K V) → Prop where
  | nil (s : M K V) : DoesAll s [] s []
  | cons {s s' s'' : M K V} {op : Op K V} {r : Res K V} {ops : List (Op K V)} {rs : List (Res K V)}
    (h : Does s op s' r) (t : DoesAll s' ops s'' rs) : DoesAll s (op :: ops) s'' (r :: rs)

/-- Execute an operation of the model. -/
def exec (s : State K V) : Op K V → Option (State K V × Res K V)
  | .load k => let (s, r) := load s k; some (s, .value r)
  | .store k v => (store s k v).map fun s => (s, .unit)
  | .loadOrStore k v => (loadOrStore s k v).bind fun (s, r) => r.map fun (w, b) => (s, .loaded w b [])
  | .computeIfAbsent k f => (computeIfAbsent s k f).bind fun (s, r, c) => r.map fun (w, b) => (s, .loaded w b c)
  | .computeIfPresent k f => (computeIfPresent s k f).map fun (s, r, c) => (s, .present r c)
  | .loadAndDelete k => let (s, r) := loadAndDelete s k; some (s, .value r)
  | .delete k => some (delete s k, .unit)
  | .clear => some (clear s, .unit)
  | .range f order => let (s, c) := range s f order; some (s, .visited c)

/-- Execute a sequence of operations; `none` is a panic. -/
def execAll (s : State K V) : List (Op K V) → Option (State K V × List (Res K V))
  | [] => some (s, [])
  | op :: ops => do
    let (s, r) ← exec s op
    let (s, rs) ← execAll s ops
    return (s, r :: rs)

end Verif.XSync.Map
