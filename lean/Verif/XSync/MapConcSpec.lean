import Verif.XSync.MapConc
/-!
# Specification of the concurrent map

`mapSpec` is an ordinary map on which the operations act atomically. Two operations are specified weakly: `Range` is not atomic (its
specification here only says that it does not change the map), and a successful `ComputeIfPresent` replaces the value of a present key by
the function applied to some value `w`, which is not required to be the value that is replaced. `strictSpec` requires that.
-/
namespace Verif.XSync.MapConc
open Verif.Conc

variable {K V : Type} [DecidableEq K]

/-- The contents of a map. -/
abbrev M (K V : Type) := K → Option V

/-- The contents after the value of `k` has become `x` (`none`: the key is absent). -/
def M.put (s : M K V) (k : K) (x : Option V) : M K V := fun k' => if k' = k then x else s k'

/-- Specification: `Does s op r s'` says that `op` on an ordinary map with the contents `s` returns `r` and leaves `s'`. -/
inductive Does : M K V → Op K V → Res K V → M K V → Prop where
  | load (s : M K V) (k : K) : Does s (.load k) (.value (s k)) s
  | store (s : M K V) (k : K) (v : V) : Does s (.store k v) .unit (s.put k (some v))
  | loadOrStore_found (s : M K V) (k : K) (v w : V) : s k = some w → Does s (.loadOrStore k v) (.loaded (some w) true) s
  | loadOrStore_absent (s : M K V) (k : K) (v : V) : s k = none → Does s (.loadOrStore k v) (.loaded (some v) false) (s.put k (some v))
  | computeIfAbsent_found (s : M K V) (k : K) (f : K → Nat → V) (w : V) : s k = some w →
      Does s (.computeIfAbsent k f) (.loaded (some w) true) s
  | computeIfAbsent_absent (s : M K V) (k : K) (f : K → Nat → V) (c : Nat) : s k = none →
      Does s (.computeIfAbsent k f) (.loaded (some (f k c)) false) (s.put k (some (f k c)))
  | loadAndDelete (s : M K V) (k : K) : Does s (.loadAndDelete k) (.value (s k)) (s.put k none)
  | delete (s : M K V) (k : K) : Does s (.delete k) .unit (s.put k none)
  | computeIfPresent_absent (s : M K V) (k : K) (f : K → V → Nat → V) : s k = none → Does s (.computeIfPresent k f) (.present none) s
  | computeIfPresent_found (s : M K V) (k : K) (f : K → V → Nat → V) (w w' : V) (c : Nat) : s k = some w' →
      Does s (.computeIfPresent k f) (.present (some (w, f k w c))) (s.put k (some (f k w c)))
  | range (s : M K V) (f : K → V → Nat → Bool) (l : List (K × V)) (b : Bool) : Does s (.range f) (.visited l b) s

/-- An ordinary map, initially empty. -/
def mapSpec : Spec (M K V) (Op K V) (Res K V) := ⟨fun _ => none, Does⟩

/-- An ordinary map on which `ComputeIfPresent` is atomic: the function is applied to the value that is replaced. -/
def strictSpec : Spec (M K V) (Op K V) (Res K V) :=
  ⟨fun _ => none, fun s op r s' => Does s op r s' ∧ ∀ k f w v, op = .computeIfPresent k f → r = .present (some (w, v)) → s k = some w⟩

end Verif.XSync.MapConc
