import Verif.XSync.SharedConc
import Verif.XSync.MapConcSpec
import Verif.Conc.Obs
/-!
# Specification of the concurrent `SharedMap`

`SDoes` is what an ordinary map does; `sharedSpec` is the ordinary map as a sequential specification. `MStore` and `Range` are not atomic.
`Explains H L st` says what a history with these operations means: `L` is one order of all effects, in which an `MStore` contributes a `Store`
for each of its pairs.
-/
namespace Verif.XSync.SharedConc
open Verif.Conc Verif.Go
open Verif.XSync.MapConc (M)

variable {V : Type}

/-- What an ordinary map does. A successful `ComputeIfPresent` replaces the value of a present key by the function applied to some value `w`,
which is not required to be the value that is replaced (see `MapConcSpec.lean`). There is no rule for `MStore`. -/
inductive SDoes : M Bytes V → SOp V → SRes V → M Bytes V → Prop where
  | load (s : M Bytes V) (k : Bytes) : SDoes s (.load k) (.value (s k)) s
  | has (s : M Bytes V) (k : Bytes) : SDoes s (.has k) (.bool (s k).isSome) s
  | store (s : M Bytes V) (k : Bytes) (v : V) : SDoes s (.store k v) .unit (s.put k (some v))
  | loadOrStore_found (s : M Bytes V) (k : Bytes) (v w : V) : s k = some w → SDoes s (.loadOrStore k v) (.bool false) s
  | loadOrStore_absent (s : M Bytes V) (k : Bytes) (v : V) : s k = none → SDoes s (.loadOrStore k v) (.bool true) (s.put k (some v))
  | computeIfAbsent_found (s : M Bytes V) (k : Bytes) (f : Bytes → Nat → V) (w : V) : s k = some w →
      SDoes s (.computeIfAbsent k f) (.loaded (some w) true) s
  | computeIfAbsent_absent (s : M Bytes V) (k : Bytes) (f : Bytes → Nat → V) (c : Nat) : s k = none →
      SDoes s (.computeIfAbsent k f) (.loaded (some (f k c)) false) (s.put k (some (f k c)))
  | computeIfPresent_absent (s : M Bytes V) (k : Bytes) (f : Bytes → V → Nat → V) : s k = none →
      SDoes s (.computeIfPresent k f) (.present none) s
  | computeIfPresent_found (s : M Bytes V) (k : Bytes) (f : Bytes → V → Nat → V) (w w' : V) (c : Nat) : s k = some w' →
      SDoes s (.computeIfPresent k f) (.present (some (w, f k w c))) (s.put k (some (f k w c)))
  | delete (s : M Bytes V) (k : Bytes) : SDoes s (.delete k) .unit (s.put k none)
  | range (s : M Bytes V) (f : Bytes → V → Nat → Bool) (r : SRes V) : SDoes s (.range f) r s

/-- An ordinary map, initially empty. -/
def sharedSpec : Spec (M Bytes V) (SOp V) (SRes V) := ⟨fun _ => none, SDoes⟩

/-- The operations on one key. -/
def SOp.OneKey : SOp V → Prop
  | .mstore _ | .range _ => False
  | _ => True

/-- The effects of a call that has returned `r`: an `MStore` stores all its pairs, a `Range` changes nothing, every other operation has one
effect. -/
def Effects (op : SOp V) (r : SRes V) (l : List (SOp V × SRes V)) : Prop :=
  match op with
  | .mstore data => r = .unit ∧ l = data.map fun x => (.store x.1 x.2, .unit)
  | .range f => ∀ x ∈ l, x.1 = .range f
  | op => l = [(op, r)]

/-- The effects of a call that may not have returned: some of the pairs of an `MStore`, at most one effect of an operation on one key. -/
def Started (op : SOp V) (l : List (SOp V)) : Prop :=
  match op with
  | .mstore data => l <+: data.map fun x => .store x.1 x.2
  | .range f => ∀ x ∈ l, x = .range f
  | op => l <+: [op]

/-- `L` is an order of the effects (with the number of the call) that explains the history `H`, and `st n` are the contents of the map before
the `n`-th effect. -/
structure Explains (H : List (Ev (SOp V) (SRes V))) (L : List (Nat × SOp V × SRes V)) (st : Nat → M Bytes V) : Prop where
  init : st 0 = fun _ => none
  legal : ∀ n i op r, L[n]? = some (i, op, r) → SDoes (st n) op r (st (n + 1))
  order : L.Pairwise fun x y => ¬ Before H y.1 x.1
  invoked : ∀ x ∈ L, ∃ op, Ev.inv x.1 op ∈ H
  started : ∀ i op, Ev.inv i op ∈ H → Started op ((L.filter fun x => x.1 = i).map fun x => x.2.1)
  returned : ∀ i op r, Ev.inv i op ∈ H → Ev.ret i r ∈ H → Effects op r ((L.filter fun x => x.1 = i).map fun x => x.2)

/-- An ordinary map on which `ComputeIfPresent` is atomic: the function is applied to the value that is replaced. -/
def strictShared : Spec (M Bytes V) (SOp V) (SRes V) :=
  ⟨fun _ => none, fun s op r s' => SDoes s op r s' ∧ ∀ k f w v, op = .computeIfPresent k f → r = .present (some (w, v)) → s k = some w⟩

/-- An ordinary map on which `MStore` is atomic: it stores all pairs at once. -/
def atomicShared : Spec (M Bytes V) (SOp V) (SRes V) :=
  ⟨fun _ => none, fun s op r s' => SDoes s op r s' ∨
    ∃ data, op = .mstore data ∧ r = .unit ∧ s' = data.foldl (fun s x => s.put x.1 (some x.2)) s⟩

/-- What a `Range` saw: no key twice, every pair it reported was in the map at some instant during the call, and unless its function stopped it,
it reported every key that was in the map during the whole call. -/
def RangeOk (H : List (Ev (SOp V) (SRes V))) (L : List (Nat × SOp V × SRes V)) (st : Nat → M Bytes V) : Prop :=
  ∀ i f r, Ev.inv i (.range f) ∈ H → Ev.ret i r ∈ H → ∃ l all, r = .visited l all ∧ (l.map (·.1)).Nodup ∧
    (∀ k v, (k, v) ∈ l → ∃ n, During H L i n ∧ st n k = some v) ∧
    (all = true → ∀ k, (∀ n, During H L i n → st n k ≠ none) → ∃ v, (k, v) ∈ l)

/-- What a `ComputeIfPresent` saw: its function was applied to a value the key had at some instant of the call before the change. -/
def PresentOk (H : List (Ev (SOp V) (SRes V))) (L : List (Nat × SOp V × SRes V)) (st : Nat → M Bytes V) : Prop :=
  ∀ i k f w v, Ev.inv i (.computeIfPresent k f) ∈ H → Ev.ret i (.present (some (w, v))) ∈ H →
    ∃ n n', L[n']? = some (i, .computeIfPresent k f, .present (some (w, v))) ∧ During H L i n ∧ n ≤ n' ∧ st n k = some w

/-- The operations that may change the value of the key `k`. -/
def SOp.Writes (k : Bytes) : SOp V → Prop
  | .load _ | .has _ | .range _ => False
  | .store k' _ | .loadOrStore k' _ | .computeIfAbsent k' _ | .computeIfPresent k' _ | .delete k' => k' = k
  | .mstore data => k ∈ data.map (·.1)

end Verif.XSync.SharedConc
