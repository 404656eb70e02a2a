import Verif.XSync.SharedConcClear
import Verif.XSync.MapWordsProps
/-!
# `SharedMap.Clear` concurrent with other operations

`SharedMap.Clear` clears the shards one after the other with `Map.Clear`. Here it may overlap anything, as `Map.Clear` in `MapWords.lean`: every
call of the `SharedMap` is a sequence of calls of its shards, each of which is a map of `MapWords.lean`.
-/
namespace Verif.XSync.SharedConc
open Verif.Conc Verif.Go
open Verif.XSync.MapConc (M ClearOp)
open Verif.XSync.MapWords (GW PtW progW)

variable {V : Type}

/-! ## Model -/

/-- The next call of a shard, or the result, after the calls `tr`: as in `Shape.next`, and for `Clear` shared_map.go:164-168. A panic of a shard
ends the call. -/
def Shape.nextW (m : Shape) (o : SOp V ⊕ ClearOp) (tr : List ((Nat × (MapConc.Op Bytes V ⊕ ClearOp)) × MapConc.Res Bytes V)) :
    (Nat × (MapConc.Op Bytes V ⊕ ClearOp)) ⊕ SRes V :=
  match o with
  | .inl op => match m.next op tr with
    | .inl (x, b) => .inl (x, .inl b)
    | .inr r => .inr r
  | .inr .clear => if tr.length < m.len then .inl (tr.length, .inr .clear) else .inr .unit

/-- The methods of `SharedMap` (shared_map.go:69-168), with `Clear`, as a client of its shards. -/
def clientW (m : Shape) : Client (SOp V ⊕ ClearOp) (SRes V) (MapConc.Op Bytes V ⊕ ClearOp) (MapConc.Res Bytes V) := ⟨m.nextW⟩

/-- Concurrent calls on the `SharedMap`, with `Clear`. -/
def progSW [DecidableEq V] (m : Shape) : Prog (Nat → GW Bytes V) (SOp V ⊕ ClearOp) (SRes V)
    (CPt (MapConc.Op Bytes V ⊕ ClearOp) (MapConc.Res Bytes V) (PtW Bytes V)) :=
  (clientW m).prog progW

/-! ## Specification -/

/-- A change of the contents: that of an operation, or the removal of all keys of the shard `x`. -/
abbrev Change (V : Type) := SOp V ⊕ Nat

/-- What a change does. -/
def Does (m : Shape) (s : M Bytes V) (e : Change V) (r : SRes V) (s' : M Bytes V) : Prop :=
  match e with
  | .inl op => SDoes s op r s'
  | .inr x => r = .unit ∧ ∀ k, s' k = if m.index k = x then none else s k

/-- The effects of a call of `op` that panicked: some of the pairs of an `MStore` but not all, nothing else. -/
def Torn (op : SOp V) (l : List (SOp V × SRes V)) : Prop :=
  match op with
  | .mstore data => ∃ n, n < data.length ∧ l = (data.take n).map fun x => (.store x.1 x.2, .unit)
  | .range f => ∀ x ∈ l, x.1 = .range f
  | _ => l = []

/-- The effects of a call that has returned `r`, or panicked. A `Clear` empties all shards, one after the other, and does not panic. -/
def EffectsW (m : Shape) (o : SOp V ⊕ ClearOp) (r : SRes V) (l : List (Change V × SRes V)) : Prop :=
  match o with
  | .inl op => ∃ l', l = l'.map (fun x => (.inl x.1, x.2)) ∧ (r ≠ .panic → Effects op r l') ∧ (r = .panic → Torn op l')
  | .inr _ => r = .unit ∧ l = (List.range m.len).map fun x => (.inr x, .unit)

/-- The effects of a call that may not have returned. -/
def StartedW (m : Shape) (o : SOp V ⊕ ClearOp) (l : List (Change V)) : Prop :=
  match o with
  | .inl op => ∃ l', l = l'.map .inl ∧ Started op l'
  | .inr _ => l <+: (List.range m.len).map .inr

/-- `L` is an order of the effects (with the number of the call) that explains the history `H`, and `st n` are the contents of the map before
the `n`-th effect. -/
structure ExplainsW (m : Shape) (H : List (Ev (SOp V ⊕ ClearOp) (SRes V))) (L : List (Nat × Change V × SRes V)) (st : Nat → M Bytes V) : Prop where
  init : st 0 = fun _ => none
  legal : ∀ n i e r, L[n]? = some (i, e, r) → Does m (st n) e r (st (n + 1))
  order : L.Pairwise fun x y => ¬ Before H y.1 x.1
  invoked : ∀ x ∈ L, ∃ o, Ev.inv x.1 o ∈ H
  started : ∀ i o, Ev.inv i o ∈ H → StartedW m o ((L.filter fun x => x.1 = i).map fun x => x.2.1)
  returned : ∀ i o r, Ev.inv i o ∈ H → Ev.ret i r ∈ H → EffectsW m o r ((L.filter fun x => x.1 = i).map fun x => x.2)

/-- What a `Range` that did not panic saw, as in `RangeOk`. -/
def RangeOkW (H : List (Ev (SOp V ⊕ ClearOp) (SRes V))) (L : List (Nat × Change V × SRes V)) (st : Nat → M Bytes V) : Prop :=
  ∀ i f r, Ev.inv i (.inl (.range f)) ∈ H → Ev.ret i r ∈ H → r ≠ .panic → ∃ l all, r = .visited l all ∧ (l.map (·.1)).Nodup ∧
    (∀ k v, (k, v) ∈ l → ∃ n, During H L i n ∧ st n k = some v) ∧
    (all = true → ∀ k, (∀ n, During H L i n → st n k ≠ none) → ∃ v, (k, v) ∈ l)

/-- What a `ComputeIfPresent` saw, as in `PresentOk`. -/
def PresentOkW (H : List (Ev (SOp V ⊕ ClearOp) (SRes V))) (L : List (Nat × Change V × SRes V)) (st : Nat → M Bytes V) : Prop :=
  ∀ i k f w v, Ev.inv i (.inl (.computeIfPresent k f)) ∈ H → Ev.ret i (.present (some (w, v))) ∈ H →
    ∃ n n', L[n']? = some (i, .inl (.computeIfPresent k f), .present (some (w, v))) ∧ During H L i n ∧ n ≤ n' ∧ st n k = some w

/-- The operations on the key `k` alone. -/
def SOp.On (k : Bytes) : SOp V → Prop
  | .load k' | .has k' | .store k' _ | .loadOrStore k' _ | .computeIfAbsent k' _ | .computeIfPresent k' _ | .delete k' => k' = k
  | .mstore _ | .range _ => False

/-- The history of the operations on one of the keys `P`, and of `Clear`, without the calls that panicked. -/
noncomputable def about (P : Bytes → Prop) (H : List (Ev (SOp V ⊕ ClearOp) (SRes V))) : List (Ev (SOp V ⊕ ClearOp) (SRes V)) := by
  classical exact H.filter fun e => match e with
    | .inv i _ | .ret i _ => decide (Ev.ret i .panic ∉ H ∧ ((∃ c, Ev.inv i (.inr c) ∈ H) ∨ ∃ op k, Ev.inv i (.inl op) ∈ H ∧ P k ∧ op.On k))

end Verif.XSync.SharedConc
