import Verif.XSync.MapConcClear
import Verif.XSync.MapClear
/-!
# `Clear` concurrent with other operations of `xsync.Map`

The map of `MapConc.lean` together with the two words of the `atomic.Value` in the field `read` (`MapClear.lean`), which `Clear` overwrites
with a plain assignment while other operations may be reading them. `Clear` may overlap any other call.

Simplifications: as in `MapConc.lean` and `MapClear.lean`. In addition, a `m.read.Load()` under `m.mu` is one step, because both words are only
written under `m.mu`. The memory model is sequentially consistent, although the plain writes of `Clear` race with the atomic loads.
-/
namespace Verif.XSync.MapWords
open Verif.Conc Verif.Go Verif.XSync.MapConc
open Verif.XSync.MapClear (Typ)

variable {K V : Type}

/-- map.go:29-67 `Map`: the fields `read` and `amended` of `g` are not used, the words `typ` and `data` of the `atomic.Value` (sync/atomic,
value.go) are there instead. -/
structure GW (K V : Type) where
  g : G K V
  typ : Typ
  /-- the `readOnly` to which the word points, `none` for nil -/
  data : Option (GMap K Nat × Bool)

/-- What `m.read.Load().(readOnly)` yields under `m.mu`: the zero `readOnly` if nothing was stored. -/
def GW.val (M : GW K V) : GMap K Nat × Bool := if M.typ = .readOnly then M.data.getD ([], false) else ([], false)

/-- The map with a given content of `read`. -/
def GW.with (M : GW K V) (r : GMap K Nat × Bool) : G K V := { M.g with read := r.1, amended := r.2 }

/-- The points of `Clear` (map.go:418-425). -/
inductive ClPt where
  /-- map.go:419 -/
  | lock
  /-- map.go:420, no word is written -/
  | read
  /-- map.go:420, `typ` is written -/
  | data
  /-- map.go:420, `data` is written -/
  | typ
  /-- map.go:421 -/
  | dirty
  /-- map.go:422 -/
  | misses
  /-- map.go:423 -/
  | unlock
  deriving DecidableEq

/-- Points of the methods, with the two words of the `atomic.Value` (map.go:41), and of `Clear` (418-425). -/
inductive PtW (K V : Type) where
  /-- the first `m.read.Load()`: the load of `typ` -/
  | typ
  /-- the load of `data`, after `typ` was found to be `readOnly` -/
  | data
  /-- any other point of the operations -/
  | pt (s : Pt K V)
  /-- in the first `m.read.Store` at the point `s`: `typ` is `firstStoreInProgress` -/
  | first (s : Pt K V)
  /-- … and `data` is written -/
  | last (s : Pt K V)
  | cl (p : ClPt)

/-- The points at which `m.read.Store` is called (map.go:156, 222, 292, 463-464, 487). -/
def stores : Pt K V → Bool
  | .promote _ | .rpromote | .amend _ => true
  | _ => false

/-- The point at which `m.read.Load()` is called under the lock. -/
def reloads : Pt K V → Bool
  | .locked => true
  | _ => false

/-- Going on after a step of `MapConc.step`. -/
def up : Pt K V ⊕ Res K V → PtW K V ⊕ Res K V
  | .inl s => .inl (.pt s)
  | .inr r => .inr r

/-- map.go:418-425 `Clear`. The two words are written in any order. -/
def clearW (M : GW K V) (i : Nat) (p : ClPt) (c : Nat) : Option (GW K V × (PtW K V ⊕ Res K V)) :=
  match p with
  | .lock => match M.g.mu with
    | none => some ({ M with g := { M.g with mu := some i } }, .inl (.cl .read))
    | some _ => none
  | .read => if c = 0 then some ({ M with typ := .nil }, .inl (.cl .data)) else some ({ M with data := none }, .inl (.cl .typ))
  | .data => some ({ M with data := none }, .inl (.cl .dirty))
  | .typ => some ({ M with typ := .nil }, .inl (.cl .dirty))
  | .dirty => some ({ M with g := { M.g with dirty := none } }, .inl (.cl .misses))
  | .misses => some ({ M with g := { M.g with misses := 0 } }, .inl (.cl .unlock))
  | .unlock => some ({ M with g := { M.g with mu := none } }, .inr .unit)

variable [DecidableEq K] [DecidableEq V]

/-- The steps of the other operations: the first `m.read.Load()` in two steps (`Value.Load`: `typ`, then `data`; a nil `data` panics in the type
assertion), `m.read.Store` under the lock (`Value.Store`: if `typ` is nil, `firstStoreInProgress`, `data`, `typ`; otherwise `data`; it waits for
another first store), and the steps of `MapConc.step` (map.go:100-515). -/
def opW (M : GW K V) (i : Nat) (op : Op K V) (s : PtW K V) (c : Nat) : Option (GW K V × (PtW K V ⊕ Res K V)) :=
  match s with
  | .typ => some (M, if M.typ = .readOnly then .inl .data else up (startStep (M.with ([], false)) op))
  | .data => match M.data with
    | none => some (M, .inr .panic)
    | some r => some (M, up (startStep (M.with r) op))
  | .pt s =>
    if stores s then
      match M.typ with
      | .nil => some ({ M with typ := .storing }, .inl (.first s))
      | .storing => some (M, .inl (.pt s))
      | .readOnly => match step (M.with M.val) i op s c with
        | none => none
        | some (g', x) => some (⟨g', .readOnly, some (g'.read, g'.amended)⟩, up x)
    else if reloads s && M.typ = .readOnly && M.data.isNone then some (M, .inr .panic)
    else match step (M.with M.val) i op s c with
      | none => none
      | some (g', x) => some ({ M with g := g' }, up x)
  | .first s => match step (M.with M.val) i op s c with
    | none => none
    | some (g', _) => some ({ M with data := some (g'.read, g'.amended) }, .inl (.last s))
  | .last s => match step (M.with M.val) i op s c with
    | none => none
    | some (g', x) => some (⟨g', .readOnly, M.data⟩, up x)
  | .cl _ => none

/-- One step of a method or of `Clear`. -/
def stepW (M : GW K V) (i : Nat) (op : Op K V ⊕ ClearOp) (s : PtW K V) (c : Nat) : Option (GW K V × (PtW K V ⊕ Res K V)) :=
  match op, s with
  | .inl op, s => opW M i op s c
  | .inr _, .cl p => clearW M i p c
  | .inr _, _ => none

/-- All interleavings of calls of the operations of `xsync.Map`, with `Clear`. -/
def progW : Prog (GW K V) (Op K V ⊕ ClearOp) (Res K V) (PtW K V) where
  init := ⟨.zero, .nil, none⟩
  begin
    | .inl _ => .typ
    | .inr _ => .cl .lock
  step := stepW

/-! ## Specification -/

/-- The history of the calls that did not panic. -/
noncomputable def settled (H : List (Ev (Op K V ⊕ ClearOp) (Res K V))) : List (Ev (Op K V ⊕ ClearOp) (Res K V)) := by
  classical exact H.filter fun e => match e with | .inv i _ | .ret i _ => decide (Ev.ret i .panic ∉ H)

end Verif.XSync.MapWords
