import Verif.XSync.ResManProps
import Verif.Conc.Refine
/-!
# `xsync/resourcemanager.go` with panicking functions and nil resources

The same code as in `ResMan.lean` for users' code that misbehaves: a `create` that panics, a `create` that returns `(nil, nil)`, and a resource whose
`Close` method panics.

`pan e` tells that the end `e` of a `create` or `Close` call is not an error returned but a panic with the value `e`. `isNil r` tells that the
`create` of the `Get` call `r` returned `(nil, nil)`.

`singleflight.Group.Do` (golang.org/x/sync) recovers a panic of its function, publishes it as the outcome of the flight (`panicError`), removes the
flight and panics again, in the leader as well as in every call that waited; so a panic takes the same way as an error (`getStep`) and is only told
apart where the result is delivered.
-/
namespace Verif.XSync.ResMan
open Verif.Conc Verif.XError

variable {K E : Type} [DecidableEq K]

/-- How `Get` panics. -/
inductive Why (E : Type) where
  /-- assignment to an entry of the nil map (resourcemanager.go:72) -/
  | nilMap
  /-- the panic of a `create` (resourcemanager.go:66) -/
  | create (e : E)
  /-- `val.(io.Closer)` for the nil value that the `create` of the call `r` returned (resourcemanager.go:81) -/
  | notCloser (r : Nat)

/-- How calls end. -/
inductive ResN (E : Type) where
  | got (r : Nat)
  | failed (e : E)
  | panics (w : Why E)
  | removed (b : Bool)
  | closed (r : Res E)
  /-- `Close` panics because the `Close` method of the resource `r` does, or because the resource is nil -/
  | closePanics (r : Nat)

/-- resourcemanager.go:77-81 and the end of singleflight's `Do`: what `Get` makes of the outcome of the flight. -/
def deliver (pan : E → Bool) (isNil : Nat → Bool) : Outcome E → ResN E
  | .got r => if isNil r then .panics (.notCloser r) else .got r
  | .failed e => if pan e then .panics (.create e) else .failed e
  | .panic => .panics .nilMap

/-- resourcemanager.go:45: the call `resource.Close()` does not return. -/
def badClose (cerr : Nat → Option E) (pan : E → Bool) (isNil : Nat → Bool) (r : Nat) : Bool :=
  isNil r || (match cerr r with
    | some e => pan e
    | none => false)

/-- resourcemanager.go:40-53 `Close`. When a `Close` method panics (or there is none to call) the function ends there; the lock, whose release is not
deferred, remains held, and `m.resources` is as it was. -/
def closeStepN (cerr : Nat → Option E) (pan : E → Bool) (isNil : Nat → Bool) (g : G K E) (i c : Nat) (s : Pt K E) : Option (G K E × (Pt K E ⊕ ResN E)) :=
  match s with
  | .closing todo _ => match todo[c % todo.length]? with
    | some x => if badClose cerr pan isNil x.2 then some (g, .inr (.closePanics x.2)) else go
    | none => go
  | _ => go
where go := match closeStep cerr g i c s with
  | some (g', .inl s') => some (g', .inl s')
  | some (g', .inr (.closed r)) => some (g', .inr (.closed r))
  | _ => none

/-- resourcemanager.go:56-82 `Get`, 85-92 `Remove`, 40-53 `Close` -/
def stepN (cerr : Nat → Option E) (pan : E → Bool) (isNil : Nat → Bool) (g : G K E) (i : Nat) (op : Op K E) (s : Pt K E) (c : Nat) :
    Option (G K E × (Pt K E ⊕ ResN E)) :=
  match op with
  | .get k fail => match getStep g i k fail s with
    | some (g', .inl s') => some (g', .inl s')
    | some (g', .inr (.get o)) => some (g', .inr (deliver pan isNil o))
    | _ => none
  | .remove k => match removeStep g i k s with
    | some (g', .inl s') => some (g', .inl s')
    | some (g', .inr (.removed b)) => some (g', .inr (.removed b))
    | _ => none
  | .close => closeStepN cerr pan isNil g i c s

/-- All interleavings of calls of the methods (resourcemanager.go:40-92) with user functions that can panic. -/
def progN (cerr : Nat → Option E) (pan : E → Bool) (isNil : Nat → Bool) : Prog (G K E) (Op K E) (ResN E) (Pt K E) where
  init := new
  begin := (prog cerr).begin
  step := stepN cerr pan isNil

/-! ## Refinement -/

/-- The end of a call in `ResMan.lean`; a `Close` that panics is one that never gets on. -/
def back : ResN E → Option (Res' E)
  | .got r | .panics (.notCloser r) => some (.get (.got r))
  | .failed e | .panics (.create e) => some (.get (.failed e))
  | .panics .nilMap => some (.get .panic)
  | .removed b => some (.removed b)
  | .closed r => some (.closed r)
  | .closePanics _ => none

theorem back_deliver (pan : E → Bool) (isNil : Nat → Bool) (o : Outcome E) : back (deliver pan isNil o) = some (.get o) := by
  cases o <;> simp only [deliver] <;> (try split) <;> rfl

/-- The views of the calls agree, but for `Close` calls that have panicked. -/
def Same (v : View (Op K E) (ResN E) (Pt K E)) (w : View (Op K E) (Res' E) (Pt K E)) : Prop :=
  ∀ i, match v i with
    | none => w i = none
    | some (op, .inl s) => w i = some (op, .inl s)
    | some (op, .inr r) => match back r with
      | some r' => w i = some (op, .inr r')
      | none => op = .close ∧ ∃ todo be, w i = some (.close, .inl (.closing todo be))

theorem Same.upd {v : View (Op K E) (ResN E) (Pt K E)} {w : View (Op K E) (Res' E) (Pt K E)} (h : Same v w) (i : Nat)
    (a : Option (Op K E × (Pt K E ⊕ ResN E))) (b : Option (Op K E × (Pt K E ⊕ Res' E)))
    (hab : match a with
      | none => b = none
      | some (op, .inl s) => b = some (op, .inl s)
      | some (op, .inr r) => match back r with
        | some r' => b = some (op, .inr r')
        | none => op = .close ∧ ∃ todo be, b = some (.close, .inl (.closing todo be))) : Same (upd v i a) (upd w i b) := by
  intro j
  by_cases hj : j = i
  · subst hj; rw [upd_same, upd_same]; exact hab
  · rw [upd_ne _ _ hj, upd_ne _ _ hj]; exact h j

variable {cerr : Nat → Option E} {pan : E → Bool} {isNil : Nat → Bool}

theorem close_shape {g g' : G K E} {i c : Nat} {s : Pt K E} {r : Res' E} (h : closeStep cerr g i c s = some (g', .inr r)) : ∃ x, r = .closed x := by
  cases s <;> simp only [closeStep, reduceCtorEq] at h
  · split at h <;> simp at h
  · split at h
    · simp only [Option.some.injEq, Prod.mk.injEq, Sum.inr.injEq] at h; exact ⟨_, h.2.symm⟩
    · split at h <;> simp at h

/-- One step: the state changes as in `ResMan.lean`, or nothing changes and a `Close` panics. -/
theorem stepN_cases {g g' : G K E} {i : Nat} {op : Op K E} {s : Pt K E} {c : Nat} {x : Pt K E ⊕ ResN E}
    (h : stepN cerr pan isNil g i op s c = some (g', x)) :
    (g' = g ∧ op = .close ∧ ∃ todo be y, s = .closing todo be ∧ y ∈ todo ∧ badClose cerr pan isNil y.2 = true ∧ x = .inr (.closePanics y.2)) ∨
    (∃ s', x = .inl s' ∧ (prog cerr).step g i op s c = some (g', .inl s')) ∨
    ∃ r r', x = .inr r ∧ back r = some r' ∧ (prog cerr).step g i op s c = some (g', .inr r') := by
  cases op with
  | get k f =>
    simp only [stepN] at h
    split at h
    · rename_i s' he
      simp only [Option.some.injEq, Prod.mk.injEq] at h
      obtain ⟨rfl, rfl⟩ := h
      exact Or.inr (Or.inl ⟨s', rfl, he⟩)
    · rename_i o he
      simp only [Option.some.injEq, Prod.mk.injEq] at h
      obtain ⟨rfl, rfl⟩ := h
      exact Or.inr (Or.inr ⟨_, _, rfl, back_deliver .., he⟩)
    · simp at h
  | remove k =>
    simp only [stepN] at h
    split at h
    · rename_i s' he
      simp only [Option.some.injEq, Prod.mk.injEq] at h
      obtain ⟨rfl, rfl⟩ := h
      exact Or.inr (Or.inl ⟨s', rfl, he⟩)
    · rename_i b he
      simp only [Option.some.injEq, Prod.mk.injEq] at h
      obtain ⟨rfl, rfl⟩ := h
      exact Or.inr (Or.inr ⟨_, _, rfl, rfl, he⟩)
    · simp at h
  | close =>
    have go : closeStepN.go cerr g i c s = some (g', x) → (∃ s', x = .inl s' ∧ (prog cerr).step g i .close s c = some (g', .inl s')) ∨
        ∃ r r', x = .inr r ∧ back r = some r' ∧ (prog cerr).step g i .close s c = some (g', .inr r') := by
      intro h
      simp only [closeStepN.go] at h
      split at h
      · rename_i s' he
        simp only [Option.some.injEq, Prod.mk.injEq] at h
        obtain ⟨rfl, rfl⟩ := h
        exact Or.inl ⟨s', rfl, he⟩
      · rename_i b he
        simp only [Option.some.injEq, Prod.mk.injEq] at h
        obtain ⟨rfl, rfl⟩ := h
        exact Or.inr ⟨_, _, rfl, rfl, he⟩
      · simp at h
    simp only [stepN, closeStepN] at h
    split at h
    · rename_i todo be
      split at h
      · rename_i y hy
        split at h
        · rename_i hb
          simp only [Option.some.injEq, Prod.mk.injEq] at h
          obtain ⟨rfl, rfl⟩ := h
          exact Or.inl ⟨rfl, rfl, todo, be, y, rfl, List.mem_of_getElem? hy, hb, rfl⟩
        · exact Or.inr (go h)
      · exact Or.inr (go h)
    · exact Or.inr (go h)

/-- Every history of the manager with panics is a history without them, if the `Close` calls that panic are taken as calls that never return, and
panics of `Get` for what they come from. The state is the same. -/
theorem refinesN {m : Conf (G K E) (Op K E) (ResN E) (Pt K E)} {H : List (Ev (Op K E) (ResN E))} (h : (progN cerr pan isNil).mach.Exec m H) :
    ∃ m' : Conf (G K E) (Op K E) (Res' E) (Pt K E), (prog cerr).mach.Exec m' (H.filterMap (Ev.seen back)) ∧ m'.g = m.g ∧ Same m.view m'.view := by
  obtain ⟨m', h1, h2, h3⟩ := (progN cerr pan isNil).refineRes (prog cerr) back (fun g g' v w => g' = g ∧ Same v w) ⟨rfl, fun i => rfl⟩
    (fun M g v w i hR hv => by have := hR.2 i; rw [hv] at this; exact this)
    (fun M g v w i op r r' hR hv hf => by have := hR.2 i; simp only [hv, hf] at this; exact this)
    (fun M m' H v i op _ hR hv => ⟨hR.1, hR.2.upd i _ _ rfl⟩)
    (fun M m' H v i op t c M' x _ hR hv hs => by
      obtain ⟨hg, hS⟩ := hR
      have hw := hS i
      simp only [hv] at hw
      rcases stepN_cases hs with ⟨rfl, rfl, todo, be, y, rfl, _, _, rfl⟩ | ⟨s', rfl, he⟩ | ⟨r, r', rfl, hb, he⟩
      · left
        refine ⟨hg, fun j => ?_⟩
        by_cases hj : j = i
        · subst hj; rw [upd_same]; exact ⟨rfl, todo, be, hw⟩
        · rw [upd_ne _ _ hj]; exact hS j
      · right
        exact ⟨t, c, M', .inl s', hw, by rw [hg]; exact he, rfl, hS.upd i _ _ rfl⟩
      · right
        exact ⟨t, c, M', .inr r', hw, by rw [hg]; exact he, rfl, hS.upd i _ _ (by simp [hb])⟩) h
  exact ⟨m', h1, h2, h3⟩

end Verif.XSync.ResMan
