import Verif.XSync.ResManPanicProps
import Verif.Conc.Ends
/-!
# Calls of a `ResourceManager` return under every schedule (C32, C107)
-/
namespace Verif.XSync.ResMan
open Verif.Conc

variable {K E : Type} [DecidableEq K] {cerr : Nat → Option E}

/-- The steps a call has left, but for those of a `Close` that waits for the lock, which go through a map not yet known. -/
def steps : Pt K E → Nat
  | .start => 7
  | .wait _ => 0
  | .lookup => 6
  | .create => 5
  | .store => 4
  | .finish _ => 3
  | .drop _ => 2
  | .remove => 0
  | .lock => 0
  | .closing todo _ => todo.length

/-- Proof only: part of a measure; models no code. -/
def weights : Weights (G K E) (Op K E) (Pt K E) where
  A _ | .lock => 1 | _ => 0
  R _ _ := 0
  T _ _ s := steps s

/-- A step is taken by a call that becomes lighter. -/
theorem lighter {g g' : G K E} {i c : Nat} {op : Op K E} {s s' : Pt K E} (h : (prog cerr).step g i op s c = some (g', .inl s')) :
    s = .lock ∧ s' ≠ .lock ∨ s' ≠ .lock ∧ steps s' < steps s := by
  cases op with
  | get k f =>
    cases s <;> simp only [prog, getStep] at h <;> (repeat' split at h) <;>
      simp only [Option.some.injEq, Prod.mk.injEq, Sum.inl.injEq, reduceCtorEq, and_false] at h <;> obtain ⟨_, rfl⟩ := h <;> simp [steps]
  | remove k =>
    cases s <;> simp only [prog, removeStep] at h <;> (repeat' split at h) <;>
      simp only [Option.some.injEq, Prod.mk.injEq, reduceCtorEq, and_false] at h
  | close =>
    cases s <;> simp only [prog, closeStep, reduceCtorEq] at h
    · split at h <;> simp only [Option.some.injEq, Prod.mk.injEq, Sum.inl.injEq, reduceCtorEq] at h
      obtain ⟨_, rfl⟩ := h
      simp
    · split at h
      · simp at h
      · rename_i todo be x hne
        split at h
        · simp at h
        rename_i y hy
        simp only [Option.some.injEq, Prod.mk.injEq, Sum.inl.injEq] at h
        obtain ⟨_, rfl⟩ := h
        have := (List.getElem?_eq_some_iff.mp hy).1
        simp only [steps, List.length_eraseIdx_of_lt this, ne_eq, reduceCtorEq, not_false_eq_true, true_and, false_and, false_or]
        omega

theorem sinks_of {Res : Type} {P : Prog (G K E) (Op K E) Res (Pt K E)}
    (hP : ∀ g i op s c g' s', P.step g i op s c = some (g', .inl s') → (prog cerr).step g i op s c = some (g', .inl s')) : weights.Sinks P := by
  constructor
  · intro g i op s c g' s' h
    rcases lighter (hP _ _ _ _ _ _ _ h) with ⟨rfl, h2⟩ | ⟨h1, h2⟩
    · refine .inl ?_
      cases s' <;> simp_all [weights]
    · refine .inr ⟨?_, .inr ⟨Nat.le_refl _, h2, fun _ _ => Nat.le_refl _⟩⟩
      cases s' <;> simp_all [weights]
  · intro g i op s c g' r h
    exact .inr (.inr fun _ _ => Nat.le_refl _)

/-- C32. Without new calls every execution of concurrent calls on one manager ends, whatever the schedule. -/
theorem C32_ends {m : Conf (G K E) (Op K E) (Res' E) (Pt K E)} {H : List (Ev (Op K E) (Res' E))} (h : (prog cerr).mach.Exec m H) :
    Acc (prog cerr).Moves m :=
  (sinks_of (cerr := cerr) fun _ _ _ _ _ _ _ h => h).ends h

/-- C32 (partial: no `Get` has panicked). Where nothing can move any more, every call has returned. -/
theorem C32_returns_partial {m : Conf (G K E) (Op K E) (Res' E) (Pt K E)} {H : List (Ev (Op K E) (Res' E))} (h : (prog cerr).mach.Exec m H)
    (hs : ∀ j c, (prog cerr).mach.next m j c = none) (hp : ∀ j, Ev.ret j (.get .panic) ∉ H) {i : Nat} {op : Op K E} (hi : Ev.inv i op ∈ H) :
    ∃ r, Ev.ret i r ∈ H := by
  refine Classical.byContradiction fun hr => ?_
  obtain ⟨j, c, hn⟩ := C32_no_deadlock_partial h hi (fun r hr' => hr ⟨r, hr'⟩) hp
  exact hn (hs j c)

example := demo.imp fun _ h => C32_ends h.1
example := demo.elim fun _ h => C32_returns_partial h.1 ((prog _).stuck_of_returned h.1 (returned_spec rfl)) (by simp) (i := 1) (op := .get () none) (by simp)

theorem stepN_step {pan : E → Bool} {isNil : Nat → Bool} {g g' : G K E} {i c : Nat} {op : Op K E} {s s' : Pt K E}
    (h : (progN cerr pan isNil).step g i op s c = some (g', .inl s')) : (prog cerr).step g i op s c = some (g', .inl s') := by
  cases op with
  | get k f =>
    simp only [progN, stepN] at h
    simp only [prog]
    split at h <;> simp only [Option.some.injEq, Prod.mk.injEq, Sum.inl.injEq, reduceCtorEq, and_false] at h
    obtain ⟨rfl, rfl⟩ := h
    assumption
  | remove k =>
    simp only [progN, stepN] at h
    simp only [prog]
    split at h <;> simp only [Option.some.injEq, Prod.mk.injEq, Sum.inl.injEq, reduceCtorEq, and_false] at h
    obtain ⟨rfl, rfl⟩ := h
    assumption
  | close =>
    have go : closeStepN.go cerr g i c s = some (g', .inl s') → (prog cerr).step g i .close s c = some (g', .inl s') := by
      intro h
      simp only [closeStepN.go] at h
      simp only [prog]
      split at h <;> simp only [Option.some.injEq, Prod.mk.injEq, Sum.inl.injEq, reduceCtorEq, and_false] at h
      obtain ⟨rfl, rfl⟩ := h
      assumption
    simp only [progN, stepN, closeStepN] at h
    split at h
    · split at h
      · split at h
        · simp at h
        · exact go h
      · exact go h
    · exact go h

/-- C107. Also with `create` functions and `Close` methods that panic every execution ends without new calls, whatever the schedule. -/
theorem C107_ends {pan : E → Bool} {isNil : Nat → Bool} {m : Conf (G K E) (Op K E) (ResN E) (Pt K E)} {H : List (Ev (Op K E) (ResN E))}
    (h : (progN cerr pan isNil).mach.Exec m H) : Acc (progN cerr pan isNil).Moves m :=
  (sinks_of (cerr := cerr) fun _ _ _ _ _ _ _ h => stepN_step h).ends h

/-- C107 (partial: no call has used the manager after `Close`, and no `Close` has panicked). Where nothing can move any more, every call has
returned or panicked. -/
theorem C107_returns_partial {pan : E → Bool} {isNil : Nat → Bool} {m : Conf (G K E) (Op K E) (ResN E) (Pt K E)} {H : List (Ev (Op K E) (ResN E))}
    (h : (progN cerr pan isNil).mach.Exec m H) (hs : ∀ j c, (progN cerr pan isNil).mach.next m j c = none)
    (hp : ∀ j, Ev.ret j (.panics .nilMap) ∉ H) (hc : ∀ j x, Ev.ret j (.closePanics x) ∉ H) {i : Nat} {op : Op K E} (hi : Ev.inv i op ∈ H) :
    ∃ r, Ev.ret i r ∈ H := by
  refine Classical.byContradiction fun hr => ?_
  obtain ⟨j, c, hn⟩ := C107_no_deadlock_partial h hi (fun r hr' => hr ⟨r, hr'⟩) hp hc
  exact hn (hs j c)

example := demoPanic.imp fun _ h => C107_ends h.1
example := demoPanic.elim fun _ h => C107_returns_partial h.1 ((progN _ _ _).stuck_of_returned h.1 (returned_spec rfl)) (by simp) (by simp) (i := 1)
  (op := .get () none) (by simp)

end Verif.XSync.ResMan
