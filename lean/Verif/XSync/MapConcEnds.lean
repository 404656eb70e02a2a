import Verif.XSync.MapConcLive
import Verif.Conc.Ends
/-!
# Concurrent calls of `xsync.Map` return under every schedule (C115)

A call repeats a compare-and-swap only after another call has changed the entry. Each call changes entries a limited number of times, once the
length of the lists it goes through is known.
-/
namespace Verif.XSync.MapConc
open Verif.Conc Verif.Go

variable {K V : Type}

/-- 1 as long as the list a call may go through (a dirty map to build, the entries for `Range`) is not yet known. -/
def wA : Pt K V → Nat
  | .start | .tryLoad .free _ | .call .free _ _ | .cas .free _ _ _ | .reload .free _ _ | .lock | .locked | .rpromote | .build0 _ => 1
  | _ => 0

/-- Proof only: part of a measure; models no code. -/
def Cont.wR : Cont K V → Nat
  | .del _ => 1
  | _ => 0

/-- A bound on how often the call can still change the pointer of an entry, up to the moment a list is fixed. -/
def wR : Pt K V → Nat
  | .unexp _ => 2
  | .miss k | .promote k | .unlock k => k.wR
  | .build _ todo => todo.length + 1
  | .buildE _ rest _ _ | .buildC _ rest _ _ => rest.length + 2
  | .eload _ | .iter _ _ | .icall _ _ _ _ => 0
  | _ => 1

/-- Proof only: part of a measure; models no code. -/
def Cont.wT : Cont K V → Nat
  | .del _ => 4
  | .iter m => 2 * m.length + 2
  | _ => 1

variable [DecidableEq V]

/-- A bound on the steps the call takes before it returns, fixes a list or changes an entry, if the entries have the pointers `p`. -/
def wT (p : Nat → Ptr V) : Pt K V → Nat
  | .start => 10
  | .tryLoad _ _ => 9
  | .call _ _ _ => 8
  | .cas _ e q _ => if p e = q then 5 else 7
  | .reload _ _ _ => 6
  | .lock => 4
  | .locked => 3
  | .unexp _ => 10
  | .storeLocked _ => 0
  | .miss k => k.wT + 3
  | .promote k => k.wT + 2
  | .rpromote => 0
  | .build0 _ => 0
  | .build _ todo => 6 * todo.length + 4
  | .buildE _ rest _ _ => 6 * rest.length + 8
  | .buildC _ rest _ e => if p e = .nil then 6 * rest.length + 7 else 6 * rest.length + 9
  | .amend _ => 3
  | .addCall => 2
  | .add _ => 1
  | .unlock k => k.wT + 1
  | .eload _ => 1
  | .del _ => 4
  | .delCas e q => if p e = q then 3 else 5
  | .iter todo _ => 2 * todo.length + 2
  | .icall todo _ _ _ => 2 * todo.length + 3

/-- Proof only: part of a measure; models no code. -/
def weights : Weights (G K V) (Op K V) (Pt K V) := ⟨fun _ => wA, fun _ => wR, fun g _ => wT g.p⟩

variable [DecidableEq K]

/-- What a step does to the weights of the call. -/
def Lighter (p p' : Nat → Ptr V) (s : Pt K V) : Pt K V ⊕ Res K V → Prop
  | .inl s' => wA s' < wA s ∨ wA s' ≤ wA s ∧ (wR s' < wR s ∨ wR s' ≤ wR s ∧ wT p s' < wT p s ∧ p' = p)
  | .inr _ => 0 < wA s ∨ 0 < wR s ∨ p' = p

theorem lighter {g : G K V} {i : Nat} {op : Op K V} {s : Pt K V} {c : Nat} {g' : G K V} {x : Pt K V ⊕ Res K V} (h : step g i op s c = some (g', x)) :
    Lighter g.p g'.p s x := by
  have setD : ∀ {g g' : G K V} {k e}, g.setDirty k e = some g' → g'.p = g.p := by
    intro g g' k e h
    unfold G.setDirty at h
    split at h
    · simp at h
    · simp only [Option.some.injEq] at h; subst h; rfl
  cases s with
  | start =>
    simp only [step, Option.some.injEq, Prod.mk.injEq] at h
    obtain ⟨rfl, rfl⟩ := h
    unfold startStep
    repeat' split
    all_goals simp [Lighter, wA, wR, wT]
  | tryLoad m e =>
    simp only [step, Option.some.injEq, Prod.mk.injEq] at h
    obtain ⟨rfl, rfl⟩ := h
    cases hf : first op (g.p e) <;> cases m <;> simp [decide', after, Lighter, wA, wR, wT, Cont.wR, Cont.wT]
  | call m e q =>
    simp only [step] at h
    split at h <;> simp only [Option.some.injEq, Prod.mk.injEq, reduceCtorEq] at h
    obtain ⟨rfl, rfl⟩ := h
    cases m <;> simp only [Lighter, wA, wR, wT] <;> split <;> simp
  | cas m e q x =>
    simp only [step] at h
    split at h <;> simp only [Option.some.injEq, Prod.mk.injEq] at h <;> obtain ⟨rfl, rfl⟩ := h
    · cases m <;> simp [after, Lighter, wA, wR, Cont.wR]
    · rename_i hne
      cases m <;> simp [Lighter, wA, wR, wT, hne]
  | reload m e x =>
    simp only [step, Option.some.injEq, Prod.mk.injEq] at h
    obtain ⟨rfl, rfl⟩ := h
    cases hf : again x op (g.p e) <;> cases m <;> simp [decide', after, Lighter, wA, wR, wT, Cont.wR, Cont.wT]
    all_goals (cases op <;> cases hq : g.p e <;> simp [again, hq] at hf)
  | lock =>
    simp only [step] at h
    split at h <;> simp only [Option.some.injEq, Prod.mk.injEq, reduceCtorEq] at h
    obtain ⟨rfl, rfl⟩ := h
    simp [Lighter, wA, wR, wT]
  | locked =>
    simp only [step, Option.some.injEq, Prod.mk.injEq] at h
    obtain ⟨rfl, rfl⟩ := h
    cases op <;> simp only [lockedStep] <;> (repeat' split) <;> simp [Lighter, wA, wR, wT, Cont.wR, Cont.wT]
  | unexp e =>
    simp only [step] at h
    split at h
    · split at h
      · simp at h
      · split at h <;> simp only [Option.some.injEq, Prod.mk.injEq] at h <;> obtain ⟨rfl, rfl⟩ := h
        · simp [Lighter, wR]
        · cases op <;> simp [afterUnexp, Lighter, wA, wR]
    · simp only [Option.some.injEq, Prod.mk.injEq] at h
      obtain ⟨rfl, rfl⟩ := h
      cases op <;> simp [afterUnexp, Lighter, wA, wR]
  | storeLocked e =>
    simp only [step] at h
    split at h <;> simp only [Option.some.injEq, Prod.mk.injEq, reduceCtorEq] at h
    obtain ⟨rfl, rfl⟩ := h
    simp [Lighter, wA, wR, Cont.wR]
  | miss k =>
    simp only [step, Option.some.injEq, Prod.mk.injEq] at h
    obtain ⟨rfl, rfl⟩ := h
    split <;> simp [Lighter, wA, wR, wT]
  | promote k =>
    simp only [step, Option.some.injEq, Prod.mk.injEq] at h
    obtain ⟨rfl, rfl⟩ := h
    simp [Lighter, wA, wR, wT, G.promoted]
  | rpromote =>
    simp only [step, Option.some.injEq, Prod.mk.injEq] at h
    obtain ⟨rfl, rfl⟩ := h
    simp [Lighter, wA]
  | build0 rm =>
    simp only [step] at h
    split at h <;> simp only [Option.some.injEq, Prod.mk.injEq] at h <;> obtain ⟨rfl, rfl⟩ := h <;> simp [Lighter, wA]
  | build rm todo =>
    simp only [step] at h
    split at h
    · simp only [Option.some.injEq, Prod.mk.injEq] at h
      obtain ⟨rfl, rfl⟩ := h
      simp [Lighter, wA, wR, wT]
    · rename_i hne
      split at h <;> simp only [Option.some.injEq, Prod.mk.injEq, reduceCtorEq] at h
      obtain ⟨rfl, rfl⟩ := h
      have hl : 0 < todo.length := List.length_pos_iff.2 (by simpa using hne)
      have := Nat.mod_lt c hl
      simp only [Lighter, wA, wR, wT, List.length_eraseIdx_of_lt this]
      refine .inr ⟨Nat.le_refl _, .inr ⟨by omega, by omega, trivial⟩⟩
  | buildE rm rest k e =>
    simp only [step] at h
    split at h
    · rename_i hp
      simp only [Option.some.injEq, Prod.mk.injEq] at h
      obtain ⟨rfl, rfl⟩ := h
      simp [Lighter, wA, wR, wT, hp]
    · simp only [Option.some.injEq, Prod.mk.injEq] at h
      obtain ⟨rfl, rfl⟩ := h
      simp [Lighter, wA, wR, wT]
    · split at h <;> simp only [Option.some.injEq, Prod.mk.injEq] at h <;> obtain ⟨rfl, rfl⟩ := h
      · simp [Lighter, wR]
      · simp [Lighter, wA, wR]
  | buildC rm rest k e =>
    simp only [step] at h
    split at h <;> simp only [Option.some.injEq, Prod.mk.injEq] at h <;> obtain ⟨rfl, rfl⟩ := h
    · simp [Lighter, wA, wR]
    · rename_i hp; simp [Lighter, wA, wR, wT, hp]
  | amend rm =>
    simp only [step] at h
    cases op <;> simp only [afterAmend, Option.some.injEq, Prod.mk.injEq, reduceCtorEq] at h <;> obtain ⟨rfl, rfl⟩ := h <;> simp [Lighter, wA, wR, wT]
  | addCall =>
    simp only [step] at h
    split at h <;> simp only [Option.some.injEq, Prod.mk.injEq, reduceCtorEq] at h
    obtain ⟨rfl, rfl⟩ := h
    simp [Lighter, wA, wR, wT]
  | add v =>
    simp only [step] at h
    split at h
    · simp at h
    · split at h <;> simp only [Option.some.injEq, Prod.mk.injEq] at h <;> obtain ⟨rfl, rfl⟩ := h <;> simp [Lighter, wA, wR, Cont.wR]
  | unlock k =>
    simp only [step, Option.some.injEq, Prod.mk.injEq] at h
    obtain ⟨rfl, rfl⟩ := h
    cases k <;> simp [Cont.go, Lighter, wA, wR, wT, Cont.wR, Cont.wT]
  | eload e =>
    simp only [step, Option.some.injEq, Prod.mk.injEq] at h
    obtain ⟨rfl, rfl⟩ := h
    simp [Lighter]
  | del e =>
    simp only [step] at h
    split at h <;> simp only [Option.some.injEq, Prod.mk.injEq] at h <;> obtain ⟨rfl, rfl⟩ := h
    · rename_i hp; simp [Lighter, wA, wR, wT, hp]
    · simp [Lighter]
  | delCas e q =>
    simp only [step] at h
    split at h <;> simp only [Option.some.injEq, Prod.mk.injEq] at h <;> obtain ⟨rfl, rfl⟩ := h
    · simp [Lighter, wR]
    · rename_i hp; simp [Lighter, wA, wR, wT, hp]
  | iter todo vis =>
    simp only [step] at h
    split at h
    · simp only [Option.some.injEq, Prod.mk.injEq] at h
      obtain ⟨rfl, rfl⟩ := h
      simp [Lighter]
    · rename_i hne
      split at h
      · simp at h
      · have hl : 0 < todo.length := List.length_pos_iff.2 (by simpa using hne)
        have := Nat.mod_lt c hl
        split at h <;> simp only [Option.some.injEq, Prod.mk.injEq] at h <;> obtain ⟨rfl, rfl⟩ := h <;>
          simp only [Lighter, wA, wR, wT, List.length_eraseIdx_of_lt this] <;> simp <;> omega
  | icall todo vis k v =>
    simp only [step] at h
    split at h <;> simp only [Option.some.injEq, Prod.mk.injEq, reduceCtorEq] at h
    obtain ⟨rfl, rfl⟩ := h
    split <;> simp [Lighter, wA, wR, wT]

theorem sinks : (weights (K := K) (V := V)).Sinks prog := by
  constructor
  · intro g i op s c g' s' h
    rcases lighter (i := i) h with h | ⟨h1, h | ⟨h2, h3, h4⟩⟩
    · exact .inl h
    · exact .inr ⟨h1, .inl h⟩
    · refine .inr ⟨h1, .inr ⟨h2, ?_, fun op t => ?_⟩⟩ <;> simp only [weights, h4]
      · exact h3
      · exact Nat.le_refl _
  · intro g i op s c g' r h
    rcases lighter (i := i) h with h | h | h
    · exact .inl h
    · exact .inr (.inl h)
    · refine .inr (.inr fun op t => ?_)
      simp only [weights, h]; exact Nat.le_refl _

/-- **C115.** Without new calls every execution of concurrent calls ends, whatever the schedule. -/
theorem C115_ends {m : Conf (G K V) (Op K V) (Res K V) (Pt K V)} {H : List (Ev (Op K V) (Res K V))} (h : prog.mach.Exec m H) : Acc prog.Moves m :=
  sinks.ends h

/-- **C115.** Where nothing can move any more, every call has returned. -/
theorem C115_returns {m : Conf (G K V) (Op K V) (Res K V) (Pt K V)} {H : List (Ev (Op K V) (Res K V))} (h : prog.mach.Exec m H)
    (hs : ∀ j c, prog.mach.next m j c = none) {i : Nat} {op : Op K V} (hi : Ev.inv i op ∈ H) : ∃ r, Ev.ret i r ∈ H := by
  refine Classical.byContradiction fun hr => ?_
  obtain ⟨m', H', r, h1, h2⟩ := C85_no_deadlock h hi fun r hr' => hr ⟨r, hr'⟩
  have := List.append_right_eq_self.mp (prog.stuck_leads hs h1)
  simp [this] at h2

example := demoBlocked.imp fun _ h => C115_ends h.1

/-- A `Store` that repeats its compare-and-swap because another `Store` of the same key comes between; all calls have returned. -/
theorem demoReturned : ∃ m : Conf (G Nat Nat) (Op Nat Nat) (Res Nat Nat) (Pt Nat Nat),
    prog.mach.Exec m [.inv 1 (.store 0 5), .ret 1 .unit, .inv 2 (.load 0), .ret 2 (.value (some 5)), .inv 3 (.store 0 6), .inv 4 (.store 0 7),
      .ret 4 .unit, .ret 3 .unit] :=
  Mach.exists_exec _ ([.inv 1 (.store 0 5)] ++ runs 9 1 ++ [.inv 2 (.load 0)] ++ runs 8 2 ++ [.inv 3 (.store 0 6)] ++ runs 2 3 ++
    [.inv 4 (.store 0 7)] ++ runs 4 4 ++ runs 4 3) _ rfl

example := demoReturned.elim fun _ h => C115_returns (i := 3) (op := .store 0 6) h (prog.stuck_of_returned h (returned_spec rfl)) (by simp)

end Verif.XSync.MapConc
