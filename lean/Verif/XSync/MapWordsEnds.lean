import Verif.XSync.MapWordsProps
import Verif.XSync.MapConcEnds
/-! # Calls concurrent with `Clear` return under every schedule (C118) -/
namespace Verif.XSync.MapWords
open Verif.Conc Verif.Go Verif.XSync.MapConc
open Verif.XSync.MapClear (Typ)

variable {K V : Type} [DecidableEq K] [DecidableEq V]

/-! ## Nothing is stuck -/

/-- A call that does not wait for somebody else to unlock can make a step. -/
theorem enabledW {M : GW K V} {v : VwW K V} {n : Nat} {W : Nat → World K V} (h : Phys M v n W) {i : Nat} {o : Op K V ⊕ ClearOp} {s : PtW K V}
    (hv : v i = some (o, .inl s)) (hm : M.g.mu = none ∨ M.g.mu = some i) : ∃ y, stepW M i o s 0 = some y := by
  have hc := h.calls i
  rw [hv] at hc
  have loc : ∀ op y b t, Loc W n i op (.inl y) b → (y = .lock → t.mu = none) → ∃ z, step t i op y 0 = some z := by
    rintro op y b t ⟨w, h1, h2, _⟩ ht
    exact enabled_any t (h.ok w h1).inv h2 ht
  cases o with
  | inl op =>
    cases s with
    | typ => exact ⟨_, rfl⟩
    | data => simp only [stepW, opW]; split <;> exact ⟨_, rfl⟩
    | cl p => exact hc.elim
    | first s =>
      obtain ⟨rfl, hc⟩ := hc
      obtain ⟨z, hz⟩ := loc _ _ _ (M.with M.val) hc (by simp)
      simp only [stepW, opW, hz]; exact ⟨_, rfl⟩
    | last s =>
      obtain ⟨rfl, hc⟩ := hc
      obtain ⟨z, hz⟩ := loc _ _ _ (M.with M.val) hc (by simp)
      simp only [stepW, opW, hz]; exact ⟨_, rfl⟩
    | pt s =>
      have hz : ∃ z, step (M.with M.val) i op s 0 = some z := by
        by_cases hl : s = .lock
        · subst hl
          have hne : M.g.mu ≠ some i := by
            refine h.nomu hv fun o s hs => ?_
            rcases hc n (Nat.le_refl _) with h | h <;> rw [h] at hs <;> simp at hs
            rw [← hs.2]; rfl
          have : (M.with M.val).mu = none := hm.resolve_right hne
          exact ⟨_, by simp only [step, this]; rfl⟩
        · exact loc _ _ _ _ ((callRel_pt hl).1 hc).2 (fun e => absurd e hl)
      obtain ⟨z, hz⟩ := hz
      simp only [stepW, opW, hz]
      (repeat' split) <;> exact ⟨_, rfl⟩
  | inr x =>
    cases s with
    | cl p =>
      cases p with
      | lock =>
        have : M.g.mu = none := hm.resolve_right fun e => (h.cmu i x _ hv).2 e rfl
        simp [stepW, clearW, this]
      | read => exact ⟨_, rfl⟩
      | _ => exact ⟨_, rfl⟩
    | _ => exact hc.elim

/-! ## Nothing goes on for ever -/

/-- The program without the loop of `m.read.Store` that waits for another first store. -/
def progS : Prog (GW K V) (Op K V ⊕ ClearOp) (Res K V) (PtW K V) where
  init := progW.init
  begin := progW.begin
  step M i o s c := match s with
    | .pt t => if stores t && M.typ = .storing then none else stepW M i o (.pt t) c
    | s => stepW M i o s c

/-- Proof only: part of a measure; models no code. -/
def wAW : PtW K V → Nat
  | .typ | .data => 1
  | .pt s | .first s | .last s => wA s
  | .cl _ => 0

/-- Proof only: part of a measure; models no code. -/
def wRW : PtW K V → Nat
  | .typ | .data => 1
  | .pt s | .first s | .last s => wR s
  | .cl _ => 0

/-- Proof only: part of a measure; models no code. -/
def wTW (p : Nat → Ptr V) : PtW K V → Nat
  | .typ => 34
  | .data => 33
  | .pt s => 3 * wT p s + 2
  | .first s => 3 * wT p s + 1
  | .last s => 3 * wT p s
  | .cl .lock => 6
  | .cl .read => 5
  | .cl .data => 4
  | .cl .typ => 4
  | .cl .dirty => 3
  | .cl .misses => 2
  | .cl .unlock => 1

/-- Proof only: part of a measure; models no code. -/
def weightsW : Weights (GW K V) (Op K V ⊕ ClearOp) (PtW K V) := ⟨fun _ => wAW, fun _ => wRW, fun M _ => wTW M.g.p⟩

/-- What a step does to the weights of the call. -/
def LighterW (p p' : Nat → Ptr V) (s : PtW K V) : PtW K V ⊕ Res K V → Prop
  | .inl s' => wAW s' < wAW s ∨ wAW s' ≤ wAW s ∧ (wRW s' < wRW s ∨ wRW s' ≤ wRW s ∧ wTW p s' < wTW p s ∧ p' = p)
  | .inr _ => 0 < wAW s ∨ 0 < wRW s ∨ p' = p

theorem lighterW {M M' : GW K V} {i c : Nat} {o : Op K V ⊕ ClearOp} {s : PtW K V} {x : PtW K V ⊕ Res K V} (h : progS.step M i o s c = some (M', x)) :
    LighterW M.g.p M'.g.p s x := by
  have fromUp : ∀ (p p' : Nat → Ptr V) (s : Pt K V) (t : PtW K V) (y : Pt K V ⊕ Res K V), Lighter p p' s y → wAW t = wA s → wRW t = wR s →
      3 * wT p s ≤ wTW p t → LighterW p p' t (up y) := by
    intro p p' s t y h e1 e2 e3
    cases y with
    | inl s' =>
      simp only [up, LighterW, e1, e2]
      rcases h with h | ⟨h1, h | ⟨h2, h3, h4⟩⟩
      · exact .inl h
      · exact .inr ⟨h1, .inl h⟩
      · refine .inr ⟨h1, .inr ⟨h2, ?_, h4⟩⟩
        have : wTW p (.pt s') = 3 * wT p s' + 2 := rfl
        omega
    | inr r => simp only [up, LighterW, e1, e2]; exact h
  have start : ∀ (g : G K V) op t, 33 ≤ wTW g.p t → wAW t = 1 → wRW t = 1 → LighterW g.p g.p t (up (startStep g op)) := fun g op t ht e1 e2 =>
    fromUp g.p g.p .start t _ (lighter (g := g) (i := 0) (op := op) (s := .start) (c := 0) (g' := g) (x := startStep g op) rfl) e1 e2
      (by simp only [wT]; omega)
  cases o with
  | inr x' =>
    cases s with
    | cl p =>
      cases p <;> simp only [progS, stepW, clearW] at h
      · split at h <;> simp only [Option.some.injEq, Prod.mk.injEq, reduceCtorEq] at h
        obtain ⟨rfl, rfl⟩ := h
        simp [LighterW, wAW, wRW, wTW]
      · split at h <;> simp only [Option.some.injEq, Prod.mk.injEq] at h <;> obtain ⟨rfl, rfl⟩ := h <;> simp [LighterW, wAW, wRW, wTW]
      all_goals
        simp only [Option.some.injEq, Prod.mk.injEq] at h
        obtain ⟨rfl, rfl⟩ := h
        simp [LighterW, wAW, wRW, wTW]
    | pt t => simp only [progS, stepW] at h; split at h <;> simp at h
    | _ => simp [progS, stepW] at h
  | inl op =>
    cases s with
    | cl p => simp [progS, stepW, opW] at h
    | typ =>
      simp only [progS, stepW, opW, Option.some.injEq, Prod.mk.injEq] at h
      obtain ⟨rfl, rfl⟩ := h
      split
      · simp [LighterW, wAW, wRW, wTW]
      · exact start (M.with ([], false)) op .typ (by simp [wTW]) rfl rfl
    | data =>
      simp only [progS, stepW, opW] at h
      split at h <;> simp only [Option.some.injEq, Prod.mk.injEq] at h <;> obtain ⟨rfl, rfl⟩ := h
      · simp [LighterW]
      · exact start (M.with _) op .data (by simp [wTW]) rfl rfl
    | first s =>
      simp only [progS, stepW, opW] at h
      split at h <;> simp only [Option.some.injEq, Prod.mk.injEq, reduceCtorEq] at h
      obtain ⟨rfl, rfl⟩ := h
      simp [LighterW, wAW, wRW, wTW]
    | last s =>
      simp only [progS, stepW, opW] at h
      split at h <;> simp only [Option.some.injEq, Prod.mk.injEq, reduceCtorEq] at h
      rename_i g' y hst
      obtain ⟨rfl, rfl⟩ := h
      exact fromUp (M.with M.val).p g'.p s _ _ (lighter hst) rfl rfl (Nat.le_refl _)
    | pt s =>
      simp only [progS] at h
      split at h
      · simp at h
      rename_i hns
      simp only [stepW, opW] at h
      split at h
      · rename_i hs
        split at h
        · simp only [Option.some.injEq, Prod.mk.injEq] at h
          obtain ⟨rfl, rfl⟩ := h
          simp [LighterW, wAW, wRW, wTW]
        · rename_i ht; simp [hs, ht] at hns
        · split at h <;> simp only [Option.some.injEq, Prod.mk.injEq, reduceCtorEq] at h
          rename_i g' y hst
          obtain ⟨rfl, rfl⟩ := h
          exact fromUp (M.with M.val).p g'.p s _ _ (lighter hst) rfl rfl (Nat.le_add_right _ _)
      · split at h
        · simp only [Option.some.injEq, Prod.mk.injEq] at h
          obtain ⟨rfl, rfl⟩ := h
          simp [LighterW]
        · split at h <;> simp only [Option.some.injEq, Prod.mk.injEq, reduceCtorEq] at h
          rename_i g' y hst
          obtain ⟨rfl, rfl⟩ := h
          exact fromUp (M.with M.val).p g'.p s _ _ (lighter hst) rfl rfl (Nat.le_add_right _ _)

theorem sinksW : (weightsW (K := K) (V := V)).Sinks progS := by
  constructor
  · intro g i op s c g' s' h
    rcases lighterW (i := i) h with h | ⟨h1, h | ⟨h2, h3, h4⟩⟩
    · exact .inl h
    · exact .inr ⟨h1, .inl h⟩
    · refine .inr ⟨h1, .inr ⟨h2, ?_, fun op t => ?_⟩⟩ <;> simp only [weightsW, h4]
      · exact h3
      · exact Nat.le_refl _
  · intro g i op s c g' r h
    rcases lighterW (i := i) h with h | h | h
    · exact .inl h
    · exact .inr (.inl h)
    · refine .inr (.inr fun op t => ?_)
      simp only [weightsW, h]; exact Nat.le_refl _

omit [DecidableEq V] in
/-- Where `m.read.Store` is called, no other first store is in progress. -/
theorem no_spin {M : GW K V} {v : VwW K V} {n : Nat} {W : Nat → World K V} (h : Phys M v n W) {i : Nat} {op : Op K V} {s : Pt K V}
    (hv : v i = some (.inl op, .inl (.pt s))) (hs : stores s = true) : M.typ ≠ .storing := by
  have hl : s ≠ .lock := by rintro rfl; simp [stores] at hs
  have hh : s.holds = true := by cases s <;> simp [stores] at hs <;> rfl
  have hc := h.calls i
  rw [hv] at hc
  obtain ⟨_, w, h1, h2, h3, _⟩ := (callRel_pt hl).1 hc
  have hw := h3 hh
  subst hw
  have hmu : M.g.mu = some i := ((h.mu i).1 (((h.ok w h1).inv.mu i op s h2).1 hh)).1
  have hcur := h.cur
  rw [hmu] at hcur
  simp only [Option.bind_some, hv, Cur] at hcur
  rcases hcur.1 with ⟨h, _⟩ | ⟨h, _⟩ <;> rw [h] <;> simp

section
variable {m : Conf (GW K V) (Op K V ⊕ ClearOp) (Res K V) (PtW K V)} {H : List (Ev (Op K V ⊕ ClearOp) (Res K V))}

/-- The loop is never reached. -/
theorem step_progS (h : progW.mach.Exec m H) {i : Nat} {o : Op K V ⊕ ClearOp} {s : PtW K V} (hp : m.pc i = .at o s) (c : Nat) :
    progS.step m.g i o s c = progW.step m.g i o s c := by
  obtain ⟨n, W, Hp, cl, hP, _, _⟩ := rel_exec h
  cases s with
  | pt t =>
    simp only [progS, progW]
    split
    · rename_i hs
      simp only [Bool.and_eq_true, decide_eq_true_eq] at hs
      cases o with
      | inl op => exact absurd hs.2 (no_spin hP (i := i) (op := op) (by simp [Conf.view, hp, Proc.view]) hs.1)
      | inr x => rfl
    · rfl
  | _ => rfl

theorem next_progS (h : progW.mach.Exec m H) (i c : Nat) : progW.mach.next m i c = progS.mach.next m i c := by
  simp only [Prog.mach]
  cases hp : m.pc i with
  | «at» o s =>
    dsimp only
    rw [step_progS h hp]
  | _ => rfl

/-- **C118.** Without new calls every execution of concurrent calls, `Clear`s included, ends, whatever the schedule. -/
theorem C118_ends (h : progW.mach.Exec m H) : Acc progW.Moves m := by
  obtain ⟨n, hn⟩ := progW.finite_calls h
  have ha : Acc progS.Moves m := sinksW.acc hn
  clear hn
  induction ha generalizing H with
  | intro m _ ih =>
    refine ⟨_, fun m' ⟨l, i, c, hm⟩ => ?_⟩
    have hstep := hm
    rw [next_progS h] at hm
    have hx : ∃ H', progW.mach.Exec m' H' := by
      cases l with
      | none => exact ⟨H, .tau h (.run _ _ _ _ _ hstep)⟩
      | some e => exact ⟨_, .ev h (.run _ _ _ _ _ hstep)⟩
    obtain ⟨H', hx⟩ := hx
    exact ih m' ⟨l, i, c, hm⟩ hx

example := demoTorn.imp fun _ h => C118_ends h

/-- **C118.** Where nothing can move any more, every call has returned or panicked. -/
theorem C118_returns (h : progW.mach.Exec m H) (hs : ∀ j c, progW.mach.next m j c = none) {i : Nat} {o : Op K V ⊕ ClearOp} (hi : Ev.inv i o ∈ H) :
    ∃ r, Ev.ret i r ∈ H := by
  obtain ⟨n, W, Hp, cl, hP, hH, _⟩ := rel_exec h
  refine Classical.byContradiction fun hr => ?_
  have go : ∀ j o s, m.view j = some (o, .inl s) → m.g.g.mu = none ∨ m.g.g.mu = some j → False := by
    intro j o s hv hm
    obtain ⟨⟨M', x⟩, hst⟩ := enabledW hP hv hm
    have hp : m.pc j = .at o s := by
      simp only [Conf.view] at hv
      cases hq : m.pc j <;> simp [hq, Proc.view] at hv
      rw [hv.1, hv.2]
    have hst : progW.step m.g j o s 0 = some (M', x) := hst
    have := hs j 0
    simp only [Prog.mach, hp, hst] at this
    cases x <;> simp at this
  rcases progW.pending h hi (fun r h => hr ⟨r, h⟩) with ⟨s, hp⟩ | ⟨r, hp⟩
  · cases hm : m.g.g.mu with
    | none => exact go i o s (by simp [Conf.view, hp, Proc.view]) (.inl hm)
    | some j =>
      obtain ⟨o', s', hv⟩ := hP.held j hm
      exact go j o' s' hv (.inr hm)
  · have := hs i 0
    simp [Prog.mach, hp] at this

example := demoTorn.elim fun _ h => C118_returns (i := 4) (o := .inl (.store 1 6)) h (progW.stuck_of_returned h (returned_spec rfl)) (by simp)

end
end Verif.XSync.MapWords
