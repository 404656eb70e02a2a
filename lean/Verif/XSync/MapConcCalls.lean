import Verif.XSync.MapConcLive
/-!
# `ComputeIfAbsent` and `ComputeIfPresent` call their function twice only if they are disturbed (C86)
-/
namespace Verif.XSync.MapConc
open Verif.Conc Verif.Go

variable {K V : Type}

/-- How often the function can have been called at a point if no other call has moved since the call began. -/
def calmMax : Pt K V → Nat
  | .start | .tryLoad _ _ | .call _ _ _ | .lock | .locked | .unexp _ | .build0 _ | .build _ _ | .buildE _ _ _ _ | .buildC _ _ _ _ | .amend _ | .addCall => 0
  | _ => 1

/-- If no other call has moved since the call `i` began, its compare-and-swap succeeds. -/
def calm (g : G K V) (i : Nat) : Pt K V ⊕ Res K V → Prop
  | .inl (.call _ e p) => g.calls i = 0 ∧ g.p e = p
  | .inl (.cas _ e p _) => g.calls i ≤ 1 ∧ g.p e = p
  | .inl (.reload _ _ _) => False
  | .inl s => g.calls i ≤ calmMax s
  | .inr _ => g.calls i ≤ 1

variable [DecidableEq K] [DecidableEq V]

theorem calm_after {g : G K V} {i : Nat} {m : Mode} {r : Res K V} (h : g.calls i ≤ 1) : calm g i (after m r) := by
  cases m <;> exact h

theorem calm_decide {g : G K V} {i : Nat} {op : Op K V} {m : Mode} {e : Nat} {D : Dec K V} (h : g.calls i = 0) : calm g i (decide' op m e (g.p e) D) := by
  have h1 : g.calls i ≤ 1 := by omega
  cases D with
  | fail => cases m with
    | free => simp [decide', calm, calmMax, h]
    | inRead => exact calm_after (m := .inRead) h1
    | inDirty => exact calm_after (m := .inDirty) h1
  | done r => exact calm_after h1
  | cas x => exact ⟨h1, rfl⟩
  | call => exact ⟨h, rfl⟩

theorem calm_start {g : G K V} {i : Nat} (op : Op K V) (h : g.calls i = 0) : calm g i (startStep g op) := by
  unfold startStep
  split <;> (repeat' split) <;> simp [calm, calmMax, h]

theorem calm_locked {g : G K V} {i : Nat} (op : Op K V) (h : g.calls i = 0) : calm (lockedStep g op).1 i (.inl (lockedStep g op).2) := by
  unfold lockedStep
  split <;> (repeat' split) <;> simp [calm, calmMax, h]

theorem calm_step {g g' : G K V} {i : Nat} {op : Op K V} {s : Pt K V} {c : Nat} {x : Pt K V ⊕ Res K V} (h : step g i op s c = some (g', x))
    (hq : calm g i (.inl s)) : calm g' i x := by
  have hd : ∀ (g g' : G K V) k e, g.setDirty k e = some g' → g'.calls = g.calls := by
    intro g g' k e h
    simp only [G.setDirty] at h
    split at h <;> simp only [Option.some.injEq, reduceCtorEq] at h
    subst h; rfl
  cases s with
  | start =>
    simp only [step, Option.some.injEq, Prod.mk.injEq] at h
    obtain ⟨rfl, rfl⟩ := h
    exact calm_start op (by simpa [calm, calmMax] using hq)
  | tryLoad m e =>
    simp only [step, Option.some.injEq, Prod.mk.injEq] at h
    obtain ⟨rfl, rfl⟩ := h
    exact calm_decide (by simpa [calm, calmMax] using hq)
  | call m e p =>
    simp only [step] at h
    split at h <;> simp only [Option.some.injEq, Prod.mk.injEq, reduceCtorEq] at h
    obtain ⟨rfl, rfl⟩ := h
    exact ⟨by simp [hq.1], hq.2⟩
  | cas m e p x =>
    simp only [step, hq.2, if_true, Option.some.injEq, Prod.mk.injEq] at h
    obtain ⟨rfl, rfl⟩ := h
    exact calm_after hq.1
  | reload m e x => exact hq.elim
  | lock =>
    simp only [step] at h
    split at h <;> simp only [Option.some.injEq, Prod.mk.injEq, reduceCtorEq] at h
    obtain ⟨rfl, rfl⟩ := h
    exact hq
  | locked =>
    simp only [step, Option.some.injEq, Prod.mk.injEq] at h
    obtain ⟨rfl, rfl⟩ := h
    exact calm_locked op (by simpa [calm, calmMax] using hq)
  | unexp e =>
    have h0 : g.calls i = 0 := by simpa [calm, calmMax] using hq
    have ha : ∀ g1 : G K V, g1.calls = g.calls → calm g1 i (.inl (afterUnexp op e)) := by
      intro g1 h1
      cases op <;> simp [afterUnexp, calm, calmMax, h1, h0]
    simp only [step] at h
    split at h
    · split at h
      · simp at h
      · split at h <;> simp only [Option.some.injEq, Prod.mk.injEq] at h <;> obtain ⟨rfl, rfl⟩ := h
        · simp [calm, G.setP, h0]
        · rename_i g1 h1
          exact ha _ ((hd _ _ _ _ h1).trans rfl)
    · simp only [Option.some.injEq, Prod.mk.injEq] at h
      obtain ⟨rfl, rfl⟩ := h
      exact ha _ rfl
  | storeLocked e =>
    simp only [step] at h
    split at h <;> simp only [Option.some.injEq, Prod.mk.injEq, reduceCtorEq] at h
    obtain ⟨rfl, rfl⟩ := h
    exact hq
  | miss k =>
    simp only [step, Option.some.injEq, Prod.mk.injEq] at h
    obtain ⟨rfl, rfl⟩ := h
    split <;> exact hq
  | promote k =>
    simp only [step, Option.some.injEq, Prod.mk.injEq] at h
    obtain ⟨rfl, rfl⟩ := h
    exact hq
  | rpromote =>
    simp only [step, Option.some.injEq, Prod.mk.injEq] at h
    obtain ⟨rfl, rfl⟩ := h
    exact hq
  | build0 rm =>
    simp only [step] at h
    split at h <;> simp only [Option.some.injEq, Prod.mk.injEq] at h <;> obtain ⟨rfl, rfl⟩ := h <;> exact hq
  | build rm todo =>
    simp only [step] at h
    split at h
    · simp only [Option.some.injEq, Prod.mk.injEq] at h
      obtain ⟨rfl, rfl⟩ := h
      exact hq
    · split at h <;> simp only [Option.some.injEq, Prod.mk.injEq, reduceCtorEq] at h
      obtain ⟨rfl, rfl⟩ := h
      exact hq
  | buildE rm rest k e =>
    simp only [step] at h
    split at h
    · simp only [Option.some.injEq, Prod.mk.injEq] at h
      obtain ⟨rfl, rfl⟩ := h
      exact hq
    · simp only [Option.some.injEq, Prod.mk.injEq] at h
      obtain ⟨rfl, rfl⟩ := h
      exact hq
    · split at h <;> simp only [Option.some.injEq, Prod.mk.injEq] at h <;> obtain ⟨rfl, rfl⟩ := h
      · have h0 : g.calls i = 0 := by simpa [calm, calmMax] using hq
        simp [calm, h0]
      · rename_i g1 h1
        simp only [calm, calmMax] at hq ⊢
        rw [hd _ _ _ _ h1]
        exact hq
  | buildC rm rest k e =>
    simp only [step] at h
    split at h <;> simp only [Option.some.injEq, Prod.mk.injEq] at h <;> obtain ⟨rfl, rfl⟩ := h <;> exact hq
  | amend rm =>
    have h0 : g.calls i = 0 := by simpa [calm, calmMax] using hq
    simp only [step] at h
    split at h <;> simp only [Option.some.injEq, Prod.mk.injEq, reduceCtorEq] at h
    rename_i s1 hs
    obtain ⟨rfl, rfl⟩ := h
    cases op <;> simp only [afterAmend, Option.some.injEq, reduceCtorEq] at hs <;> subst hs <;> simp [calm, calmMax, h0]
  | addCall =>
    have h0 : g.calls i = 0 := by simpa [calm, calmMax] using hq
    simp only [step] at h
    split at h <;> simp only [Option.some.injEq, Prod.mk.injEq, reduceCtorEq] at h
    obtain ⟨rfl, rfl⟩ := h
    simp [calm, calmMax, h0]
  | add v =>
    simp only [step] at h
    split at h
    · simp at h
    · split at h <;> simp only [Option.some.injEq, Prod.mk.injEq] at h <;> obtain ⟨rfl, rfl⟩ := h
      · exact hq
      · rename_i g1 h1
        simp only [calm, calmMax] at hq ⊢
        rw [hd _ _ _ _ h1]
        exact hq
  | unlock k =>
    simp only [step, Option.some.injEq, Prod.mk.injEq] at h
    obtain ⟨rfl, rfl⟩ := h
    cases k <;> exact hq
  | eload e =>
    simp only [step, Option.some.injEq, Prod.mk.injEq] at h
    obtain ⟨rfl, rfl⟩ := h
    exact hq
  | del e =>
    simp only [step] at h
    split at h <;> simp only [Option.some.injEq, Prod.mk.injEq] at h <;> obtain ⟨rfl, rfl⟩ := h <;> exact hq
  | delCas e p =>
    simp only [step] at h
    split at h <;> simp only [Option.some.injEq, Prod.mk.injEq] at h <;> obtain ⟨rfl, rfl⟩ := h <;> exact hq
  | iter todo vis =>
    simp only [step] at h
    split at h
    · simp only [Option.some.injEq, Prod.mk.injEq] at h
      obtain ⟨rfl, rfl⟩ := h
      exact hq
    · split at h
      · simp at h
      · split at h <;> simp only [Option.some.injEq, Prod.mk.injEq] at h <;> obtain ⟨rfl, rfl⟩ := h <;> exact hq
  | icall todo vis k w =>
    simp only [step] at h
    split at h <;> simp only [Option.some.injEq, Prod.mk.injEq, reduceCtorEq] at h
    obtain ⟨rfl, rfl⟩ := h
    split <;> exact hq

/-- The calls `i` and `j` overlap: neither has returned before the other began. -/
def Overlap (H : List (Ev (Op K V) (Res K V))) (i j : Nat) : Prop :=
  (∃ op, Ev.inv i op ∈ H) ∧ (∃ op, Ev.inv j op ∈ H) ∧ ¬ Before H i j ∧ ¬ Before H j i

theorem calm_inv {m : Conf (G K V) (Op K V) (Res K V) (Pt K V)} {H : List (Ev (Op K V) (Res K V))} (h : prog.mach.Exec m H) :
    ∀ i op x, m.view i = some (op, x) → (∃ j, j ≠ i ∧ Overlap H i j) ∨ calm m.g i x := by
  have key := prog.induct (fun (g : G K V) v H =>
      (∀ i, (v i = none → g.calls i = 0) ∧ ∀ op x, v i = some (op, x) → g.calls i ≤ callMaxX x ∧ callMinX op x ≤ g.calls i) ∧
      (∀ i op, Ev.inv i op ∈ H ↔ ∃ x, v i = some (op, x)) ∧ (∀ i r, Ev.ret i r ∈ H → ∃ op, v i = some (op, .inr r)) ∧
      ∀ i op x, v i = some (op, x) → (∃ j, j ≠ i ∧ Overlap H i j) ∨ calm g i x) ?_ ?_ ?_ ?_ h
  · exact key.2.2.2
  · refine ⟨fun i => ⟨fun _ => rfl, by simp⟩, by simp, by simp, by simp⟩
  · rintro g v H i op ⟨hI, h1, h2, hJ⟩ hv
    refine ⟨?_, ?_, ?_, ?_⟩
    · intro j
      by_cases hj : j = i
      · subst hj
        have := (hI j).1 hv
        refine ⟨by simp, ?_⟩
        intro op' x hx
        simp only [upd_same, Option.some.injEq, Prod.mk.injEq] at hx
        obtain ⟨rfl, rfl⟩ := hx
        simp [callMaxX, callMinX, prog, callMax, callMin, this]
      · rw [upd_ne _ _ hj]; exact hI j
    · intro j op'
      simp only [List.mem_append, List.mem_singleton, Ev.inv.injEq, h1]
      by_cases hj : j = i
      · subst hj; simp [hv]; exact ⟨fun e => e.symm, fun e => e.symm⟩
      · rw [upd_ne _ _ hj]; simp [hj]
    · intro j r hr
      simp only [List.mem_append, List.mem_singleton, reduceCtorEq, or_false] at hr
      obtain ⟨op', e⟩ := h2 j r hr
      have hj : j ≠ i := by rintro rfl; rw [hv] at e; cases e
      exact ⟨op', by rw [upd_ne _ _ hj]; exact e⟩
    · intro j op' x hx
      by_cases hj : j = i
      · subst hj
        simp only [upd_same, Option.some.injEq, Prod.mk.injEq] at hx
        obtain ⟨rfl, rfl⟩ := hx
        right
        simp [prog, calm, calmMax, (hI j).1 hv]
      · rw [upd_ne _ _ hj] at hx
        rcases hJ j op' x hx with ⟨q, hq, ⟨o1, e1⟩, ⟨o2, e2⟩, e3, e4⟩ | hq
        · have hqi : q ≠ i := by
            rintro rfl
            obtain ⟨x', hx'⟩ := (h1 q o2).mp e2
            rw [hv] at hx'; cases hx'
          refine .inl ⟨q, hq, ⟨o1, List.mem_append_left _ e1⟩, ⟨o2, List.mem_append_left _ e2⟩, fun hb => ?_, fun hb => ?_⟩
          · rcases before_append hb with hb | ⟨o, r, he, _⟩
            · exact e3 hb
            · cases he; exact hqi rfl
          · rcases before_append hb with hb | ⟨o, r, he, _⟩
            · exact e4 hb
            · cases he; exact hj rfl
        · exact .inr hq
  · rintro g v H i op s c g' x ⟨hI, h1, h2, hJ⟩ hv hs
    have hs' : step g i op s c = some (g', x) := hs
    have hi := (hI i).2 _ _ hv
    obtain ⟨h3, h4⟩ := calls_step hs' hi.1 hi.2
    refine ⟨?_, ?_, ?_, ?_⟩
    · intro j
      by_cases hj : j = i
      · subst hj
        refine ⟨by simp, ?_⟩
        intro op' x' hx
        simp only [upd_same, Option.some.injEq, Prod.mk.injEq] at hx
        obtain ⟨rfl, rfl⟩ := hx
        exact h3
      · rw [upd_ne _ _ hj, h4 j hj]; exact hI j
    · intro j op'
      rw [h1]
      by_cases hj : j = i
      · subst hj; simp [hv]
      · rw [upd_ne _ _ hj]
    · intro j r hr
      obtain ⟨op', e⟩ := h2 j r hr
      have hj : j ≠ i := by rintro rfl; rw [hv] at e; cases e
      exact ⟨op', by rw [upd_ne _ _ hj]; exact e⟩
    · intro j op' x' hx
      by_cases hj : j = i
      · subst hj
        simp only [upd_same, Option.some.injEq, Prod.mk.injEq] at hx
        obtain ⟨rfl, rfl⟩ := hx
        exact (hJ j _ _ hv).imp id (calm_step hs')
      · rw [upd_ne _ _ hj] at hx
        rcases hJ j op' x' hx with hm | hq
        · exact .inl hm
        · cases x' with
          | inr r => right; simp only [calm] at hq ⊢; rw [h4 j hj]; exact hq
          | inl s' =>
            left
            refine ⟨i, Ne.symm hj, ⟨op', (h1 j op').mpr ⟨_, hx⟩⟩, ⟨op, (h1 i op).mpr ⟨_, hv⟩⟩, fun hb => ?_, fun hb => ?_⟩
            · obtain ⟨⟨r, hr⟩, _⟩ := before_mem hb
              obtain ⟨o, e⟩ := h2 j r hr
              rw [hx] at e; cases e
            · obtain ⟨⟨r, hr⟩, _⟩ := before_mem hb
              obtain ⟨o, e⟩ := h2 i r hr
              rw [hv] at e; cases e
  · rintro g v H i op r ⟨hI, h1, h2, hJ⟩ hv
    refine ⟨hI, by simpa using h1, ?_, ?_⟩
    · intro j r' hr
      simp only [List.mem_append, List.mem_singleton, Ev.ret.injEq] at hr
      rcases hr with hr | ⟨rfl, rfl⟩
      · exact h2 j r' hr
      · exact ⟨op, hv⟩
    · intro j op' x hx
      rcases hJ j op' x hx with ⟨q, hq, ⟨o1, e1⟩, ⟨o2, e2⟩, e3, e4⟩ | hq
      · refine .inl ⟨q, hq, ⟨o1, List.mem_append_left _ e1⟩, ⟨o2, List.mem_append_left _ e2⟩, fun hb => ?_, fun hb => ?_⟩
        · rcases before_append hb with hb | ⟨o, r, he, _⟩
          · exact e3 hb
          · cases he
        · rcases before_append hb with hb | ⟨o, r, he, _⟩
          · exact e4 hb
          · cases he
      · exact .inr hq

/-- **C86 (partial).** A call of `ComputeIfAbsent` or `ComputeIfPresent` that calls its function more than once overlaps another call. (Missing: at
most once in any case, which is false, see `C86_called_twice_refuted`.) -/
theorem C86_alone_partial {m : Conf (G K V) (Op K V) (Res K V) (Pt K V)} {H : List (Ev (Op K V) (Res K V))} (h : prog.mach.Exec m H) (i : Nat)
    (hi : ∀ j, j ≠ i → (∃ op, Ev.inv j op ∈ H) → Before H i j ∨ Before H j i) : m.g.calls i ≤ 1 := by
  cases hv : m.view i with
  | none => rw [(calls_inv h i).1 hv]; omega
  | some y =>
    obtain ⟨op, x⟩ := y
    rcases calm_inv h i op x hv with ⟨j, hj, _, h2, h3, h4⟩ | hq
    · rcases hi j hj h2 with hb | hb
      · exact absurd hb h3
      · exact absurd hb h4
    · cases x with
      | inr r => exact hq
      | inl s => cases s <;> simp_all [calm, calmMax]

/-- Calls one after the other: the `ComputeIfPresent` calls its function exactly once. -/
example : ∃ m, (prog (K := Nat) (V := Nat)).mach.Exec m
    [.inv 1 (.store 0 5), .ret 1 .unit, .inv 2 (.computeIfPresent 0 fun _ v _ => v + 1), .ret 2 (.present (some (5, 6)))] ∧ m.g.calls 2 = 1 := by
  obtain ⟨m, h⟩ := Mach.exists_exec (prog (K := Nat) (V := Nat)).mach ([.inv 1 (.store 0 5)] ++ runs 9 1 ++
    [.inv 2 (.computeIfPresent 0 fun _ v _ => v + 1)] ++ runs 10 2)
    [.inv 1 (.store 0 5), .ret 1 .unit, .inv 2 (.computeIfPresent 0 fun _ v _ => v + 1), .ret 2 (.present (some (5, 6)))] rfl
  refine ⟨m, h, Nat.le_antisymm (C86_alone_partial h 2 ?_) ((C86_calls_partial h 2).2.2 0 (fun _ v _ => v + 1) (5, 6) (by simp) (by simp))⟩
  rintro j hj ⟨op, ho⟩
  simp at ho
  rcases ho with ⟨rfl, _⟩ | ⟨rfl, _⟩
  · exact .inr ⟨[.inv 1 (.store 0 5), .ret 1 .unit], _, .unit, _, rfl, by simp, List.mem_cons_self⟩
  · exact absurd rfl hj

end Verif.XSync.MapConc
