import Verif.XSync.Spinlock
/-! # Property theorems for the spinlock (C28, C29) -/
namespace Verif.XSync.Spinlock
open Verif.Conc

/-- Session `i` is between its successful `Lock`/`TryLock` and its `Unlock`. -/
def Holds (m : Conf Bool Op Res Pt) (i : Nat) : Prop := ∃ op, m.pc i = .at op .critical

/-- Session `i` is about to make an attempt (a compare-and-swap). -/
def Attempts (m : Conf Bool Op Res Pt) (i : Nat) : Prop := (∃ b n a, m.pc i = .at .lock (.spin b n a)) ∨ m.pc i = .at .tryLock .try_

/-- User `i` is between its `Lock` and its `Unlock`. -/
def InCS (v : View Op Res Pt) (i : Nat) : Prop := ∃ op, v i = some (op, .inl .critical)

theorem holds_view {m : Conf Bool Op Res Pt} {i : Nat} : Holds m i ↔ InCS m.view i := by
  unfold Holds InCS Conf.view
  cases h : m.pc i <;> simp [Proc.view]

/-- How often a `Lock` yields after its `a`-th failed attempt: 1, 2, 4, 8, 16, 16, … times. -/
def pauses (a : Nat) : Nat := if a = 0 then 0 else min (2 ^ (a - 1)) 16

theorem pauses_next (a : Nat) (ha : 0 < a) : pauses (a + 1) = if pauses a < maxBackoff then pauses a <<< 1 else pauses a := by
  obtain ⟨a, rfl⟩ : ∃ b, a = b + 1 := ⟨a - 1, by omega⟩
  have e : ∀ b, pauses (b + 1) = min (2 ^ b) 16 := fun b => by simp [pauses]
  rw [e, e, maxBackoff, Nat.shiftLeft_eq, Nat.pow_succ]
  by_cases h : a < 4
  · have : a = 0 ∨ a = 1 ∨ a = 2 ∨ a = 3 := by omega
    rcases this with rfl | rfl | rfl | rfl <;> rfl
  · have : 2 ^ 4 ≤ 2 ^ a := Nat.pow_le_pow_right (by omega) (by omega)
    split <;> omega

/-- Proof only: part of an invariant or simulation; models no code. -/
structure Inv (g : Bool) (v : View Op Res Pt) : Prop where
  locked : g = true ↔ ∃ i, InCS v i
  only : ∀ i j, InCS v i → InCS v j → i = j
  backoff : ∀ i op b n a, v i = some (op, .inl (.spin b n a)) → b = pauses (a + 1) ∧ n = pauses a
  yields : ∀ i op b k n a, v i = some (op, .inl (.yield b k n a)) → 0 < a ∧ b = pauses a ∧ n + k = b

theorem incs_upd_other {v : View Op Res Pt} {i j : Nat} {x : Option (Op × (Pt ⊕ Res))} (hj : j ≠ i) : InCS (upd v i x) j ↔ InCS v j := by
  unfold InCS; rw [upd_ne _ _ hj]

theorem incs_upd_same {v : View Op Res Pt} {i : Nat} {op : Op} {y : Pt ⊕ Res} : InCS (upd v i (some (op, y))) i ↔ y = .inl .critical := by
  unfold InCS; simp

/-- Neither before nor after the step is `i` in the critical section. -/
theorem Inv.keep {g : Bool} {v : View Op Res Pt} (h : Inv g v) {i : Nat} {op : Op} {y : Pt ⊕ Res} (h1 : ¬ InCS v i) (h2 : y ≠ .inl .critical)
    (hb : ∀ b n a, y = .inl (.spin b n a) → b = pauses (a + 1) ∧ n = pauses a)
    (hy : ∀ b k n a, y = .inl (.yield b k n a) → 0 < a ∧ b = pauses a ∧ n + k = b) :
    Inv g (upd v i (some (op, y))) := by
  have hiff : ∀ j, InCS (upd v i (some (op, y))) j ↔ InCS v j := by
    intro j
    by_cases hj : j = i
    · subst hj; rw [incs_upd_same]; exact ⟨fun h' => absurd h' h2, fun h' => absurd h' h1⟩
    · exact incs_upd_other hj
  refine ⟨?_, ?_, ?_, ?_⟩
  · rw [h.locked]; simp only [hiff]
  · intro a b ha hb'; rw [hiff] at ha hb'; exact h.only a b ha hb'
  · intro j op' b n a hj
    by_cases hji : j = i
    · subst hji; simp only [upd_same, Option.some.injEq, Prod.mk.injEq] at hj; exact hb b n a hj.2
    · rw [upd_ne _ _ hji] at hj; exact h.backoff j op' b n a hj
  · intro j op' b k n a hj
    by_cases hji : j = i
    · subst hji; simp only [upd_same, Option.some.injEq, Prod.mk.injEq] at hj; exact hy b k n a hj.2
    · rw [upd_ne _ _ hji] at hj; exact h.yields j op' b k n a hj

/-- `i` enters a free critical section. -/
theorem Inv.enter {v : View Op Res Pt} (h : Inv false v) {i : Nat} {op : Op} : Inv true (upd v i (some (op, .inl .critical))) := by
  have hno : ∀ j, ¬ InCS v j := fun j hj => by have := h.locked.mpr ⟨j, hj⟩; simp at this
  refine ⟨⟨fun _ => ⟨i, incs_upd_same.mpr rfl⟩, fun _ => rfl⟩, ?_, ?_, ?_⟩
  · intro a b ha hb
    have : ∀ a, InCS (upd v i (some (op, .inl .critical))) a → a = i := by
      intro a ha
      by_cases hai : a = i
      · exact hai
      · rw [incs_upd_other hai] at ha; exact absurd ha (hno a)
    rw [this a ha, this b hb]
  · intro j op' b n a hj
    by_cases hji : j = i
    · subst hji; simp at hj
    · rw [upd_ne _ _ hji] at hj; exact h.backoff j op' b n a hj
  · intro j op' b k n a hj
    by_cases hji : j = i
    · subst hji; simp at hj
    · rw [upd_ne _ _ hji] at hj; exact h.yields j op' b k n a hj

theorem inv_exec {m : Conf Bool Op Res Pt} {H : List (Ev Op Res)} (h : prog.mach.Exec m H) : Inv m.g m.view := by
  refine prog.induct (fun g v _ => Inv g v) ?_ ?_ ?_ ?_ h
  · constructor <;> simp [prog, InCS]
  · intro g v H i op h hv
    have hn : ¬ InCS v i := by unfold InCS; rw [hv]; simp
    cases op with
    | lock => exact h.keep hn (by simp [prog]) (by simp [prog, pauses]) (by simp [prog])
    | tryLock => exact h.keep hn (by simp [prog]) (by simp [prog]) (by simp [prog])
  · intro g v H i op s c g' x h hv hs
    simp only [prog, step] at hs
    have hns : ∀ s, v i = some (op, .inl s) → s ≠ .critical → ¬ InCS v i := by
      intro s hs hne ⟨op', ho⟩
      rw [hs] at ho; simp at ho; exact hne ho.2
    cases s with
    | spin b n a =>
      simp only [Option.some.injEq, Prod.mk.injEq] at hs
      obtain ⟨rfl, rfl⟩ := hs
      cases g with
      | true => exact h.keep (hns _ hv (by simp)) (by simp [cas]) (by simp [cas]) (by have := h.backoff i op b n a hv; simp [cas]; rintro _ _ _ _ rfl rfl rfl rfl; exact ⟨by omega, this.1, by omega⟩)
      | false => exact h.enter
    | yield b k n a =>
      obtain ⟨h0, h1, h2⟩ := h.yields i op b k n a hv
      cases k with
      | zero =>
        simp only [Option.some.injEq, Prod.mk.injEq] at hs
        obtain ⟨rfl, rfl⟩ := hs
        refine h.keep (hns _ hv (by simp)) (by simp) ?_ (by simp)
        intro b' n' a' he
        simp only [Sum.inl.injEq, Pt.spin.injEq] at he
        obtain ⟨rfl, rfl, rfl⟩ := he
        exact ⟨by rw [pauses_next a h0, h1], by omega⟩
      | succ k =>
        simp only [Option.some.injEq, Prod.mk.injEq] at hs
        obtain ⟨rfl, rfl⟩ := hs
        refine h.keep (hns _ hv (by simp)) (by simp) (by simp) ?_
        intro b' k' n' a' he
        simp only [Sum.inl.injEq, Pt.yield.injEq] at he
        obtain ⟨rfl, rfl, rfl, rfl⟩ := he
        exact ⟨h0, h1, by omega⟩
    | try_ =>
      simp only [Option.some.injEq, Prod.mk.injEq] at hs
      obtain ⟨rfl, rfl⟩ := hs
      cases g with
      | true => exact h.keep (hns _ hv (by simp)) (by simp [cas]) (by simp [cas]) (by simp [cas])
      | false => exact h.enter
    | critical =>
      simp only [Option.some.injEq, Prod.mk.injEq] at hs
      obtain ⟨rfl, rfl⟩ := hs
      have hi : InCS v i := ⟨op, hv⟩
      have hiff : ∀ j, ¬ InCS (upd v i (some (op, .inr .released))) j := by
        intro j hj
        by_cases hji : j = i
        · subst hji; rw [incs_upd_same] at hj; simp at hj
        · rw [incs_upd_other hji] at hj; exact hji (h.only j i hj hi)
      refine ⟨by simp only [Bool.false_eq_true, false_iff]; rintro ⟨j, hj⟩; exact hiff j hj, fun a b ha _ => absurd ha (hiff a), ?_, ?_⟩
      · intro j op' b n a hj
        by_cases hji : j = i
        · subst hji; simp at hj
        · rw [upd_ne _ _ hji] at hj; exact h.backoff j op' b n a hj
      · intro j op' b k n a hj
        by_cases hji : j = i
        · subst hji; simp at hj
        · rw [upd_ne _ _ hji] at hj; exact h.yields j op' b k n a hj
  · intro g v H i op r h hv; exact h

/-- Two sessions contend: the second one fails once, yields, and acquires the lock after the first one's `Unlock`. -/
theorem demo : ∃ m, prog.mach.Exec m [.inv 1 .lock, .inv 2 .lock, .inv 3 .tryLock, .ret 3 .refused, .ret 1 .released] ∧ Holds m 2 :=
  Mach.exists_exec_state _ [.inv 1 .lock, .inv 2 .lock, .run 1, .run 2, .run 2, .inv 3 .tryLock, .run 3, .run 3, .run 2, .run 1, .run 1, .run 2] _ _
    (by exact And.intro rfl ⟨_, rfl⟩)


/-- While session 1 holds the lock, a `Lock` spins and a `TryLock` is about to try. -/
theorem demoHeld : ∃ m, prog.mach.Exec m [.inv 1 .lock, .inv 2 .lock, .inv 3 .tryLock] ∧ Holds m 1 ∧ m.pc 2 = .at .lock (.yield 1 1 0 1) ∧
    m.pc 3 = .at .tryLock .try_ :=
  Mach.exists_exec_state _ [.inv 1 .lock, .inv 2 .lock, .run 1, .run 2, .inv 3 .tryLock] _ _
    (by exact And.intro rfl (And.intro ⟨_, rfl⟩ (And.intro rfl rfl)))

/-- C28: in every reachable state at most one session holds the lock. -/
theorem C28_mutual_exclusion {m : Conf Bool Op Res Pt} {H : List (Ev Op Res)} (h : prog.mach.Exec m H) (i j : Nat)
    (hi : Holds m i) (hj : Holds m j) : i = j :=
  (inv_exec h).only i j (holds_view.mp hi) (holds_view.mp hj)

example := demo.elim fun _ h => C28_mutual_exclusion h.1 2 2 h.2 h.2

/-- C29: an attempt (of `TryLock`, or the next one of a spinning `Lock`) succeeds exactly if nobody holds the lock at
that instant. -/
theorem C29_attempt_exact {m m' : Conf Bool Op Res Pt} {H : List (Ev Op Res)} (h : prog.mach.Exec m H) (i c : Nat) (l : Option (Ev Op Res))
    (ha : Attempts m i) (hs : prog.mach.next m i c = some (l, m')) : Holds m' i ↔ ∀ j, ¬ Holds m j := by
  have hI := inv_exec h
  have hg : m.g = true ↔ ∃ j, Holds m j := by rw [hI.locked]; simp only [holds_view]
  rcases ha with ⟨b, n, a, hp⟩ | hp
  all_goals
    simp only [Prog.mach, hp, prog, step] at hs
    cases hm : m.g with
    | true =>
      obtain ⟨j, hj⟩ := hg.mp hm
      simp only [hm, cas, if_true, Bool.false_eq_true, if_false, Option.some.injEq, Prod.mk.injEq] at hs
      obtain ⟨_, rfl⟩ := hs
      simp only [Holds, upd_same]
      constructor
      · rintro ⟨op, ho⟩; simp at ho
      · intro h'; exact absurd hj (h' j)
    | false =>
      simp only [hm, cas, if_true, Bool.false_eq_true, if_false, Option.some.injEq, Prod.mk.injEq] at hs
      obtain ⟨_, rfl⟩ := hs
      refine ⟨fun _ j hj => ?_, fun _ => ⟨_, by simp; rfl⟩⟩
      have := hg.mpr ⟨j, hj⟩
      rw [hm] at this; simp at this

example : ∃ m, (∃ H, prog.mach.Exec m H) ∧ Attempts m 3 ∧ Holds m 1 := demoHeld.elim fun m h => ⟨m, ⟨_, h.1⟩, Or.inr h.2.2.2, h.2.1⟩

/-- C29: a `TryLock` whose attempt fails returns false. -/
theorem C29_tryLock_result {m : Conf Bool Op Res Pt} {H : List (Ev Op Res)} (h : prog.mach.Exec m H) (i : Nat)
    (hp : m.pc i = .at .tryLock .try_) (j : Nat) (hj : Holds m j) (c : Nat) :
    prog.mach.next m i c = some (none, ⟨m.g, upd m.pc i (.ret .tryLock .refused)⟩) := by
  have hg : m.g = true := (inv_exec h).locked.mpr ⟨j, holds_view.mp hj⟩
  simp [Prog.mach, hp, prog, step, cas, hg]

example := demoHeld.imp fun _ h => C29_tryLock_result h.1 3 h.2.2.2 1 h.2.1 0

/-- C29: after its `a`-th failed attempt a spinning `Lock` calls `runtime.Gosched` exactly `min (2 ^ (a - 1)) 16` times before the next one (`n`
counts the calls so far, `k` those to come), so at most 16 times; and a session that has not returned can always take a step. -/
theorem C29_backoff {m : Conf Bool Op Res Pt} {H : List (Ev Op Res)} (h : prog.mach.Exec m H) (i : Nat) :
    (∀ op b n a, m.pc i = .at op (.spin b n a) → n = if a = 0 then 0 else min (2 ^ (a - 1)) 16) ∧
    (∀ op b k n a, m.pc i = .at op (.yield b k n a) → 0 < a ∧ n + k = min (2 ^ (a - 1)) 16) ∧
    (∀ op s, m.pc i = .at op s → ∃ x, prog.mach.next m i 0 = some x) := by
  have hI := inv_exec h
  refine ⟨fun op b n a hp => ?_, fun op b k n a hp => ?_, fun op s hp => ?_⟩
  · exact (hI.backoff i op b n a (by simp [Conf.view, hp, Proc.view])).2
  · obtain ⟨h0, h1, h2⟩ := hI.yields i op b k n a (by simp [Conf.view, hp, Proc.view])
    refine ⟨h0, ?_⟩
    rw [h2, h1, pauses, if_neg (by omega)]
  · simp only [Prog.mach, hp, prog, step]
    cases s with
    | spin b n a => simp
    | yield b k n a => cases k <;> simp
    | critical => simp
    | try_ => cases m.g <;> simp [cas]

example := demoHeld.elim fun _ h => (C29_backoff h.1 2).2.1 _ _ _ _ _ h.2.2.1

end Verif.XSync.Spinlock
