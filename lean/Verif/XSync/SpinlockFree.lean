import Verif.XSync.Spinlock
import Verif.Conc.Obs
import Mathlib.Data.List.Perm.Subperm
/-!
# A Spinlock whose methods are called by anybody in any order

`Spinlock.lean` has sessions in which `Unlock` is called only by the holder of the lock. Here `Lock`, `TryLock` and `Unlock` (spinlock.go:32-53)
are calls of their own: goroutines can hand the lock over, unlock it twice, or unlock it without having it. The code knows no owner.
-/
namespace Verif.XSync.SpinlockFree
open Verif.Conc Verif.XSync.Spinlock

/-- The methods: spinlock.go:32, 46, 51. -/
inductive Op where
  | lock
  | tryLock
  | unlock
  deriving DecidableEq

/-- What the methods return. -/
inductive Res where
  /-- `Lock` has returned, or `TryLock` has returned true -/
  | locked
  /-- `TryLock` has returned false -/
  | refused
  /-- `Unlock` has returned -/
  | unlocked
  deriving DecidableEq

/-- Local points. -/
inductive Pt where
  /-- spinlock.go:34 `for !lock.TryLock()` with the current `backoff` -/
  | spin (backoff : Nat)
  /-- spinlock.go:36-38 the inner loop: `k` calls of `runtime.Gosched` left -/
  | yield (backoff k : Nat)
  /-- spinlock.go:46-48 a single `TryLock` -/
  | try_
  /-- spinlock.go:51-53 -/
  | store
  deriving DecidableEq

/-- spinlock.go:32-43 `Lock`, 46-48 `TryLock`, 51-53 `Unlock`; `g` is the lock word. -/
def step (g : Bool) (s : Pt) : Bool × (Pt ⊕ Res) :=
  match s with
  | .spin b => ((cas g).1, if (cas g).2 then .inr .locked else .inl (.yield b b))
  | .yield b 0 => (g, .inl (.spin (if b < maxBackoff then b <<< 1 else b)))
  | .yield b (k + 1) => (g, .inl (.yield b k))
  | .try_ => ((cas g).1, .inr (if (cas g).2 then .locked else .refused))
  | .store => (false, .inr .unlocked)

/-- All interleavings of calls of the three methods. -/
def prog : Prog Bool Op Res Pt where
  init := false
  begin op := match op with
    | .lock => .spin 1
    | .tryLock => .try_
    | .unlock => .store
  step g _ _ s _ := some (step g s)

/-! ## Specification -/

/-- A flag. `Lock` returns only when it is down, and raises it; `TryLock` raises it and says whether it was down; `Unlock` lowers it. -/
def flag : Spec Bool Op Res where
  init := false
  step s op r s' := match op with
    | .lock => s = false ∧ r = .locked ∧ s' = true
    | .tryLock => r = (if s then .refused else .locked) ∧ s' = true
    | .unlock => r = .unlocked ∧ s' = false

/-! ## Proofs -/

/-- Proof only: the points of a call of `op`. -/
def fits : Op → Pt → Bool
  | .lock, .spin _ | .lock, .yield _ _ | .tryLock, .try_ | .unlock, .store => true
  | _, _ => false

/-- Proof only: simulation by the flag. -/
structure Sim (g : Bool) (v : View Op Res Pt) (gh : Ghost Bool Op Res) : Prop where
  cur : gh.cur = g
  at_ : ∀ i op s, v i = some (op, .inl s) → gh.st i = .invoked op ∧ fits op s = true
  ret : ∀ i op r, v i = some (op, .inr r) → gh.st i = .committed op r ∨ gh.st i = .done

theorem simulates {m : Conf Bool Op Res Pt} {H : List (Ev Op Res)} (h : prog.mach.Exec m H) :
    ∃ gh, GReach flag gh ∧ gh.hist = H ∧ Sim m.g m.view gh := by
  refine prog.simulate flag Sim ⟨rfl, by simp, by simp⟩ ?_ ?_ ?_ h
  · intro g v gh i op _ hI hv _
    refine ⟨hI.cur, fun j op' s hj => ?_, fun j op' r hj => ?_⟩
    · by_cases hji : j = i
      · subst hji
        simp only [upd_same, Option.some.injEq, Prod.mk.injEq, Sum.inl.injEq] at hj
        obtain ⟨rfl, rfl⟩ := hj
        exact ⟨by simp [Ghost.invoke], by cases op <;> rfl⟩
      · rw [upd_ne _ _ hji] at hj
        simpa only [Ghost.invoke, upd_ne _ _ hji] using hI.at_ j op' s hj
    · by_cases hji : j = i
      · subst hji; simp at hj
      · rw [upd_ne _ _ hji] at hj
        simpa only [Ghost.invoke, upd_ne _ _ hji] using hI.ret j op' r hj
  · intro g v gh i op s c g' x _ hI hv hs
    simp only [prog, Option.some.injEq] at hs
    obtain ⟨hst, hf⟩ := hI.at_ i op s hv
    have keep : ∀ s', g' = g → x = .inl s' → fits op s' = true → Sim g' (upd v i (some (op, x))) gh := by
      rintro s' rfl rfl hf'
      refine ⟨hI.cur, fun j op' s hj => ?_, fun j op' r hj => ?_⟩
      · by_cases hji : j = i
        · subst hji
          simp only [upd_same, Option.some.injEq, Prod.mk.injEq, Sum.inl.injEq] at hj
          obtain ⟨rfl, rfl⟩ := hj
          exact ⟨hst, hf'⟩
        · rw [upd_ne _ _ hji] at hj; exact hI.at_ j op' s hj
      · by_cases hji : j = i
        · subst hji; simp at hj
        · rw [upd_ne _ _ hji] at hj; exact hI.ret j op' r hj
    have com : ∀ r, x = .inr r → Sim g' (upd v i (some (op, x))) (gh.commit i op r g') := by
      rintro r rfl
      refine ⟨by simp [Ghost.commit, Ghost.cur], fun j op' s hj => ?_, fun j op' r' hj => ?_⟩
      · by_cases hji : j = i
        · subst hji; simp at hj
        · rw [upd_ne _ _ hji] at hj
          simpa only [Ghost.commit, upd_ne _ _ hji] using hI.at_ j op' s hj
      · by_cases hji : j = i
        · subst hji
          simp only [upd_same, Option.some.injEq, Prod.mk.injEq, Sum.inr.injEq] at hj
          obtain ⟨rfl, rfl⟩ := hj
          left; simp [Ghost.commit]
        · rw [upd_ne _ _ hji] at hj
          simpa only [Ghost.commit, upd_ne _ _ hji] using hI.ret j op' r' hj
    have hc := hI.cur
    cases s with
    | spin b =>
      cases op <;> simp [fits] at hf
      cases g with
      | true =>
        simp only [step, cas, if_true, Bool.false_eq_true, if_false, Prod.mk.injEq] at hs
        exact .inl (keep _ hs.1.symm hs.2.symm rfl)
      | false =>
        simp only [step, cas, if_true, Bool.false_eq_true, if_false, Prod.mk.injEq] at hs
        exact .inr ⟨_, _, hst, ⟨hc, rfl, hs.1.symm⟩, com _ hs.2.symm⟩
    | yield b k =>
      cases op <;> simp [fits] at hf
      cases k with
      | zero =>
        simp only [step, Prod.mk.injEq] at hs
        exact .inl (keep _ hs.1.symm hs.2.symm rfl)
      | succ k =>
        simp only [step, Prod.mk.injEq] at hs
        exact .inl (keep _ hs.1.symm hs.2.symm rfl)
    | try_ =>
      cases op <;> simp [fits] at hf
      simp only [step, Prod.mk.injEq] at hs
      refine .inr ⟨_, _, hst, ⟨?_, ?_⟩, com _ hs.2.symm⟩
      · rw [hc]; cases g <;> simp [cas]
      · rw [← hs.1]; cases g <;> rfl
    | store =>
      cases op <;> simp [fits] at hf
      simp only [step, Prod.mk.injEq] at hs
      exact .inr ⟨_, _, hst, ⟨rfl, hs.1.symm⟩, com _ hs.2.symm⟩
  · intro g v gh i op r _ hI hv hd
    rcases hI.ret i op r hv with h' | h'
    · refine .inl ⟨h', hI.cur, fun j op' s hj => ?_, fun j op' r' hj => ?_⟩
      · have hji : j ≠ i := by rintro rfl; rw [hv] at hj; simp at hj
        simpa only [Ghost.retC, upd_ne _ _ hji] using hI.at_ j op' s hj
      · by_cases hji : j = i
        · subst hji; right; simp [Ghost.retC]
        · simpa only [Ghost.retC, upd_ne _ _ hji] using hI.ret j op' r' hj
    · exact absurd h' hd

/-- Goroutine 1 locks; 2 spins; 3 is refused; 4 unlocks what 1 has locked; 2 gets the lock. -/
theorem demo : ∃ m, prog.mach.Exec m [.inv 1 .lock, .ret 1 .locked, .inv 2 .lock, .inv 3 .tryLock, .ret 3 .refused, .inv 4 .unlock,
    .ret 4 .unlocked, .ret 2 .locked] ∧ m.g = true :=
  Mach.exists_exec_state _ [.inv 1 .lock, .run 1, .run 1, .inv 2 .lock, .run 2, .inv 3 .tryLock, .run 3, .run 3, .inv 4 .unlock, .run 4, .run 4,
    .run 2, .run 2, .run 2, .run 2] _ _ (by exact And.intro rfl rfl)

/-- **C138.** Whoever calls what and when, every history is linearizable to a flag. -/
theorem C138_linearizable {m : Conf Bool Op Res Pt} {H : List (Ev Op Res)} (h : prog.mach.Exec m H) : Linearizable flag H := by
  obtain ⟨gh, h1, rfl, _⟩ := simulates h
  exact h1.linearizable

example := demo.elim fun _ h => C138_linearizable h.1

/-- The calls of `L` that got the lock. -/
def acquired (x : Nat × Op × Res) : Bool := x.2.2 = .locked
/-- The calls of `L` that are `Unlock`s. -/
def unlocks (x : Nat × Op × Res) : Bool := x.2.1 = .unlock

theorem runs_count {s s' : Bool} {L : List (Nat × Op × Res)} (h : Runs flag s L s') :
    (L.filter acquired).length + s.toNat ≤ (L.filter unlocks).length + s'.toNat := by
  induction h with
  | nil s => simp
  | @cons s s' s'' i op r l h1 _ ih =>
    cases op with
    | lock =>
      obtain ⟨rfl, rfl, rfl⟩ := h1
      simp [acquired, unlocks] at ih ⊢; omega
    | tryLock =>
      obtain ⟨rfl, rfl⟩ := h1
      cases s <;> simp [acquired, unlocks] at ih ⊢ <;> omega
    | unlock =>
      obtain ⟨rfl, rfl⟩ := h1
      cases s <;> simp [acquired, unlocks] at ih ⊢ <;> omega

/-- **C138.** However the lock is misused, it has been acquired at most once more than `Unlock` has been called: for any calls `A` of `Lock` or `TryLock`
that have returned with the lock there are as many calls `B` of `Unlock`, up to one. (The prefixes of a history are histories too, so that this is so at
every moment.) -/
theorem C138_one_per_unlock {m : Conf Bool Op Res Pt} {H : List (Ev Op Res)} (h : prog.mach.Exec m H) (A : List Nat) (hA : A.Nodup)
    (hr : ∀ i ∈ A, Ev.ret i .locked ∈ H) : ∃ B : List Nat, B.Nodup ∧ (∀ i ∈ B, Ev.inv i .unlock ∈ H) ∧ A.length ≤ B.length + 1 := by
  obtain ⟨L, hn, hi, hret, ⟨s, hs⟩, _⟩ := C138_linearizable h
  refine ⟨(L.filter unlocks).map (·.1), hn.sublist ((List.filter_sublist).map _), ?_, ?_⟩
  · intro i hi'
    obtain ⟨⟨j, op, r⟩, hx, rfl⟩ := List.mem_map.mp hi'
    obtain ⟨h1, h2⟩ := List.mem_filter.mp hx
    simp only [unlocks, decide_eq_true_eq] at h2
    subst h2
    exact hi _ h1
  · have hsub : A ⊆ (L.filter acquired).map (·.1) := by
      intro i hi'
      obtain ⟨op, ho⟩ := hret i _ (hr i hi')
      exact List.mem_map.mpr ⟨(i, op, .locked), List.mem_filter.mpr ⟨ho, by simp [acquired]⟩, rfl⟩
    have h1 := (hA.subperm hsub).length_le
    have h2 := runs_count hs
    simp only [List.length_map] at h1 ⊢
    have : s.toNat ≤ 1 := Bool.toNat_le s
    simp only [flag, Bool.toNat_false] at h2
    omega

example := demo.elim fun _ h => C138_one_per_unlock h.1 [1, 2] (by decide) (by simp)

/-- **C138, refuted.** The lock does not know its holder (`who k` is the goroutine that makes the call `k`): `Unlock` by a goroutine that does not have it
lets another one in, so that two goroutines have the lock although neither of them has called `Unlock`. -/
theorem C138_owner_refuted : ¬ ∀ (m : Conf Bool Op Res Pt) (H : List (Ev Op Res)) (who : Nat → Nat), prog.mach.Exec m H → ∀ i j, Ev.ret i .locked ∈ H →
    Ev.ret j .locked ∈ H → (∀ k, Ev.inv k .unlock ∈ H → who k ≠ who i ∧ who k ≠ who j) → who i = who j := by
  intro hall
  obtain ⟨m, h, _⟩ := demo
  have := hall m _ id h 1 2 (by simp) (by simp) (by simp)
  simp at this

/-- The call `i` runs alone until it returns `r`. -/
inductive Alone (i : Nat) (r : Res) : Conf Bool Op Res Pt → Conf Bool Op Res Pt → Prop where
  | last {m m' : Conf Bool Op Res Pt} {c : Nat} : prog.mach.next m i c = some (some (.ret i r), m') → Alone i r m m'
  | step {m m' m'' : Conf Bool Op Res Pt} {c : Nat} : prog.mach.next m i c = some (none, m') → Alone i r m' m'' → Alone i r m m''

theorem alone_ret {m : Conf Bool Op Res Pt} {i : Nat} {op : Op} {r : Res} (h : m.pc i = .ret op r) : ∃ m', Alone i r m m' ∧ m'.g = m.g ∧ ∀ j, j ≠ i → m'.pc j = m.pc j :=
  ⟨⟨m.g, upd m.pc i (.done op r)⟩, .last (c := 0) (by simp only [Prog.mach, h]), rfl, fun j hj => by simp [upd_ne _ _ hj]⟩

/-- **C138.** `TryLock` and `Unlock` never wait: in every reachable state such a call can run to its end alone. `TryLock` returns true exactly if the word is
free then; `Unlock` leaves it free, whoever had the lock. -/
theorem C138_no_waiting {m : Conf Bool Op Res Pt} {H : List (Ev Op Res)} (h : prog.mach.Exec m H) (i : Nat) (s : Pt) :
    (m.pc i = .at .tryLock s → ∃ m', Alone i (if m.g then .refused else .locked) m m' ∧ m'.g = true) ∧
    (m.pc i = .at .unlock s → ∃ m', Alone i .unlocked m m' ∧ m'.g = false) := by
  obtain ⟨gh, _, _, hI⟩ := simulates h
  constructor
  · intro hp
    have hf := (hI.at_ i .tryLock s (by simp [Conf.view, hp, Proc.view])).2
    cases s <;> simp [fits] at hf
    obtain ⟨m', h1, h2, _⟩ := alone_ret (m := ⟨true, upd m.pc i (.ret .tryLock (if m.g then .refused else .locked))⟩) (i := i) (op := .tryLock)
      (r := if m.g then .refused else .locked) (by simp)
    refine ⟨m', .step (c := 0) ?_ h1, h2⟩
    cases hg : m.g <;> simp [Prog.mach, hp, prog, step, cas, hg]
  · intro hp
    have hf := (hI.at_ i .unlock s (by simp [Conf.view, hp, Proc.view])).2
    cases s <;> simp [fits] at hf
    obtain ⟨m', h1, h2, _⟩ := alone_ret (m := ⟨false, upd m.pc i (.ret .unlock .unlocked)⟩) (i := i) (op := .unlock) (r := .unlocked) (by simp)
    exact ⟨m', .step (c := 0) (by simp [Prog.mach, hp, prog, step]) h1, h2⟩

/-- Goroutine 1 has the lock; a `Lock` spins, a `TryLock` and an `Unlock` have been called. -/
theorem demoWait : ∃ m, prog.mach.Exec m [.inv 1 .lock, .ret 1 .locked, .inv 2 .lock, .inv 3 .tryLock, .inv 4 .unlock] ∧
    m.g = true ∧ m.pc 2 = .at .lock (.yield 1 1) ∧ m.pc 3 = .at .tryLock .try_ ∧ m.pc 4 = .at .unlock .store :=
  Mach.exists_exec_state _ [.inv 1 .lock, .run 1, .run 1, .inv 2 .lock, .run 2, .inv 3 .tryLock, .inv 4 .unlock] _ _
    (by exact And.intro rfl (And.intro rfl (And.intro rfl (And.intro rfl rfl))))

example := demoWait.imp fun _ h => (C138_no_waiting h.1 3 .try_).1 h.2.2.2.1
example := demoWait.imp fun _ h => (C138_no_waiting h.1 4 .store).2 h.2.2.2.2

theorem lock_spin {i b : Nat} {m : Conf Bool Op Res Pt} (hg : m.g = false) (hp : m.pc i = .at .lock (.spin b)) :
    ∃ m', Alone i .locked m m' ∧ m'.g = true := by
  obtain ⟨m', h1, h2, _⟩ := alone_ret (m := ⟨true, upd m.pc i (.ret .lock .locked)⟩) (i := i) (op := .lock) (r := .locked) (by simp)
  exact ⟨m', .step (c := 0) (by simp [Prog.mach, hp, prog, step, cas, hg]) h1, h2⟩

theorem lock_yield {i b : Nat} : ∀ (k : Nat) {m : Conf Bool Op Res Pt}, m.g = false → m.pc i = .at .lock (.yield b k) →
    ∃ m', Alone i .locked m m' ∧ m'.g = true
  | 0, m, hg, hp => by
    obtain ⟨m', h1, h2⟩ := lock_spin (i := i) (b := if b < maxBackoff then b <<< 1 else b)
      (m := ⟨m.g, upd m.pc i (.at .lock (.spin (if b < maxBackoff then b <<< 1 else b)))⟩) hg (by simp)
    exact ⟨m', .step (c := 0) (by simp [Prog.mach, hp, prog, step]) h1, h2⟩
  | k + 1, m, hg, hp => by
    obtain ⟨m', h1, h2⟩ := lock_yield (i := i) (b := b) k (m := ⟨m.g, upd m.pc i (.at .lock (.yield b k))⟩) hg (by simp)
    exact ⟨m', .step (c := 0) (by simp [Prog.mach, hp, prog, step]) h1, h2⟩

/-- **C138.** `Unlock`, by whomever, lets a waiting `Lock` in: in every reachable state in which one goroutine is in `Unlock` and another in `Lock`, the first
can return alone, and then the second. -/
theorem C138_unlock_lets_in {m : Conf Bool Op Res Pt} {H : List (Ev Op Res)} (h : prog.mach.Exec m H) (i j : Nat) (s t : Pt)
    (hi : m.pc i = .at .lock s) (hj : m.pc j = .at .unlock t) : ∃ m₁ m₂, Alone j .unlocked m m₁ ∧ Alone i .locked m₁ m₂ ∧ m₂.g = true := by
  obtain ⟨gh, _, _, hI⟩ := simulates h
  have hf := (hI.at_ i .lock s (by simp [Conf.view, hi, Proc.view])).2
  have hf' := (hI.at_ j .unlock t (by simp [Conf.view, hj, Proc.view])).2
  have hij : i ≠ j := by rintro rfl; rw [hi] at hj; simp at hj
  cases t <;> simp [fits] at hf'
  obtain ⟨m', h1, h2, h3⟩ := alone_ret (m := ⟨false, upd m.pc j (.ret .unlock .unlocked)⟩) (i := j) (op := .unlock) (r := .unlocked) (by simp)
  have hp : m'.pc i = .at .lock s := by rw [h3 i hij]; simp [upd_ne _ _ hij, hi]
  have e1 : Alone j .unlocked m m' := .step (c := 0) (by simp [Prog.mach, hj, prog, step]) h1
  cases s <;> simp [fits] at hf
  · obtain ⟨m₂, h4, h5⟩ := lock_spin h2 hp
    exact ⟨m', m₂, e1, h4, h5⟩
  · obtain ⟨m₂, h4, h5⟩ := lock_yield _ h2 hp
    exact ⟨m', m₂, e1, h4, h5⟩

example := demoWait.imp fun _ h => C138_unlock_lets_in h.1 2 4 _ _ h.2.2.1 h.2.2.2.2

end Verif.XSync.SpinlockFree
