import Verif.XSync.SpinlockProps
import Verif.Conc.Fair
/-!
# Who gets a spinlock (C117)

Infinite executions under a fair scheduler: a session that can move does so at some time. Sessions can always move until they have returned, so
in particular every holder unlocks at some time.
-/
namespace Verif.XSync.Spinlock
open Verif.Conc

/-! ## Specification -/

/-- Session `i` is inside `Lock`, which has not returned. -/
def Waits (m : Conf Bool Op Res Pt) (i : Nat) : Prop := (∃ b n a, m.pc i = .at .lock (.spin b n a)) ∨ ∃ b k n a, m.pc i = .at .lock (.yield b k n a)

/-- Between `m` and `m'` session `i` acquires the lock. -/
def Acquires (m m' : Conf Bool Op Res Pt) (i : Nat) : Prop := ¬ Holds m i ∧ Holds m' i

/-- Session `i` is over. -/
def Over (m : Conf Bool Op Res Pt) (i : Nat) : Prop := ∃ op r, m.pc i = .done op r

/-! ## Lemmas -/

variable {σ : Nat → Conf Bool Op Res Pt} {a : Nat → Act Op}

theorem can_at {m : Conf Bool Op Res Pt} {i : Nat} {op : Op} {s : Pt} (h : m.pc i = .at op s) : ∃ c x, prog.mach.next m i c = some x := by
  refine ⟨0, ?_⟩
  simp only [Prog.mach, h]
  cases s with
  | yield b k n a => cases k <;> simp [prog, step]
  | try_ => simp only [prog, step]; split <;> simp_all
  | _ => simp [prog, step]

theorem fair_at (h : prog.mach.Run σ a) (hf : prog.mach.Fair σ a) {t i : Nat} {op : Op} {s : Pt} (hi : (σ t).pc i = .at op s) :
    ∃ t', t ≤ t' ∧ (σ t').pc i = .at op s ∧ ∃ c, a t' = .run i c := by
  obtain ⟨t', h1, h2, h3⟩ := prog.fair_step h hf (by rw [hi]; simp) fun m hm => can_at (hm.trans hi)
  exact ⟨t', h1, h2.trans hi, h3⟩

/-- What a step does. -/
theorem run_at (h : prog.mach.Run σ a) {t i c : Nat} {op : Op} {s : Pt} (hi : (σ t).pc i = .at op s) (ha : a t = .run i c) :
    ∃ g' x, step (σ t).g i op s c = some (g', x) ∧ σ (t + 1) = ⟨g', upd (σ t).pc i (match x with | .inl s' => .at op s' | .inr r => .ret op r)⟩ := by
  have hs := h.step t
  rw [ha] at hs
  obtain ⟨e, hs⟩ := hs
  simp only [Prog.mach, hi, prog] at hs
  cases hst : step (σ t).g i op s c with
  | none => simp [hst] at hs
  | some y =>
    obtain ⟨g', x⟩ := y
    rw [hst] at hs
    refine ⟨g', x, rfl, ?_⟩
    cases x <;> simp only [Option.some.injEq, Prod.mk.injEq] at hs <;> exact hs.2.symm

/-- A session that holds the lock unlocks. -/
theorem unlocks (h : prog.mach.Run σ a) (hf : prog.mach.Fair σ a) {t i : Nat} (hi : Holds (σ t) i) :
    ∃ t', t ≤ t' ∧ (σ t').g = false ∧ ∃ op, (σ t').pc i = .ret op .released := by
  obtain ⟨op, hi⟩ := hi
  obtain ⟨t', h1, h2, c, h3⟩ := fair_at h hf hi
  obtain ⟨g', x, h4, h5⟩ := run_at h h2 h3
  simp only [step, Option.some.injEq, Prod.mk.injEq] at h4
  obtain ⟨rfl, rfl⟩ := h4
  exact ⟨t' + 1, by omega, by rw [h5], op, by rw [h5]; simp⟩

/-- A session that has its result returns. -/
theorem returns (h : prog.mach.Run σ a) (hf : prog.mach.Fair σ a) {t i : Nat} {op : Op} {r : Res} (hi : (σ t).pc i = .ret op r) :
    ∃ t', t ≤ t' ∧ Over (σ t') i := by
  obtain ⟨t', h1, h2, c, h3⟩ := prog.fair_step h hf (i := i) (t := t) (by rw [hi]; simp) fun m hm => ⟨0, by simp [Prog.mach, hm.trans hi]⟩
  have hs := h.step t'
  rw [h3] at hs
  obtain ⟨e, hs⟩ := hs
  simp only [Prog.mach, h2.trans hi, Option.some.injEq, Prod.mk.injEq] at hs
  exact ⟨t' + 1, by omega, op, r, by rw [← hs.2]; simp⟩

/-- If the lock stays free, a waiting session gets it. -/
theorem gets (h : prog.mach.Run σ a) (hf : prog.mach.Fair σ a) {t i : Nat} (hi : Waits (σ t) i) (hfree : ∀ t', t ≤ t' → (σ t').g = false) :
    ∃ t', t ≤ t' ∧ Holds (σ t') i := by
  have spin : ∀ t b n a', (σ t).pc i = .at .lock (.spin b n a') → (∀ t', t ≤ t' → (σ t').g = false) → ∃ t', t ≤ t' ∧ Holds (σ t') i := by
    intro t b n a' hp hfree
    obtain ⟨t', h1, h2, c, h3⟩ := fair_at h hf hp
    obtain ⟨g', x, h4, h5⟩ := run_at h h2 h3
    simp only [step, cas, hfree t' h1, Bool.false_eq_true, if_false, Option.some.injEq, Prod.mk.injEq] at h4
    obtain ⟨rfl, rfl⟩ := h4
    exact ⟨t' + 1, by omega, .lock, by rw [h5]; simp⟩
  rcases hi with ⟨b, n, a', hp⟩ | ⟨b, k, n, a', hp⟩
  · exact spin t b n a' hp hfree
  · induction k generalizing t n with
    | zero =>
      obtain ⟨t', h1, h2, c, h3⟩ := fair_at h hf hp
      obtain ⟨g', x, h4, h5⟩ := run_at h h2 h3
      simp only [step, Option.some.injEq, Prod.mk.injEq] at h4
      obtain ⟨rfl, rfl⟩ := h4
      obtain ⟨t'', h6, h7⟩ := spin (t' + 1) _ _ _ (by rw [h5]; simp only [upd_same]; rfl) fun u hu => hfree u (by omega)
      exact ⟨t'', by omega, h7⟩
    | succ k ih =>
      obtain ⟨t', h1, h2, c, h3⟩ := fair_at h hf hp
      obtain ⟨g', x, h4, h5⟩ := run_at h h2 h3
      simp only [step, Option.some.injEq, Prod.mk.injEq] at h4
      obtain ⟨rfl, rfl⟩ := h4
      obtain ⟨t'', h6, h7⟩ := ih (t := t' + 1) (fun u hu => hfree u (by omega)) (n + 1) (by rw [h5]; simp)
      exact ⟨t'', by omega, h7⟩

theorem free_iff (h : prog.mach.Run σ a) (t : Nat) : (σ t).g = false ↔ ∀ j, ¬ Holds (σ t) j := by
  obtain ⟨H, hH⟩ := h.exec t
  have := (inv_exec hH).locked
  simp only [holds_view]
  cases hg : (σ t).g <;> simp_all

/-- **C117.** A session that waits in `Lock` gets the lock, unless other sessions acquire it again and again for ever. -/
theorem C117_overtaken (h : prog.mach.Run σ a) (hf : prog.mach.Fair σ a) {t i : Nat} (hi : Waits (σ t) i) :
    (∃ t', t ≤ t' ∧ Holds (σ t') i) ∨ ∀ t', ∃ t'', t' ≤ t'' ∧ ∃ j, j ≠ i ∧ Acquires (σ t'') (σ (t'' + 1)) j := by
  by_cases hw : ∃ t', t ≤ t' ∧ Holds (σ t') i
  · exact .inl hw
  refine .inr fun t' => Classical.byContradiction fun hn => ?_
  have hnever : ∀ u, max t t' ≤ u → ∀ j, ¬ Acquires (σ u) (σ (u + 1)) j := by
    intro u hu j hj
    by_cases hji : j = i
    · subst hji; exact hw ⟨u + 1, by omega, hj.2⟩
    · exact hn ⟨u, by omega, j, hji, hj⟩
  -- the lock becomes free …
  have hfree : ∃ u, max t t' ≤ u ∧ (σ u).g = false := by
    cases hg : (σ (max t t')).g with
    | false => exact ⟨_, Nat.le_refl _, hg⟩
    | true =>
      have : ∃ j, Holds (σ (max t t')) j := Classical.byContradiction fun hh => by
        rw [(free_iff h _).mpr fun j hj => hh ⟨j, hj⟩] at hg; simp at hg
      obtain ⟨j, hj⟩ := this
      obtain ⟨u, h1, h2, _⟩ := unlocks h hf hj
      exact ⟨u, h1, h2⟩
  obtain ⟨u, hu, hg⟩ := hfree
  -- … and stays free
  have hstay : ∀ n, (σ (u + n)).g = false := by
    intro n
    induction n with
    | zero => exact hg
    | succ n ih =>
      refine (free_iff h _).mpr fun j hj => hnever (u + n) (by omega) j ⟨(free_iff h _).mp ih j, hj⟩
  -- the session still waits
  have hwaits : ∀ n, Waits (σ (t + n)) i := by
    intro n
    induction n with
    | zero => exact hi
    | succ n ih =>
      by_cases ha : ∃ c, a (t + n) = .run i c
      · obtain ⟨c, ha⟩ := ha
        have ok : ∀ s, (σ (t + n)).pc i = .at .lock s → (∀ g' x, step (σ (t + n)).g i .lock s c = some (g', x) →
            (∃ b n a, x = .inl (.spin b n a)) ∨ (∃ b k n a, x = .inl (.yield b k n a)) ∨ x = .inl .critical) → Waits (σ (t + (n + 1))) i := by
          intro s hp hx
          obtain ⟨g', x, h4, h5⟩ := run_at h hp ha
          rcases hx g' x h4 with ⟨b, n', a', rfl⟩ | ⟨b, k, n', a', rfl⟩ | rfl
          · exact .inl ⟨b, n', a', by rw [← Nat.add_assoc, h5]; simp⟩
          · exact .inr ⟨b, k, n', a', by rw [← Nat.add_assoc, h5]; simp⟩
          · exact absurd ⟨t + n + 1, by omega, .lock, by rw [h5]; simp⟩ hw
        rcases ih with ⟨b, n', a', hp⟩ | ⟨b, k, n', a', hp⟩
        · refine ok _ hp fun g' x hx => ?_
          simp only [step, Option.some.injEq, Prod.mk.injEq] at hx
          obtain ⟨_, rfl⟩ := hx
          split
          · exact .inr (.inr rfl)
          · exact .inr (.inl ⟨_, _, _, _, rfl⟩)
        · refine ok _ hp fun g' x hx => ?_
          cases k <;> simp only [step, Option.some.injEq, Prod.mk.injEq] at hx <;> obtain ⟨_, rfl⟩ := hx
          · exact .inl ⟨_, _, _, rfl⟩
          · exact .inr (.inl ⟨_, _, _, _, rfl⟩)
      · have hne : (σ (t + n)).pc i ≠ .idle := by rcases ih with ⟨_, _, _, hp⟩ | ⟨_, _, _, _, hp⟩ <;> rw [hp] <;> simp
        have e := prog.run_other h hne fun c hc => ha ⟨c, hc⟩
        unfold Waits
        rw [← Nat.add_assoc, e]; exact ih
  obtain ⟨t'', h1, h2⟩ := gets h hf (t := u) (i := i) (by have := hwaits (u - t); rwa [Nat.add_sub_cancel' (by omega)] at this) fun v hv => by
    have := hstay (v - u); rwa [Nat.add_sub_cancel' hv] at this
  exact hw ⟨t'', by omega, h2⟩

/-- **C117.** A session that holds the lock, or tries once, is over at some time, whatever the others do. -/
theorem C117_over (h : prog.mach.Run σ a) (hf : prog.mach.Fair σ a) {t i : Nat} (hi : Holds (σ t) i ∨ (σ t).pc i = .at .tryLock .try_) :
    ∃ t', t ≤ t' ∧ Over (σ t') i := by
  have holds : ∀ t, Holds (σ t) i → ∃ t', t ≤ t' ∧ Over (σ t') i := by
    intro t hi
    obtain ⟨t', h1, _, op, h2⟩ := unlocks h hf hi
    obtain ⟨t'', h3, h4⟩ := returns h hf h2
    exact ⟨t'', by omega, h4⟩
  rcases hi with hi | hi
  · exact holds t hi
  · obtain ⟨t', h1, h2, c, h3⟩ := fair_at h hf hi
    obtain ⟨g', x, h4, h5⟩ := run_at h h2 h3
    simp only [step, Option.some.injEq, Prod.mk.injEq] at h4
    obtain ⟨_, rfl⟩ := h4
    cases hg : (cas (σ t').g).2 with
    | true =>
      obtain ⟨t'', h6, h7⟩ := holds (t' + 1) ⟨.tryLock, by rw [h5, hg]; simp⟩
      exact ⟨t'', by omega, h7⟩
    | false =>
      obtain ⟨t'', h6, h7⟩ := returns h hf (t := t' + 1) (i := i) (op := .tryLock) (r := .refused) (by rw [h5, hg]; simp)
      exact ⟨t'', by omega, h7⟩

/-! ## Finitely many sessions -/

/-- Where a session can be. -/
def kind : Op → Pt → Bool
  | .lock, .try_ => false
  | .lock, _ => true
  | .tryLock, .try_ | .tryLock, .critical => true
  | _, _ => false

theorem kind_exec {m : Conf Bool Op Res Pt} {H : List (Ev Op Res)} (h : prog.mach.Exec m H) (i : Nat) : ∀ op s, m.pc i = .at op s → kind op s = true := by
  have := prog.induct (fun _ v _ => ∀ i op s, v i = some (op, .inl s) → kind op s = true) (by simp) ?_ ?_ (fun _ _ _ _ _ _ h _ => h) h
  · exact fun op s hp => this i op s (by simp [Conf.view, hp, Proc.view])
  · intro g v H i op h hv j op' s hj
    by_cases hji : j = i
    · subst hji
      simp only [upd_same, Option.some.injEq, Prod.mk.injEq, Sum.inl.injEq] at hj
      obtain ⟨rfl, rfl⟩ := hj
      cases op <;> rfl
    · rw [upd_ne _ _ hji] at hj; exact h j op' s hj
  · intro g v H i op s c g' x h hv hs j op' s' hj
    by_cases hji : j = i
    · subst hji
      simp only [upd_same, Option.some.injEq, Prod.mk.injEq] at hj
      obtain ⟨rfl, rfl⟩ := hj
      have hk := h j op s hv
      simp only [prog] at hs
      cases op <;> cases s <;> simp only [kind, Bool.false_eq_true] at hk <;> simp only [step] at hs <;> (repeat' split at hs) <;>
        simp only [Option.some.injEq, Prod.mk.injEq, Sum.inl.injEq, reduceCtorEq, and_false] at hs <;> obtain ⟨_, rfl⟩ := hs <;>
        (try split) <;> rfl
    · rw [upd_ne _ _ hji] at hj; exact h j op' s' hj


/-- The session has not had the lock. -/
def early : Proc Op Res Pt → Bool
  | .idle => true
  | .at _ .critical => false
  | .at _ _ => true
  | _ => false

theorem early_step (h : prog.mach.Run σ a) (t i : Nat) (he : early ((σ (t + 1)).pc i) = true) : early ((σ t).pc i) = true := by
  by_cases hid : (σ t).pc i = .idle
  · rw [hid]; rfl
  by_cases ha : ∃ c, a t = .run i c
  · obtain ⟨c, ha⟩ := ha
    cases hp : (σ t).pc i with
    | idle => rfl
    | «at» op s =>
      cases s with
      | critical =>
        obtain ⟨g', x, h4, h5⟩ := run_at h hp ha
        simp only [step, Option.some.injEq, Prod.mk.injEq] at h4
        obtain ⟨rfl, rfl⟩ := h4
        rw [h5] at he; simp [early] at he
      | _ => rfl
    | ret op r =>
      have hs := h.step t
      rw [ha] at hs
      obtain ⟨e, hs⟩ := hs
      simp only [Prog.mach, hp, Option.some.injEq, Prod.mk.injEq] at hs
      rw [← hs.2] at he
      simp [early] at he
    | done op r =>
      have hs := h.step t
      rw [ha] at hs
      obtain ⟨e, hs⟩ := hs
      simp [Prog.mach, hp] at hs
  · rw [prog.run_other h hid fun c hc => ha ⟨c, hc⟩] at he; exact he

theorem early_acquires (h : prog.mach.Run σ a) {t i : Nat} (hi : Acquires (σ t) (σ (t + 1)) i) :
    early ((σ t).pc i) = true ∧ early ((σ (t + 1)).pc i) = false := by
  obtain ⟨h1, op, h2⟩ := hi
  refine ⟨?_, by rw [h2]; rfl⟩
  by_cases hid : (σ t).pc i = .idle
  · rw [hid]; rfl
  by_cases ha : ∃ c, a t = .run i c
  · obtain ⟨c, ha⟩ := ha
    cases hp : (σ t).pc i with
    | idle => rfl
    | «at» op s =>
      cases s with
      | critical => exact absurd ⟨op, hp⟩ h1
      | _ => rfl
    | ret op r =>
      have hs := h.step t
      rw [ha] at hs
      obtain ⟨e, hs⟩ := hs
      simp only [Prog.mach, hp, Option.some.injEq, Prod.mk.injEq] at hs
      rw [← hs.2] at h2
      simp at h2
    | done op r =>
      have hs := h.step t
      rw [ha] at hs
      obtain ⟨e, hs⟩ := hs
      simp [Prog.mach, hp] at hs
  · rw [prog.run_other h hid fun c hc => ha ⟨c, hc⟩] at h2; exact absurd ⟨op, h2⟩ h1

/-- Proof only: how many of the first `n` sessions have not got the lock yet. -/
def earlyCount (m : Conf Bool Op Res Pt) (n : Nat) : Nat := (List.range n).countP fun i => early (m.pc i)

theorem countP_lt {l : List Nat} {p q : Nat → Bool} (hle : ∀ i, p i = true → q i = true) {i : Nat} (hi : i ∈ l) (h1 : p i = false) (h2 : q i = true) :
    l.countP p < l.countP q := by
  induction l with
  | nil => simp at hi
  | cons x l ih =>
    have hmono : l.countP p ≤ l.countP q := List.countP_mono_left fun i _ => hle i
    rw [List.mem_cons] at hi
    by_cases hx : i = x
    · subst hx; simp [List.countP_cons, h1, h2]; omega
    · have := ih (hi.resolve_left hx)
      simp only [List.countP_cons]
      have := hle x
      cases hp : p x <;> cases hq : q x <;> simp_all <;> omega

/-- A session that waits gets the lock if there are finitely many sessions. -/
theorem gets_finite (h : prog.mach.Run σ a) (hf : prog.mach.Fair σ a) {n : Nat} (hn : ∀ t i, n ≤ i → (σ t).pc i = .idle) {t i : Nat}
    (hi : Waits (σ t) i) : ∃ t', t ≤ t' ∧ Holds (σ t') i := by
  refine (C117_overtaken h hf hi).resolve_right fun hinf => ?_
  have mono : ∀ u k, earlyCount (σ (u + k)) n ≤ earlyCount (σ u) n := by
    intro u k
    induction k with
    | zero => exact Nat.le_refl _
    | succ k ih => exact Nat.le_trans (List.countP_mono_left fun j _ => early_step h (u + k) j) ih
  have down : ∀ k u, earlyCount (σ u) n = k → False := by
    intro k
    induction k using Nat.strongRecOn with
    | ind k ih =>
      intro u hu
      obtain ⟨v, hv, j, _, hj⟩ := hinf u
      have h1 := early_acquires h hj
      have hjn : j < n := by
        rcases Nat.lt_or_ge j n with h' | h'
        · exact h'
        · obtain ⟨_, op, h2⟩ := hj; rw [hn _ j h'] at h2; simp at h2
      have h2 : earlyCount (σ (v + 1)) n < earlyCount (σ v) n :=
        countP_lt (fun i => early_step h v i) (List.mem_range.mpr hjn) h1.2 h1.1
      have h3 := mono u (v - u)
      rw [Nat.add_sub_cancel' hv] at h3
      exact ih _ (by omega) (v + 1) rfl
  exact down _ 0 rfl

/-- **C117.** Under a fair scheduler finitely many sessions do not go on for ever. -/
theorem C117_ends_partial (h : prog.mach.Run σ a) (hf : prog.mach.Fair σ a) : ¬ ∃ n, ∀ t i, n ≤ i → (σ t).pc i = .idle := by
  rintro ⟨n, hn⟩
  have stays : ∀ {t i}, Over (σ t) i → ∀ k, Over (σ (t + k)) i := by
    intro t i ho k
    induction k with
    | zero => exact ho
    | succ k ih =>
      obtain ⟨op, r, hp⟩ := ih
      refine ⟨op, r, ?_⟩
      rw [← Nat.add_assoc, prog.run_other h (by rw [hp]; simp) ?_, hp]
      intro c hc
      have hs := h.step (t + k)
      rw [hc] at hs
      obtain ⟨e, hs⟩ := hs
      simp [Prog.mach, hp] at hs
  have over : ∀ t i, (σ t).pc i ≠ .idle → ∃ t', t ≤ t' ∧ Over (σ t') i := by
    intro t i hi
    have held : ∀ t, Waits (σ t) i → ∃ t', t ≤ t' ∧ Over (σ t') i := by
      intro t hw
      obtain ⟨t', h1, h2⟩ := gets_finite h hf hn hw
      obtain ⟨t'', h3, h4⟩ := C117_over h hf (.inl h2)
      exact ⟨t'', by omega, h4⟩
    obtain ⟨H, hH⟩ := h.exec t
    have ok := kind_exec hH i
    cases hp : (σ t).pc i with
    | idle => exact absurd hp hi
    | «at» op s =>
      have := ok op s hp
      cases op <;> cases s <;> simp only [kind, Bool.false_eq_true] at this
      · exact held t (.inl ⟨_, _, _, hp⟩)
      · exact held t (.inr ⟨_, _, _, _, hp⟩)
      · exact C117_over h hf (.inl ⟨_, hp⟩)
      · exact C117_over h hf (.inr hp)
      · exact C117_over h hf (.inl ⟨_, hp⟩)
    | ret op r => exact returns h hf hp
    | done op r => exact ⟨t, Nat.le_refl _, op, r, hp⟩
  -- at some time every session below `k` is over or never starts
  have quiet : ∀ k, ∃ t, ∀ u, t ≤ u → ∀ i, i < k → (σ u).pc i = .idle ∨ Over (σ u) i := by
    intro k
    induction k with
    | zero => exact ⟨0, fun _ _ i hi => absurd hi (Nat.not_lt_zero _)⟩
    | succ k ih =>
      obtain ⟨t, ht⟩ := ih
      by_cases hk : ∃ u, t ≤ u ∧ (σ u).pc k ≠ .idle
      · obtain ⟨u, hu, hk⟩ := hk
        obtain ⟨v, hv, ho⟩ := over u k hk
        refine ⟨v, fun w hw i hi => ?_⟩
        by_cases hik : i = k
        · subst hik
          have := stays ho (w - v)
          rw [Nat.add_sub_cancel' hw] at this
          exact .inr this
        · exact ht w (by omega) i (by omega)
      · refine ⟨t, fun u hu i hi => ?_⟩
        by_cases hik : i = k
        · subst hik; exact .inl (Classical.byContradiction fun hne => hk ⟨u, hu, hne⟩)
        · exact ht u hu i (by omega)
  obtain ⟨t, ht⟩ := quiet n
  have hall : ∀ u, t ≤ u → ∀ i, (σ u).pc i = .idle ∨ Over (σ u) i := fun u hu i => by
    rcases Nat.lt_or_ge i n with hi | hi
    · exact ht u hu i hi
    · exact .inl (hn u i hi)
  -- from then on only new sessions could begin, and they are not over at once
  have hs := h.step t
  cases hat : a t with
  | inv i op =>
    rw [hat] at hs
    simp only [Mach.Does, Prog.mach] at hs
    split at hs
    · simp only [Option.some.injEq] at hs
      rcases hall (t + 1) (by omega) i with h' | ⟨_, _, h'⟩ <;> rw [← hs] at h' <;> simp at h'
    · simp at hs
  | run i c =>
    rw [hat] at hs
    obtain ⟨e, hs⟩ := hs
    rcases hall t (Nat.le_refl _) i with h' | ⟨_, _, h'⟩ <;> simp [Prog.mach, h'] at hs

/-- A `Lock` and a `TryLock` that is refused, until nothing moves. -/
theorem demoOver : ∃ m, prog.mach.Exec m [.inv 1 .lock, .inv 2 .tryLock, .ret 2 .refused, .ret 1 .released] ∧
    m.pc = upd (upd (fun _ => .idle) 1 (.done .lock .released)) 2 (.done .tryLock .refused) := by
  refine Mach.exists_exec_state _ [.inv 1 .lock, .run 1, .inv 2 .tryLock, .run 2, .run 2, .run 1, .run 1] _ _ ?_
  refine ⟨rfl, ?_⟩
  funext i
  by_cases h2 : i = 2
  · subst h2; rfl
  · by_cases h1 : i = 1
    · subst h1; rfl
    · simp only [upd_ne _ _ h2, upd_ne _ _ h1]; rfl

/-- **C117.** When nothing can move any more, every session is over. -/
theorem C117_all_over {m : Conf Bool Op Res Pt} {H : List (Ev Op Res)} (h : prog.mach.Exec m H) (hs : ∀ i c, prog.mach.next m i c = none) {i : Nat} {op : Op}
    (hi : Ev.inv i op ∈ H) : ∃ r, Ev.ret i r ∈ H := by
  refine Classical.byContradiction fun hn => ?_
  rcases prog.pending h hi fun r hr => hn ⟨r, hr⟩ with ⟨s, hp⟩ | ⟨r, hp⟩
  · obtain ⟨c, x, hx⟩ := can_at hp
    rw [hs i c] at hx; simp at hx
  · have := hs i 0; simp [Prog.mach, hp] at this

example := demoOver.imp fun m h => C117_all_over h.1 (fun i c => by
  simp only [Prog.mach, h.2]
  by_cases h2 : i = 2
  · subst h2; simp
  · by_cases h1 : i = 1
    · subst h1; simp [upd_ne _ _ h2]
    · simp [upd_ne _ _ h2, upd_ne _ _ h1]) (i := 2) (op := .tryLock) (by simp)

/-! ## Starvation -/

/-- What session 1 does next while the lock is held. -/
def onward (p : Pt) : Pt :=
  match step true 1 .lock p 0 with
  | some (_, .inl p') => p'
  | _ => p

/-- A state of the endless overtaking: session `k + 2` is the one that overtakes session 1, which is at `p`. In turn: session `k + 2` begins (0),
acquires the lock (1), session 1 makes a step (2), session `k + 2` unlocks (3) and returns (4). -/
structure Turn where
  k : Nat
  r : Fin 5
  p : Pt

/-- For the concrete infinite executions of this file. -/
def Turn.next (x : Turn) : Turn := ⟨if x.r = 4 then x.k + 1 else x.k, x.r + 1, if x.r = 2 then onward x.p else x.p⟩

/-- For the concrete infinite executions of this file. -/
def Turn.act (x : Turn) : Act Op :=
  match x.r with
  | 0 => .inv (x.k + 2) .lock
  | 2 => .run 1 0
  | _ => .run (x.k + 2) 0

/-- For the concrete infinite executions of this file. -/
def Turn.conf (x : Turn) : Conf Bool Op Res Pt where
  g := x.r = 2 || x.r = 3
  pc i :=
    if i = 1 then .at .lock x.p
    else if i < 2 then .idle
    else if i < x.k + 2 then .done .lock .released
    else if i = x.k + 2 then
      match x.r with
      | 0 => .idle
      | 1 => .at .lock (.spin 1 0 0)
      | 4 => .ret .lock .released
      | _ => .at .lock .critical
    else .idle

/-- For the concrete infinite executions of this file. -/
def turn : Nat → Turn
  | 0 => ⟨0, 0, .spin 1 0 0⟩
  | t + 1 => (turn t).next

/-- Session 1 spins. -/
def spins : Pt → Bool
  | .spin _ _ _ | .yield _ _ _ _ => true
  | _ => false

theorem spins_onward {p : Pt} (h : spins p = true) : spins (onward p) = true ∧ step true 1 .lock p 0 = some (true, .inl (onward p)) := by
  cases p with
  | spin b n a => simp [onward, step, cas, spins]
  | yield b k n a => cases k <;> simp [onward, step, spins]
  | _ => simp [spins] at h

theorem turn_spins : ∀ t, spins (turn t).p = true
  | 0 => rfl
  | t + 1 => by
    simp only [turn, Turn.next]
    split
    · exact (spins_onward (turn_spins t)).1
    · exact turn_spins t

theorem Turn.step (x : Turn) (h : spins x.p = true) : prog.mach.Does x.conf x.act x.next.conf := by
  obtain ⟨k, r, p⟩ := x
  have hpc : ∀ (m m' : Conf Bool Op Res Pt), m.g = m'.g → (∀ i, m.pc i = m'.pc i) → m = m' := by
    rintro ⟨g, f⟩ ⟨g', f'⟩ rfl h; exact congrArg _ (funext h)
  have h2 : k + 2 ≠ 1 := by omega
  match r with
  | 0 =>
    simp only [Mach.Does, Turn.act, Prog.mach, Turn.conf, h2, if_false, Nat.lt_irrefl, if_true]
    rw [if_neg (by omega : ¬ k + 2 < 2)]
    simp only [Option.some.injEq]
    refine hpc _ _ rfl fun i => ?_
    by_cases hi : i = k + 2
    · subst hi; simp [Turn.next, prog]
    · simp [upd_ne _ _ hi, Turn.next, hi]
  | 1 =>
    refine ⟨none, ?_⟩
    have e : prog.step false (k + 2) .lock (.spin 1 0 0) 0 = some (true, .inl .critical) := rfl
    simp only [Turn.conf, Prog.mach, h2, if_false, Nat.lt_irrefl, if_true]
    rw [if_neg (by omega : ¬ k + 2 < 2)]
    simp only [Fin.isValue]
    rw [show (decide ((1 : Fin 5) = 2) || decide ((1 : Fin 5) = 3)) = false from rfl, e]
    simp only [Option.some.injEq, Prod.mk.injEq, true_and]
    refine hpc _ _ rfl fun i => ?_
    by_cases hi : i = k + 2
    · subst hi; simp [Turn.next]
    · simp [upd_ne _ _ hi, Turn.next, hi]
  | 2 =>
    refine ⟨none, ?_⟩
    have e := (spins_onward h).2
    simp only [Turn.conf, Prog.mach, if_true]
    rw [show (decide True || decide ((2 : Fin 5) = 3)) = true from rfl, show prog.step = Spinlock.step from rfl, e]
    simp only [Option.some.injEq, Prod.mk.injEq, true_and]
    refine hpc _ _ rfl fun i => ?_
    by_cases hi : i = 1
    · subst hi; simp [Turn.next]
    · simp [upd_ne _ _ hi, Turn.next, hi]
  | 3 =>
    refine ⟨none, ?_⟩
    have e : prog.step true (k + 2) .lock .critical 0 = some (false, .inr .released) := rfl
    simp only [Turn.conf, Prog.mach, h2, if_false, Nat.lt_irrefl, if_true]
    rw [if_neg (by omega : ¬ k + 2 < 2)]
    simp only [Fin.isValue]
    rw [show (decide ((3 : Fin 5) = 2) || decide True) = true from rfl, e]
    simp only [Option.some.injEq, Prod.mk.injEq, true_and]
    refine hpc _ _ rfl fun i => ?_
    by_cases hi : i = k + 2
    · subst hi; simp [Turn.next]
    · simp [upd_ne _ _ hi, Turn.next, hi]
  | 4 =>
    refine ⟨some (.ret (k + 2) .released), ?_⟩
    simp only [Turn.conf, Prog.mach, h2, if_false, Nat.lt_irrefl, if_true]
    rw [if_neg (by omega : ¬ k + 2 < 2)]
    simp only [Fin.isValue, Option.some.injEq, Prod.mk.injEq, true_and]
    refine hpc _ _ rfl fun i => ?_
    by_cases hi : i = k + 2
    · subst hi; simp [Turn.next]
    · simp only [upd_ne _ _ hi, Turn.next, hi]
      by_cases h1 : i = 1
      · simp [h1]
      · by_cases h3 : i < k + 2
        · have : i < k + 1 + 2 := by omega
          simp [h1, h3, this]
        · have h4 : ¬ i < k + 1 + 2 := by omega
          simp [h1, h3, h4]

theorem turn_run : prog.mach.Run (fun t => (turn t).conf) (fun t => (turn t).act) := by
  refine ⟨?_, fun t => (turn t).step (turn_spins t)⟩
  obtain ⟨m, h1, h2⟩ := Mach.exists_exec_state prog.mach [.inv 1 .lock] [.inv 1 .lock] (fun m => m = (turn 0).conf) (by
    refine ⟨rfl, ?_⟩
    show (⟨false, _⟩ : Conf Bool Op Res Pt) = ⟨false, _⟩
    congr 1
    funext i
    by_cases h1 : i = 1
    · subst h1; rfl
    · simp only [upd_ne _ _ h1, turn, if_neg h1]
      by_cases h2 : i = 0 + 2
      · subst h2; rfl
      · by_cases h3 : i < 2
        · simp [h3, h2]; rfl
        · simp [h3, h2]; rfl)
  exact ⟨_, h2 ▸ h1⟩

theorem turn_r : ∀ t, ((turn t).r : Nat) = t % 5
  | 0 => rfl
  | t + 1 => by
    have := turn_r t
    simp only [turn, Turn.next, Fin.val_add, this]
    omega

theorem turn_k : ∀ t, (turn t).k = t / 5
  | 0 => rfl
  | t + 1 => by
    have := turn_k t
    have hr := turn_r t
    simp only [turn, Turn.next, this]
    by_cases h4 : (turn t).r = 4
    · rw [h4] at hr; rw [if_pos h4]; have : t % 5 = 4 := hr.symm; omega
    · rw [if_neg h4]
      have : t % 5 ≠ 4 := fun e => h4 (Fin.ext (hr.trans e))
      omega

theorem turn_fair : prog.mach.Fair (fun t => (turn t).conf) (fun t => (turn t).act) := by
  intro i t hen
  by_cases h1 : i = 1
  · subst h1
    refine ⟨5 * t + 2, by omega, 0, ?_⟩
    have hr : (turn (5 * t + 2)).r = 2 := Fin.ext (by rw [turn_r]; show (5 * t + 2) % 5 = 2; omega)
    simp [Turn.act, hr]
  · -- a session is over or has not begun at some later time
    exfalso
    obtain ⟨c, x, hx⟩ := hen (5 * (t + i)) (by omega)
    have hk := turn_k (5 * (t + i))
    simp only [Prog.mach, Turn.conf, h1, if_false] at hx
    by_cases h2 : i < 2
    · simp [h2] at hx
    · have h3 : i < (turn (5 * (t + i))).k + 2 := by rw [hk]; omega
      simp [h2, h3] at hx

/-- **C117**, negation: `Lock` is not fair. There is an infinite execution under a fair scheduler in which session 1 is in `Lock` all the time and
never gets the lock, while every session that begins later gets it, unlocks it and is over. -/
theorem C117_starves_refuted : ∃ (σ : Nat → Conf Bool Op Res Pt) (a : Nat → Act Op), prog.mach.Run σ a ∧ prog.mach.Fair σ a ∧
    (∀ t, Waits (σ t) 1) ∧ ∀ i, 2 ≤ i → ∃ t, (σ t).pc i = .idle ∧ ∃ t', t ≤ t' ∧ Holds (σ t') i ∧ ∃ t'', t' ≤ t'' ∧ Over (σ t'') i := by
  refine ⟨_, _, turn_run, turn_fair, fun t => ?_, fun i hi => ?_⟩
  · have := turn_spins t
    simp only [Waits, Turn.conf, if_true]
    cases hp : (turn t).p <;> simp [hp, spins] at this ⊢
  · obtain ⟨k, rfl⟩ : ∃ k, i = k + 2 := ⟨i - 2, by omega⟩
    have h2 : k + 2 ≠ 1 := by omega
    have hk : ∀ r, r < 5 → (turn (5 * k + r)).k = k := fun r hr => by rw [turn_k]; omega
    have hr : ∀ r : Fin 5, (turn (5 * k + r)).r = r := fun r => Fin.ext (by rw [turn_r]; have := r.2; omega)
    refine ⟨5 * k, ?_, 5 * k + 2, by omega, ⟨.lock, ?_⟩, 5 * k + 5, by omega, .lock, .released, ?_⟩
    · have e1 := hk 0 (by omega)
      have e2 := hr 0
      simp only [Fin.val_zero, Nat.add_zero] at e1 e2
      simp [Turn.conf, e1, e2]
    · have e1 := hk 2 (by omega)
      have e2 := hr 2
      simp only [Fin.isValue, Fin.val_two] at e2
      simp [Turn.conf, e1, e2]
    · have e1 : (turn (5 * k + 5)).k = k + 1 := by rw [turn_k]; omega
      simp [Turn.conf, e1]

/-- The hypotheses of `C117_overtaken` and `C117_over` hold in it. -/
example := C117_overtaken turn_run turn_fair (t := 7) (i := 1) (.inr ⟨_, _, _, _, rfl⟩)
example := C117_over turn_run turn_fair (t := 7) (i := 3) (.inl ⟨.lock, rfl⟩)

/-! ## Without fairness -/

/-- Session 2 spins for ever while session 1 holds the lock and is not scheduled. -/
def stall : Nat → Pt
  | 0 => .spin 1 0 0
  | t + 1 => onward (stall t)

theorem stall_spins : ∀ t, spins (stall t) = true
  | 0 => rfl
  | t + 1 => (spins_onward (stall_spins t)).1

/-- For the concrete infinite executions of this file. -/
def stallConf (t : Nat) : Conf Bool Op Res Pt := ⟨true, upd (upd (fun _ => .idle) 1 (.at .lock .critical)) 2 (.at .lock (stall t))⟩

/-- The fairness hypothesis of `C117_ends_partial` is needed: two sessions can go on for ever if the holder of the lock is not scheduled any more. -/
theorem C117_unfair_refuted : ∃ (σ : Nat → Conf Bool Op Res Pt) (a : Nat → Act Op), prog.mach.Run σ a ∧ ∀ t i, 3 ≤ i → (σ t).pc i = .idle := by
  refine ⟨stallConf, fun _ => .run 2 0, ⟨?_, fun t => ⟨none, ?_⟩⟩, fun t i hi => ?_⟩
  · obtain ⟨m, h1, h2⟩ := Mach.exists_exec_state prog.mach [.inv 1 .lock, .run 1, .inv 2 .lock] [.inv 1 .lock, .inv 2 .lock] (fun m => m = stallConf 0) (by
      refine ⟨rfl, ?_⟩
      show (⟨true, _⟩ : Conf Bool Op Res Pt) = ⟨true, _⟩
      congr 1
      funext i
      by_cases h2 : i = 2
      · subst h2; rfl
      · by_cases h1 : i = 1
        · subst h1; rfl
        · simp only [upd_ne _ _ h2, upd_ne _ _ h1]; rfl)
    exact ⟨_, h2 ▸ h1⟩
  · have e : prog.step true 2 .lock (stall t) 0 = some (true, .inl (onward (stall t))) := (spins_onward (stall_spins t)).2
    simp only [Prog.mach, stallConf, upd_same, e, Option.some.injEq, Prod.mk.injEq, true_and, stall]
    congr 1
    funext i
    by_cases h2 : i = 2
    · subst h2; simp
    · simp [upd_ne _ _ h2]
  · simp only [stallConf]
    rw [upd_ne _ _ (by omega), upd_ne _ _ (by omega)]

end Verif.XSync.Spinlock
