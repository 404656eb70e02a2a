import Verif.XSync.MapConcLive
/-!
# C91: user functions that use the map themselves

A call made by the user function of call `i` is a call `j` that runs while `i` does not move. So a user function may use the map if `j` can
return in an execution without steps of `i` (`Mach.Without`).
-/
namespace Verif.XSync.MapConc
open Verif.Conc Verif.Go

variable {K V : Type}

/-- Call `i` is inside its user function: the call in `Range`, or one of those in `ComputeIfAbsent` and `ComputeIfPresent`. -/
def Inside (m : Conf (G K V) (Op K V) (Res K V) (Pt K V)) (i : Nat) : Prop :=
  (∃ op todo vis k v, m.pc i = .at op (.icall todo vis k v)) ∨ (∃ op md e p, m.pc i = .at op (.call md e p)) ∨ ∃ op, m.pc i = .at op .addCall

variable [DecidableEq K] [DecidableEq V]

/-- **C91, the part that holds.** While a call does not hold the lock (in particular if it is inside its user function then), every other call
can return without waiting for it. -/
theorem C91_unlocked_partial {m : Conf (G K V) (Op K V) (Res K V) (Pt K V)} {H : List (Ev (Op K V) (Res K V))} (h : prog.mach.Exec m H) {i j : Nat} {op : Op K V}
    (hmu : m.g.mu ≠ some i) (hij : j ≠ i) (hi : Ev.inv j op ∈ H) (hr : ∀ r, Ev.ret j r ∉ H) :
    ∃ m' H' r, prog.mach.Without i m H m' (H ++ H') ∧ Ev.ret j r ∈ H' := by
  have main : ∀ (m : Conf (G K V) (Op K V) (Res K V) (Pt K V)) H, prog.mach.Exec m H → (m.g.mu = none ∨ m.g.mu = some j) →
      ((∃ s, m.pc j = .at op s) ∨ ∃ r, m.pc j = .ret op r) → ∃ m' H' r, prog.mach.Without i m H m' (H ++ H') ∧ Ev.ret j r ∈ H' := by
    intro m H h hm hp
    rcases hp with ⟨s, hp⟩ | ⟨r, hp⟩
    · obtain ⟨m', r, h1, _, _, h4, _⟩ := solo h hp hm
      exact ⟨m', _, r, h4 i (Ne.symm hij), by simp⟩
    · have hn : prog.mach.next m j 0 = some (some (.ret j r), ⟨m.g, upd m.pc j (.done op r)⟩) := by simp [Prog.mach, hp]
      exact ⟨_, _, r, .ev hij hn .refl, by simp⟩
  have hp := prog.pending h hi hr
  cases hmu' : m.g.mu with
  | none => exact main m H h (Or.inl hmu') hp
  | some l =>
    by_cases hj : l = j
    · subst hj; exact main m H h (Or.inr hmu') hp
    · obtain ⟨gh, _, _, hI⟩ := simulation h
      obtain ⟨o, s, h1, _⟩ := hI.muIn l hmu'
      have hpj : m.pc l = .at o s := by
        simp only [Conf.view] at h1
        cases hq : m.pc l <;> simp [hq, Proc.view] at h1
        rw [h1.1, h1.2]
      obtain ⟨m', r, h2, h3, h4, h5, _⟩ := solo h hpj (Or.inr hmu')
      obtain ⟨m2, H2, r2, h6, h7⟩ := main m' _ h2 (Or.inl h3) (by rw [h4 j (Ne.symm hj)]; exact hp)
      refine ⟨m2, [.ret l r] ++ H2, r2, ?_, by simp [h7]⟩
      have h8 := (h5 i (by rintro rfl; exact hmu hmu')).trans h6
      simpa using h8

/-- **C91, the part that holds.** The function of `Range` may use the map: while a `Range` is inside its function, every other call can return
without waiting for it. -/
theorem C91_range_partial {m : Conf (G K V) (Op K V) (Res K V) (Pt K V)} {H : List (Ev (Op K V) (Res K V))} (h : prog.mach.Exec m H) {i j : Nat}
    {f : K → V → Nat → Bool} {op : Op K V} (hin : Inside m i) (hf : Ev.inv i (.range f) ∈ H) (hij : j ≠ i) (hi : Ev.inv j op ∈ H)
    (hr : ∀ r, Ev.ret j r ∉ H) : ∃ m' H' r, prog.mach.Without i m H m' (H ++ H') ∧ Ev.ret j r ∈ H' := by
  refine C91_unlocked_partial h ?_ hij hi hr
  obtain ⟨gh, _, _, hI⟩ := simulation h
  obtain ⟨x, hx⟩ := ((prog.hist h).1 i _).mp hf
  have hq := rangePt_exec h i x hx
  simp only [Conf.view] at hx
  intro hmu
  rcases hin with ⟨op', todo, vis, k, v, hp⟩ | ⟨op', md, e, p, hp⟩ | ⟨op', hp⟩ <;> simp only [hp, Proc.view, Option.some.injEq, Prod.mk.injEq] at hx <;>
    obtain ⟨rfl, rfl⟩ := hx
  · have := (hI.mu i _ _ (by simp only [Conf.view, hp, Proc.view]; rfl)).mpr hmu
    simp [Pt.holds] at this
  · exact hq
  · exact hq

/-- A call that waits for the lock of a call that does not move waits forever. -/
theorem locked_out {m m' : Conf (G K V) (Op K V) (Res K V) (Pt K V)} {H H' : List (Ev (Op K V) (Res K V))} {i j : Nat} {op : Op K V}
    (hw : prog.mach.Without i m H m' H') (h : prog.mach.Exec m H) (hmu : m.g.mu = some i) (hp : m.pc j = .at op .lock) :
    m'.g.mu = some i ∧ m'.pc j = .at op .lock := by
  induction hw with
  | refl => exact ⟨hmu, hp⟩
  | @inv m m' m'' H H' l o hi _ ih =>
    refine ih (.ev h (.inv _ _ _ _ hi)) ?_ ?_ <;> simp only [Prog.mach] at hi <;> split at hi <;> simp only [Option.some.injEq, reduceCtorEq] at hi <;>
      subst hi
    · exact hmu
    · have : j ≠ l := by rintro rfl; simp_all
      simpa [upd_ne _ _ this] using hp
  | @tau m m' m'' H H' l c hl hn _ ih =>
    have hstep := hn
    simp only [Prog.mach] at hn
    split at hn
    · simp at hn
    · rename_i o s hpl
      obtain ⟨gh, _, _, hI⟩ := simulation h
      have hh : s.holds ≠ true := fun hc => by
        have := (hI.mu l o s (by simp [Conf.view, hpl, Proc.view])).mp hc
        rw [hmu] at this
        exact hl (by simpa using this.symm)
      have hgm : ∀ g' x, step m.g l o s c = some (g', x) → g'.mu = some i ∧ l ≠ j := by
        intro g' x hst
        constructor
        · cases s <;> simp only [Pt.holds, not_true_eq_false, bne_iff_ne, ne_eq, not_not] at hh
          all_goals (unfold step at hst; simp only [G.setP] at hst; grind)
        · rintro rfl
          rw [hp] at hpl
          simp only [Proc.at.injEq] at hpl
          obtain ⟨rfl, rfl⟩ := hpl
          simp [step, hmu] at hst
      split at hn
      · simp at hn
      all_goals
        rename_i hst
        obtain ⟨h1, h2⟩ := hgm _ _ hst
        simp only [Option.some.injEq, Prod.mk.injEq, true_and] at hn
        subst hn
        exact ih (.tau h (.run _ _ _ _ _ hstep)) h1 (by simpa [upd_ne _ _ (Ne.symm h2)] using hp)
    · simp at hn
    · simp at hn
  | @ev m m' m'' H H' e l c hl hn _ ih =>
    have hstep := hn
    simp only [Prog.mach] at hn
    split at hn
    · simp at hn
    · split at hn <;> simp at hn
    · rename_i o r hpl
      simp only [Option.some.injEq, Prod.mk.injEq] at hn
      obtain ⟨rfl, rfl⟩ := hn
      have : j ≠ l := by rintro rfl; rw [hp] at hpl; simp at hpl
      exact ih (.ev h (.run _ _ _ _ _ hstep)) hmu (by simpa [upd_ne _ _ this] using hp)
    · simp at hn

/-- The call that waits does not return. -/
theorem locked_out_ret {m m' : Conf (G K V) (Op K V) (Res K V) (Pt K V)} {H H' : List (Ev (Op K V) (Res K V))} {i j : Nat} {op : Op K V}
    (hw : prog.mach.Without i m H m' H') (h : prog.mach.Exec m H) (hmu : m.g.mu = some i) (hp : m.pc j = .at op .lock) (r : Res K V) : Ev.ret j r ∉ H' := by
  intro hr
  obtain ⟨_, h2⟩ := locked_out hw h hmu hp
  obtain ⟨o, ho⟩ := (prog.hist (hw.exec h)).2 j r hr
  simp [Conf.view, h2, Proc.view] at ho

/-- **C91, the refutation.** The function of `ComputeIfAbsent` must not use the map: it is called under the lock if the key is new, and then even
a `Load` of another key waits forever. -/
theorem C91_computeIfAbsent_refuted : ∃ m H, (prog (K := Nat) (V := Nat)).mach.Exec m H ∧ H = [.inv 1 (.computeIfAbsent 0 fun _ _ => 5), .inv 2 (.load 1)] ∧
    Inside m 1 ∧ ∀ m' H', prog.mach.Without 1 m H m' H' → ∀ r, Ev.ret 2 r ∉ H' := by
  have : ∃ m, (prog (K := Nat) (V := Nat)).mach.Exec m [.inv 1 (.computeIfAbsent 0 fun _ _ => 5), .inv 2 (.load 1)] ∧ m.pc 1 = .at _ .addCall ∧
      m.g.mu = some 1 ∧ m.pc 2 = .at (.load 1) .lock :=
    Mach.exists_exec_state _ ([.inv 1 (.computeIfAbsent 0 fun _ _ => 5)] ++ runs 6 1 ++ [.inv 2 (.load 1)] ++ runs 1 2) _ _
      (by exact And.intro rfl (And.intro rfl (And.intro rfl rfl)))
  obtain ⟨m, h1, h2, h3, h4⟩ := this
  exact ⟨m, _, h1, rfl, Or.inr (Or.inr ⟨_, h2⟩), fun m' H' hw r => locked_out_ret hw h1 h3 h4 r⟩

/-- **C91, the refutation.** Nor must the function of `ComputeIfPresent`. -/
theorem C91_computeIfPresent_refuted : ∃ m H, (prog (K := Nat) (V := Nat)).mach.Exec m H ∧
    H = [.inv 1 (.store 0 5), .ret 1 .unit, .inv 2 (.computeIfPresent 0 fun _ v _ => v + 1), .inv 3 (.load 1)] ∧
    Inside m 2 ∧ ∀ m' H', prog.mach.Without 2 m H m' H' → ∀ r, Ev.ret 3 r ∉ H' := by
  have : ∃ m, (prog (K := Nat) (V := Nat)).mach.Exec m [.inv 1 (.store 0 5), .ret 1 .unit, .inv 2 (.computeIfPresent 0 fun _ v _ => v + 1), .inv 3 (.load 1)] ∧
      m.pc 2 = .at _ (.call .inDirty 0 (.cell 1 5)) ∧ m.g.mu = some 2 ∧ m.pc 3 = .at (.load 1) .lock :=
    Mach.exists_exec_state _ ([.inv 1 (.store 0 5)] ++ runs 9 1 ++ [.inv 2 (.computeIfPresent 0 fun _ v _ => v + 1)] ++ runs 4 2 ++ [.inv 3 (.load 1)] ++ runs 1 3) _ _
      (by exact And.intro rfl (And.intro rfl (And.intro rfl rfl)))
  obtain ⟨m, h1, h2, h3, h4⟩ := this
  exact ⟨m, _, h1, rfl, Or.inr (Or.inl ⟨_, _, _, _, h2⟩), fun m' H' hw r => locked_out_ret hw h1 h3 h4 r⟩

/-- A `Range` inside its function, and a `Store` made by the function. -/
theorem demoNested : ∃ m, (prog (K := Nat) (V := Nat)).mach.Exec m [.inv 1 (.store 0 5), .ret 1 .unit, .inv 2 (.range fun _ _ _ => true), .inv 3 (.store 1 6)] ∧
    m.pc 2 = .at (.range fun _ _ _ => true) (.icall [] [] 0 5) :=
  Mach.exists_exec_state _ ([.inv 1 (.store 0 5)] ++ runs 9 1 ++ [.inv 2 (.range fun _ _ _ => true)] ++ runs 6 2 ++ [.inv 3 (.store 1 6)]) _ _
    (by exact And.intro rfl rfl)

example : ∃ m H m' H' r, (prog (K := Nat) (V := Nat)).mach.Without 2 m H m' (H ++ H') ∧ Ev.ret 3 r ∈ H' := demoNested.elim fun _ h => ⟨_, _,
  C91_range_partial (i := 2) (j := 3) (op := .store 1 6) h.1 (Or.inl ⟨_, _, _, _, _, h.2⟩) (f := fun _ _ _ => true) (by simp) (by decide) (by simp) (by simp)⟩

end Verif.XSync.MapConc
