import Verif.Conc.Refine
/-!
# Executions with the list of their steps

`P.Run m m' H l`: from `m` an execution leads to `m'`; `H` are its invocations and responses and `l` are its steps, in order.
-/
namespace Verif.Conc

variable {G Op Res S : Type}

/-- A step: the shared state before it, the call that makes it, its operation, its local point and the choice. -/
structure Tick (G Op S : Type) where
  g : G
  i : Nat
  op : Op
  s : S
  c : Nat

/-- For concrete executions: the state of a call after a step. -/
def Proc.of (op : Op) : S ⊕ Res → Proc Op Res S
  | .inl s => .at op s
  | .inr r => .ret op r

/-- For concrete executions: executions with the times of their events. -/
inductive Prog.Run (P : Prog G Op Res S) (m : Conf G Op Res S) : Conf G Op Res S → List (Ev Op Res) → List (Tick G Op S) → Prop where
  | refl : Prog.Run P m m [] []
  | inv {m' : Conf G Op Res S} {H : List (Ev Op Res)} {l : List (Tick G Op S)} {i : Nat} {op : Op} : Prog.Run P m m' H l → m'.pc i = .idle →
      Prog.Run P m ⟨m'.g, upd m'.pc i (.at op (P.begin op))⟩ (H ++ [.inv i op]) l
  | step {m' : Conf G Op Res S} {H : List (Ev Op Res)} {l : List (Tick G Op S)} {i : Nat} {op : Op} {s : S} {c : Nat} {g' : G} {x : S ⊕ Res} :
      Prog.Run P m m' H l → m'.pc i = .at op s → P.step m'.g i op s c = some (g', x) →
      Prog.Run P m ⟨g', upd m'.pc i (.of op x)⟩ H (l ++ [⟨m'.g, i, op, s, c⟩])
  | ret {m' : Conf G Op Res S} {H : List (Ev Op Res)} {l : List (Tick G Op S)} {i : Nat} {op : Op} {r : Res} : Prog.Run P m m' H l →
      m'.pc i = .ret op r → Prog.Run P m ⟨m'.g, upd m'.pc i (.done op r)⟩ (H ++ [.ret i r]) l

variable {P : Prog G Op Res S} {m m' : Conf G Op Res S} {H H₀ : List (Ev Op Res)} {l : List (Tick G Op S)}

/-- Every run is an execution. -/
theorem Prog.Run.exec (hr : P.Run m m' H l) (h : P.mach.Exec m H₀) : P.mach.Exec m' (H₀ ++ H) := by
  induction hr with
  | refl => simpa using h
  | @inv m' H l i op _ hp ih =>
    rw [← List.append_assoc]
    exact .ev ih (.inv _ _ _ _ (by simp [Prog.mach, hp]))
  | @step m' H l i op s c g' x _ hp hs ih =>
    refine .tau ih (.run _ i c _ _ ?_)
    cases x <;> simp [Prog.mach, hp, hs, Proc.of]
  | @ret m' H l i op r _ hp ih =>
    rw [← List.append_assoc]
    exact .ev ih (.run _ i 0 _ _ (by simp [Prog.mach, hp]))

/-- Every execution is a run. -/
theorem Prog.exec_run (h : P.mach.Exec m H) : ∃ l, P.Run P.mach.start m H l := by
  have key : ∀ (m m' : Conf G Op Res S) (e : Option (Ev Op Res)) H l, P.Run P.mach.start m H l → P.mach.Step m e m' →
      ∃ l, P.Run P.mach.start m' (H ++ e.toList) l := by
    intro m m' e H l hr hs
    cases hs with
    | inv i op _ he =>
      simp only [Prog.mach] at he
      split at he <;> simp at he
      subst he
      exact ⟨_, .inv hr (by assumption)⟩
    | run i c _ _ he =>
      simp only [Prog.mach] at he
      cases hpc : m.pc i with
      | idle => simp [hpc] at he
      | done _ _ => simp [hpc] at he
      | ret op r => simp [hpc] at he; obtain ⟨rfl, rfl⟩ := he; exact ⟨_, .ret hr hpc⟩
      | «at» op s =>
        simp only [hpc] at he
        cases hst : P.step m.g i op s c with
        | none => simp [hst] at he
        | some y =>
          obtain ⟨g', x⟩ := y
          have := Prog.Run.step hr hpc hst
          cases x <;> simp [hst] at he <;> obtain ⟨rfl, rfl⟩ := he <;> exact ⟨_, by simpa [Proc.of] using this⟩
  induction h with
  | init => exact ⟨_, .refl⟩
  | tau _ hs ih => obtain ⟨l, hl⟩ := ih; simpa using key _ _ _ _ _ hl hs
  | ev _ hs ih => obtain ⟨l, hl⟩ := ih; simpa using key _ _ _ _ _ hl hs

/-- Induction over a run: an invariant of the shared state, the views of the calls, the history and the steps. -/
theorem Prog.Run.induct (I : G → View Op Res S → List (Ev Op Res) → List (Tick G Op S) → Prop) (h0 : I m.g m.view [] [])
    (hinv : ∀ m' H l i op, P.Run m m' H l → I m'.g m'.view H l → m'.view i = none →
      I m'.g (upd m'.view i (some (op, .inl (P.begin op)))) (H ++ [.inv i op]) l)
    (hstep : ∀ m' H l i op s c g' x, P.Run m m' H l → I m'.g m'.view H l → m'.view i = some (op, .inl s) → P.step m'.g i op s c = some (g', x) →
      I g' (upd m'.view i (some (op, x))) H (l ++ [⟨m'.g, i, op, s, c⟩]))
    (hret : ∀ m' H l i op r, P.Run m m' H l → I m'.g m'.view H l → m'.view i = some (op, .inr r) → I m'.g m'.view (H ++ [.ret i r]) l)
    (hr : P.Run m m' H l) : I m'.g m'.view H l := by
  induction hr with
  | refl => exact h0
  | @inv m' H l i op hr hp ih =>
    rw [view_upd]
    exact hinv m' H l i op hr ih (by simp [Conf.view, hp, Proc.view])
  | @step m' H l i op s c g' x hr hp hs ih =>
    rw [view_upd]
    have : (Proc.of op x : Proc Op Res S).view = some (op, x) := by cases x <;> rfl
    rw [this]
    exact hstep m' H l i op s c g' x hr ih (by simp [Conf.view, hp, Proc.view]) hs
  | @ret m' H l i op r hr hp ih =>
    have hv : m'.view i = some (op, .inr r) := by simp [Conf.view, hp, Proc.view]
    have e : upd m'.view i (some (op, .inr r)) = m'.view := by
      funext j
      by_cases hj : j = i
      · subst hj; simp [hv]
      · simp [upd_ne _ _ hj]
    rw [view_upd]
    show I m'.g (upd m'.view i (some (op, .inr r))) _ _
    rw [e]
    exact hret m' H l i op r hr ih hv

/-! ## Schedules -/

/-- The steps made along a schedule (for examples). -/
def Prog.ticks (P : Prog G Op Res S) : Conf G Op Res S → List (Act Op) → List (Tick G Op S)
  | _, [] => []
  | m, .inv i op :: as => match P.mach.invoke m i op with
    | none => []
    | some m' => P.ticks m' as
  | m, .run i c :: as => match m.pc i, P.mach.next m i c with
    | .at op s, some (_, m') => ⟨m.g, i, op, s, c⟩ :: P.ticks m' as
    | _, some (_, m') => P.ticks m' as
    | _, none => []

theorem Prog.Run.trans {m₀ : Conf G Op Res S} {l₀ : List (Tick G Op S)} (h₀ : P.Run m₀ m H₀ l₀) (h : P.Run m m' H l) : P.Run m₀ m' (H₀ ++ H) (l₀ ++ l) := by
  induction h with
  | refl => simpa using h₀
  | inv _ hp ih => rw [← List.append_assoc]; exact .inv ih hp
  | step _ hp hs ih => rw [← List.append_assoc]; exact .step ih hp hs
  | ret _ hp ih => rw [← List.append_assoc]; exact .ret ih hp

theorem Prog.play_run (P : Prog G Op Res S) : ∀ (as : List (Act Op)) (m : Conf G Op Res S) (H : List (Ev Op Res)) (x : Conf G Op Res S × List (Ev Op Res)),
    P.mach.play (m, H) as = some x → ∃ H', x.2 = H ++ H' ∧ P.Run m x.1 H' (P.ticks m as) := by
  intro as
  induction as with
  | nil => intro m H x e; simp only [Mach.play, Option.some.injEq] at e; subst e; exact ⟨[], by simp, .refl⟩
  | cons a as ih =>
    intro m H x e
    cases a with
    | inv i op =>
      simp only [Mach.play] at e
      cases hi : P.mach.invoke m i op with
      | none => simp [hi] at e
      | some m₁ =>
        simp only [hi] at e
        obtain ⟨H', h1, h2⟩ := ih _ _ _ e
        simp only [Prog.ticks, hi]
        refine ⟨.inv i op :: H', by simp [h1], ?_⟩
        simp only [Prog.mach] at hi
        split at hi <;> simp at hi
        subst hi
        exact (Prog.Run.inv .refl (by assumption)).trans h2
    | run i c =>
      simp only [Mach.play] at e
      cases hn : P.mach.next m i c with
      | none => simp [hn] at e
      | some y =>
        obtain ⟨ev, m₁⟩ := y
        have hn' := hn
        simp only [Prog.mach] at hn
        cases hpc : m.pc i with
        | idle => simp [hpc] at hn
        | done _ _ => simp [hpc] at hn
        | ret op r =>
          simp [hpc] at hn
          obtain ⟨rfl, rfl⟩ := hn
          simp only [hn'] at e
          obtain ⟨H', h1, h2⟩ := ih _ _ _ e
          refine ⟨.ret i r :: H', by simp [h1], ?_⟩
          have := (Prog.Run.ret .refl hpc).trans h2
          simpa [Prog.ticks, hpc, hn'] using this
        | «at» op s =>
          simp only [hpc] at hn
          cases hst : P.step m.g i op s c with
          | none => simp [hst] at hn
          | some y =>
            obtain ⟨g', z⟩ := y
            have hev : ev = none ∧ m₁ = ⟨g', upd m.pc i (.of op z)⟩ := by
              cases z <;> simp [hst] at hn <;> exact ⟨hn.1.symm, hn.2.symm⟩
            obtain ⟨rfl, rfl⟩ := hev
            simp only [hn'] at e
            obtain ⟨H', h1, h2⟩ := ih _ _ _ e
            refine ⟨H', h1, ?_⟩
            have := (Prog.Run.step .refl hpc hst).trans h2
            simpa [Prog.ticks, hpc, hn'] using this

/-- A run along a schedule. -/
theorem Prog.exists_run (P : Prog G Op Res S) (as : List (Act Op)) (H : List (Ev Op Res))
    (h : (P.mach.play (P.mach.start, []) as).map (·.2) = some H) : ∃ m, P.Run P.mach.start m H (P.ticks P.mach.start as) := by
  cases hp : P.mach.play (P.mach.start, []) as with
  | none => simp [hp] at h
  | some x =>
    simp [hp] at h
    obtain ⟨H', h1, h2⟩ := P.play_run as _ _ _ hp
    simp at h1
    subst h1 h
    exact ⟨_, h2⟩

end Verif.Conc
