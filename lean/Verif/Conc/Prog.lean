import Verif.Conc.Lin
/-!
# Concurrent programs with shared state

`Prog` describes calls that run concurrently on a shared state `G`: `step g i op s c` is the next atomic step of call
`i`, which executes `op` and is at the local point `s`; `c` is a choice of the environment. The step leads to another
local point or produces the call's result. `Prog.mach` is the machine with all interleavings; every call number can be
used once and there is no bound on the number of calls.
-/
namespace Verif.Conc

variable {G Op Res S : Type}

/-- General machinery, no code of /repo: a program for concurrent calls: the shared state, where a call begins, and its atomic steps. -/
structure Prog (G Op Res S : Type) where
  init : G
  begin : Op → S
  step : G → Nat → Op → S → Nat → Option (G × (S ⊕ Res))

/-- The program started in another state. -/
def Prog.from (P : Prog G Op Res S) (g : G) : Prog G Op Res S := { P with init := g }

/-- Where a call is: not started, at a local point, about to return, returned. -/
inductive Proc (Op Res S : Type) where
  | idle
  | at (op : Op) (s : S)
  | ret (op : Op) (r : Res)
  | done (op : Op) (r : Res)

/-- General machinery, no code of /repo: a state of a program: the shared state and the points of the calls. -/
structure Conf (G Op Res S : Type) where
  g : G
  pc : Nat → Proc Op Res S

/-- General machinery, no code of /repo: all interleavings of the calls of a program. -/
def Prog.mach (P : Prog G Op Res S) : Mach (Conf G Op Res S) Op Res where
  start := ⟨P.init, fun _ => .idle⟩
  invoke m i op := match m.pc i with
    | .idle => some ⟨m.g, upd m.pc i (.at op (P.begin op))⟩
    | _ => none
  next m i c := match m.pc i with
    | .idle => none
    | .at op s => match P.step m.g i op s c with
      | none => none
      | some (g', .inl s') => some (none, ⟨g', upd m.pc i (.at op s')⟩)
      | some (g', .inr r) => some (none, ⟨g', upd m.pc i (.ret op r)⟩)
    | .ret op r => some (some (.ret i r), ⟨m.g, upd m.pc i (.done op r)⟩)
    | .done _ _ => none

/-- A call as seen by invariants: its operation and its local point or decided result. -/
def Proc.view : Proc Op Res S → Option (Op × (S ⊕ Res))
  | .idle => none
  | .at op s => some (op, .inl s)
  | .ret op r | .done op r => some (op, .inr r)

/-- The views of all calls. -/
abbrev View (Op Res S : Type) := Nat → Option (Op × (S ⊕ Res))

/-- General machinery, no code of /repo: the calls that have been made, with their points or results. -/
def Conf.view (m : Conf G Op Res S) : View Op Res S := fun i => (m.pc i).view

theorem view_upd (g : G) (m : Conf G Op Res S) (i : Nat) (p : Proc Op Res S) :
    (Conf.mk g (upd m.pc i p)).view = upd m.view i p.view := by
  funext j
  by_cases hj : j = i
  · subst hj; simp [Conf.view]
  · simp [Conf.view, upd_ne _ _ hj]

/-- What the steps of the calls, their beginnings and their returns keep is kept by every step of the machine. -/
theorem Prog.keep (P : Prog G Op Res S) (I : G → View Op Res S → List (Ev Op Res) → Prop)
    (hinv : ∀ g v H i op, I g v H → v i = none → I g (upd v i (some (op, .inl (P.begin op)))) (H ++ [.inv i op]))
    (hstep : ∀ g v H i op s c g' x, I g v H → v i = some (op, .inl s) → P.step g i op s c = some (g', x) →
      I g' (upd v i (some (op, x))) H)
    (hret : ∀ g v H i op r, I g v H → v i = some (op, .inr r) → I g v (H ++ [.ret i r]))
    {m m' : Conf G Op Res S} {l : Option (Ev Op Res)} {H : List (Ev Op Res)} (ih : I m.g m.view H) (hs : P.mach.Step m l m') :
    I m'.g m'.view (H ++ l.toList) := by
  cases hs with
  | inv i op _ he =>
    simp only [Prog.mach] at he
    split at he
    · rename_i hpc
      simp only [Option.some.injEq] at he
      subst he
      have := hinv m.g m.view H i op ih (by simp [Conf.view, hpc, Proc.view])
      rw [view_upd]
      exact this
    · simp at he
  | run i c _ _ he =>
    simp only [Prog.mach] at he
    cases hpc : m.pc i with
    | idle => simp [hpc] at he
    | done _ _ => simp [hpc] at he
    | «at» op s =>
      simp only [hpc] at he
      cases hst : P.step m.g i op s c with
      | none => simp [hst] at he
      | some y =>
        obtain ⟨g', x⟩ := y
        have := hstep m.g m.view H i op s c g' x ih (by simp [Conf.view, hpc, Proc.view]) hst
        cases x with
        | inl s' =>
          simp only [hst, Option.some.injEq, Prod.mk.injEq] at he
          obtain ⟨rfl, rfl⟩ := he
          rw [view_upd, Option.toList_none, List.append_nil]
          exact this
        | inr r =>
          simp only [hst, Option.some.injEq, Prod.mk.injEq] at he
          obtain ⟨rfl, rfl⟩ := he
          rw [view_upd, Option.toList_none, List.append_nil]
          exact this
    | ret op r =>
      simp only [hpc, Option.some.injEq, Prod.mk.injEq] at he
      obtain ⟨rfl, rfl⟩ := he
      have := hret m.g m.view H i op r ih (by simp [Conf.view, hpc, Proc.view])
      rw [view_upd]
      have e2 : upd m.view i (Proc.done op r).view = m.view := by
        funext j
        by_cases hj : j = i
        · subst hj; simp [Conf.view, hpc, Proc.view]
        · simp [upd_ne _ _ hj]
      rw [e2]
      exact this

/-- Induction over all executions of a program: an invariant of the shared state, the views of the calls and the
history. -/
theorem Prog.induct (P : Prog G Op Res S) (I : G → View Op Res S → List (Ev Op Res) → Prop)
    (h0 : I P.init (fun _ => none) [])
    (hinv : ∀ g v H i op, I g v H → v i = none → I g (upd v i (some (op, .inl (P.begin op)))) (H ++ [.inv i op]))
    (hstep : ∀ g v H i op s c g' x, I g v H → v i = some (op, .inl s) → P.step g i op s c = some (g', x) →
      I g' (upd v i (some (op, x))) H)
    (hret : ∀ g v H i op r, I g v H → v i = some (op, .inr r) → I g v (H ++ [.ret i r]))
    {m : Conf G Op Res S} {H : List (Ev Op Res)} (h : P.mach.Exec m H) : I m.g m.view H := by
  induction h with
  | init => exact h0
  | tau _ hs ih => have := P.keep I hinv hstep hret ih hs; simpa using this
  | ev _ hs ih => exact P.keep I hinv hstep hret ih hs

/-- The history records exactly the calls made, and only decided results. -/
theorem Prog.hist (P : Prog G Op Res S) {m : Conf G Op Res S} {H : List (Ev Op Res)} (h : P.mach.Exec m H) :
    (∀ i op, Ev.inv i op ∈ H ↔ ∃ x, m.view i = some (op, x)) ∧
    (∀ i r, Ev.ret i r ∈ H → ∃ op, m.view i = some (op, .inr r)) := by
  refine P.induct (fun g v H => (∀ i op, Ev.inv i op ∈ H ↔ ∃ x, v i = some (op, x)) ∧
    (∀ i r, Ev.ret i r ∈ H → ∃ op, v i = some (op, .inr r))) ?_ ?_ ?_ ?_ h
  · simp
  · rintro g v H i op ⟨h1, h2⟩ hv
    refine ⟨fun j op' => ?_, fun j r hr => ?_⟩
    · simp only [List.mem_append, List.mem_singleton, Ev.inv.injEq, h1]
      by_cases hj : j = i
      · subst hj; simp [hv, eq_comm]
      · simp [upd_ne _ _ hj, hj]
    · simp only [List.mem_append, List.mem_singleton, reduceCtorEq, or_false] at hr
      obtain ⟨op', ho⟩ := h2 j r hr
      refine ⟨op', ?_⟩
      by_cases hj : j = i
      · subst hj; rw [hv] at ho; simp at ho
      · rw [upd_ne _ _ hj]; exact ho
  · rintro g v H i op s c g' x ⟨h1, h2⟩ hv hst
    refine ⟨fun j op' => ?_, fun j r hr => ?_⟩
    · rw [h1]
      by_cases hj : j = i
      · subst hj; simp [hv]
      · simp [upd_ne _ _ hj]
    · obtain ⟨op', ho⟩ := h2 j r hr
      refine ⟨op', ?_⟩
      by_cases hj : j = i
      · subst hj; rw [hv] at ho; simp at ho
      · rw [upd_ne _ _ hj]; exact ho
  · rintro g v H i op r ⟨h1, h2⟩ hv
    refine ⟨fun j op' => ?_, fun j r' hr => ?_⟩
    · simp [h1]
    · simp only [List.mem_append, List.mem_singleton, Ev.ret.injEq] at hr
      rcases hr with hr | ⟨rfl, rfl⟩
      · exact h2 j r' hr
      · exact ⟨op, hv⟩

/-- A call returns what its operation decided. -/
theorem Prog.ret_view (P : Prog G Op Res S) {m : Conf G Op Res S} {H : List (Ev Op Res)} (h : P.mach.Exec m H) {i : Nat} {op : Op} {r : Res}
    (hi : Ev.inv i op ∈ H) (hr : Ev.ret i r ∈ H) : m.view i = some (op, .inr r) := by
  obtain ⟨h1, h2⟩ := P.hist h
  obtain ⟨x, hx⟩ := (h1 i op).mp hi
  obtain ⟨op', ho⟩ := h2 i r hr
  rw [hx] at ho
  simp only [Option.some.injEq, Prod.mk.injEq] at ho
  rw [hx, ho.2]

/-- A call that is done has returned its result. -/
theorem Prog.done_mem (P : Prog G Op Res S) {m : Conf G Op Res S} {H : List (Ev Op Res)} (h : P.mach.Exec m H) :
    ∀ {i : Nat} {op : Op} {r : Res}, m.pc i = .done op r → Ev.ret i r ∈ H := by
  suffices h : ∀ i op r, m.pc i = .done op r → Ev.ret i r ∈ H from fun {i op r} => h i op r
  induction h with
  | init => intro i op r hd; simp [Prog.mach] at hd
  | @tau m m' H _ hs ih =>
    intro i op r hd
    apply ih i op r
    cases hs with
    | run j c _ _ he =>
      simp only [Prog.mach] at he
      by_cases hij : i = j
      · subst hij
        split at he
        · simp at he
        · split at he <;> simp only [Option.some.injEq, Prod.mk.injEq, reduceCtorEq] at he
          all_goals
            obtain ⟨_, rfl⟩ := he
            simp at hd
        · simp at he
        · simp at he
      · split at he
        · simp at he
        · split at he <;> simp only [Option.some.injEq, Prod.mk.injEq, reduceCtorEq] at he
          all_goals
            obtain ⟨_, rfl⟩ := he
            simpa [upd_ne _ _ hij] using hd
        · simp at he
        · simp at he
  | @ev m m' H e _ hs ih =>
    intro i op r hd
    rw [List.mem_append]
    cases hs with
    | inv j op' _ he =>
      left
      apply ih i op r
      simp only [Prog.mach] at he
      split at he
      · simp only [Option.some.injEq] at he
        subst he
        by_cases hij : i = j
        · subst hij; simp at hd
        · simpa [upd_ne _ _ hij] using hd
      · simp at he
    | run j c _ _ he =>
      simp only [Prog.mach] at he
      split at he
      · simp at he
      · split at he <;> simp at he
      · rename_i op' r' hpc
        simp only [Option.some.injEq, Prod.mk.injEq] at he
        obtain ⟨rfl, rfl⟩ := he
        by_cases hij : i = j
        · subst hij
          simp only [upd_same, Proc.done.injEq] at hd
          right
          rw [hd.2]; simp
        · left
          apply ih i op r
          simpa [upd_ne _ _ hij] using hd
      · simp at he

/-- A call that has been made but has not returned is at a local point or about to return. -/
theorem Prog.pending (P : Prog G Op Res S) {m : Conf G Op Res S} {H : List (Ev Op Res)} (h : P.mach.Exec m H) {i : Nat} {op : Op}
    (hi : Ev.inv i op ∈ H) (hr : ∀ r, Ev.ret i r ∉ H) : (∃ s, m.pc i = .at op s) ∨ ∃ r, m.pc i = .ret op r := by
  obtain ⟨x, hx⟩ := ((P.hist h).1 i op).mp hi
  simp only [Conf.view] at hx
  cases hpc : m.pc i with
  | idle => rw [hpc] at hx; simp [Proc.view] at hx
  | «at» op' s => rw [hpc] at hx; simp only [Proc.view, Option.some.injEq, Prod.mk.injEq] at hx; exact Or.inl ⟨s, by rw [hx.1]⟩
  | ret op' r => rw [hpc] at hx; simp only [Proc.view, Option.some.injEq, Prod.mk.injEq] at hx; exact Or.inr ⟨r, by rw [hx.1]⟩
  | done op' r => exact absurd (P.done_mem h hpc) (hr r)

end Verif.Conc
