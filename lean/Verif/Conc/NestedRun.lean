import Verif.Conc.Nested
/-!
# Executions with nested calls, given by a schedule

Only for examples: a schedule as a list of moves, and the state it leads to.
-/
namespace Verif.Conc

variable {G Op Res S : Type} {P : Prog G Op Res S} {F : Fns Op Res S}

/-- The moves of goroutine `t`. -/
inductive NMove (Op : Type) where
  /-- begins a call -/
  | start (t i : Nat) (op : Op)
  /-- the user function begins call `j` -/
  | nest (t j : Nat)
  /-- a step of the innermost call, with a choice, or its return -/
  | run (t c : Nat)

/-- For concrete executions: one move of a nested program, computed. -/
def nmove (P : Prog G Op Res S) (F : Fns Op Res S) (n : NConf G Op Res S) : NMove Op → Option (List (Ev Op Res) × NConf G Op Res S)
  | .start t i op => match n.stack t with
    | [] => (P.mach.invoke n.m i op).map fun m' => ([.inv i op], ⟨m', upd n.stack t [(i, [])]⟩)
    | _ => none
  | .nest t j => match n.stack t with
    | [] => none
    | (i, tr) :: rest => match n.m.pc i with
      | .at op s => match F op s tr with
        | none => none
        | some op' => (P.mach.invoke n.m j op').map fun m' => ([.inv j op'], ⟨m', upd n.stack t ((j, []) :: (i, tr) :: rest)⟩)
      | _ => none
  | .run t c => match n.stack t with
    | [] => none
    | (i, tr) :: rest => match n.m.pc i with
      | .at op s => match F op s tr with
        | some _ => none
        | none => match P.mach.next n.m i c with
          | some (none, m') => some ([], ⟨m', upd n.stack t ((i, []) :: rest)⟩)
          | _ => none
      | .ret op r => match P.mach.next n.m i c with
        | some (some e, m') => some ([e], ⟨m', upd n.stack t (handBack op r rest)⟩)
        | _ => none
      | _ => none

/-- For concrete executions: several moves of a nested program, computed. -/
def nmoves (P : Prog G Op Res S) (F : Fns Op Res S) (n : NConf G Op Res S) : List (NMove Op) → Option (List (Ev Op Res) × NConf G Op Res S)
  | [] => some ([], n)
  | l :: ls => match nmove P F n l with
    | none => none
    | some (H, n') => (nmoves P F n' ls).map fun x => (H ++ x.1, x.2)

theorem nmove_step {n n' : NConf G Op Res S} {l : NMove Op} {H : List (Ev Op Res)} (h : nmove P F n l = some (H, n')) : ∃ b o, NStep P F n b o n' ∧ H = o.toList := by
  cases l with
  | start t i op =>
    simp only [nmove] at h
    split at h
    · rename_i hst
      simp only [Option.map_eq_some_iff, Prod.mk.injEq] at h
      obtain ⟨m', hi, rfl, rfl⟩ := h
      exact ⟨_, _, .start hst hi, rfl⟩
    · simp at h
  | nest t j =>
    simp only [nmove] at h
    split at h
    · simp at h
    · rename_i i tr rest hst
      split at h
      · rename_i op s hp
        split at h
        · simp at h
        · rename_i op' hF
          simp only [Option.map_eq_some_iff, Prod.mk.injEq] at h
          obtain ⟨m', hi, rfl, rfl⟩ := h
          exact ⟨_, _, .nest hst hp hF hi, rfl⟩
      · simp at h
  | run t c =>
    simp only [nmove] at h
    split at h
    · simp at h
    · rename_i i tr rest hst
      split at h
      · rename_i op s hp
        split at h
        · simp at h
        · rename_i hF
          split at h
          · rename_i m' hn
            simp only [Option.some.injEq, Prod.mk.injEq] at h
            obtain ⟨rfl, rfl⟩ := h
            exact ⟨_, _, .run hst hp hF hn, rfl⟩
          · simp at h
      · rename_i op r hp
        split at h
        · rename_i e m' hn
          simp only [Option.some.injEq, Prod.mk.injEq] at h
          obtain ⟨rfl, rfl⟩ := h
          exact ⟨_, _, .ret hst hp hn, rfl⟩
        · simp at h
      · simp at h

theorem nmoves_exec {ls : List (NMove Op)} : ∀ {n n' : NConf G Op Res S} {H H' : List (Ev Op Res)}, NExec P F n H → nmoves P F n ls = some (H', n') →
    NExec P F n' (H ++ H') := by
  induction ls with
  | nil =>
    intro n n' H H' h hm
    simp only [nmoves, Option.some.injEq, Prod.mk.injEq] at hm
    obtain ⟨rfl, rfl⟩ := hm
    simpa using h
  | cons l ls ih =>
    intro n n' H H' h hm
    simp only [nmoves] at hm
    split at hm
    · simp at hm
    · rename_i H₁ n₁ h1
      simp only [Option.map_eq_some_iff] at hm
      obtain ⟨⟨H₂, n₂⟩, h2, h3⟩ := hm
      simp only [Prod.mk.injEq] at h3
      obtain ⟨rfl, rfl⟩ := h3
      obtain ⟨b, o, hs, rfl⟩ := nmove_step h1
      have := ih (.step h hs) h2
      simpa [List.append_assoc] using this

/-- A schedule, the history it has, and a property of the state it leads to. -/
theorem exists_nexec (ls : List (NMove Op)) (H : List (Ev Op Res)) (Q : NConf G Op Res S → Prop)
    (h : (nmoves P F ⟨P.mach.start, fun _ => []⟩ ls).elim False fun x => x.1 = H ∧ Q x.2) : ∃ n, NExec P F n H ∧ Q n := by
  cases hx : nmoves P F ⟨P.mach.start, fun _ => []⟩ ls with
  | none => rw [hx] at h; exact h.elim
  | some x =>
    rw [hx] at h
    obtain ⟨rfl, hq⟩ := h
    exact ⟨x.2, by simpa using nmoves_exec .init hx, hq⟩

end Verif.Conc
