import Verif.Conc.Prog
/-!
# User functions that make calls themselves

Some points of the calls of a program are calls of user functions. Here the user functions may make calls of the same program: while a call
is at such a point, the goroutine that runs it makes other calls, one after the other, each of which may call user functions in turn. Every
goroutine has a stack of calls, of which only the last one moves.
-/
namespace Verif.Conc

variable {G Op Res S : Type}

/-- The user functions: the next call that the function called at point `s` of an `op` makes after the calls and results `tr`, or `none` if it
returns. At the other points it is `none`. -/
abbrev Fns (Op Res S : Type) := Op → S → List (Op × Res) → Option Op

/-- A call that a goroutine has not finished, and what the function it has called, if any, has done so far. -/
abbrev Frame (Op Res : Type) := Nat × List (Op × Res)

/-- General machinery, no code of /repo: a state of a program in which user functions make calls: the calls in progress, and who has called whom. -/
structure NConf (G Op Res S : Type) where
  m : Conf G Op Res S
  /-- the unfinished calls of every goroutine, the innermost one first -/
  stack : Nat → List (Frame Op Res)

/-- A call has returned `r` to the function that made it. -/
def handBack (op : Op) (r : Res) : List (Frame Op Res) → List (Frame Op Res)
  | [] => []
  | (i, tr) :: rest => (i, tr ++ [(op, r)]) :: rest

/-- All steps; the flag says whether a goroutine begins a call that is not made by a user function. -/
inductive NStep (P : Prog G Op Res S) (F : Fns Op Res S) : NConf G Op Res S → Bool → Option (Ev Op Res) → NConf G Op Res S → Prop where
  /-- a goroutine without unfinished calls begins a call -/
  | start {n : NConf G Op Res S} {t i : Nat} {op : Op} {m' : Conf G Op Res S} : n.stack t = [] → P.mach.invoke n.m i op = some m' →
      NStep P F n true (some (.inv i op)) ⟨m', upd n.stack t [(i, [])]⟩
  /-- a user function begins a call -/
  | nest {n : NConf G Op Res S} {t i j : Nat} {tr : List (Op × Res)} {rest : List (Frame Op Res)} {op op' : Op} {s : S} {m' : Conf G Op Res S} :
      n.stack t = (i, tr) :: rest → n.m.pc i = .at op s → F op s tr = some op' → P.mach.invoke n.m j op' = some m' →
      NStep P F n false (some (.inv j op')) ⟨m', upd n.stack t ((j, []) :: (i, tr) :: rest)⟩
  /-- a step of the innermost call; if it is at the call of a user function, the function has made its last call -/
  | run {n : NConf G Op Res S} {t i c : Nat} {tr : List (Op × Res)} {rest : List (Frame Op Res)} {op : Op} {s : S} {m' : Conf G Op Res S} :
      n.stack t = (i, tr) :: rest → n.m.pc i = .at op s → F op s tr = none → P.mach.next n.m i c = some (none, m') →
      NStep P F n false none ⟨m', upd n.stack t ((i, []) :: rest)⟩
  /-- the innermost call returns -/
  | ret {n : NConf G Op Res S} {t i c : Nat} {tr : List (Op × Res)} {rest : List (Frame Op Res)} {op : Op} {r : Res} {e : Ev Op Res}
      {m' : Conf G Op Res S} :
      n.stack t = (i, tr) :: rest → n.m.pc i = .ret op r → P.mach.next n.m i c = some (some e, m') →
      NStep P F n false (some e) ⟨m', upd n.stack t (handBack op r rest)⟩

/-- Reachable states with their histories, over all schedules. -/
inductive NExec (P : Prog G Op Res S) (F : Fns Op Res S) : NConf G Op Res S → List (Ev Op Res) → Prop where
  | init : NExec P F ⟨P.mach.start, fun _ => []⟩ []
  | step {n n' : NConf G Op Res S} {H : List (Ev Op Res)} {b : Bool} {l : Option (Ev Op Res)} : NExec P F n H → NStep P F n b l n' →
      NExec P F n' (H ++ l.toList)

/-- `NLeads P F n H n' H'`: an execution from `n` with history `H` leads to `n'` with history `H'`. -/
inductive NLeads (P : Prog G Op Res S) (F : Fns Op Res S) : NConf G Op Res S → List (Ev Op Res) → NConf G Op Res S → List (Ev Op Res) → Prop where
  | refl {n : NConf G Op Res S} {H : List (Ev Op Res)} : NLeads P F n H n H
  | step {n n' n'' : NConf G Op Res S} {H H' : List (Ev Op Res)} {b : Bool} {l : Option (Ev Op Res)} : NLeads P F n H n' H' → NStep P F n' b l n'' →
      NLeads P F n H n'' (H' ++ l.toList)

variable {P : Prog G Op Res S} {F : Fns Op Res S}

theorem NLeads.exec {n n' : NConf G Op Res S} {H H' : List (Ev Op Res)} (h : NLeads P F n H n' H') (he : NExec P F n H) : NExec P F n' H' := by
  induction h with
  | refl => exact he
  | step _ hs ih => exact .step (ih he) hs

theorem NLeads.after {n n₁ n' : NConf G Op Res S} {H H' : List (Ev Op Res)} {b : Bool} {l : Option (Ev Op Res)} (h : NLeads P F n₁ (H ++ l.toList) n' H')
    (hs : NStep P F n b l n₁) : NLeads P F n H n' H' := by
  generalize hH : H ++ l.toList = H₁ at h
  induction h with
  | refl => subst hH; exact .step .refl hs
  | step _ h1 ih => exact .step (ih hH) h1

theorem NStep.flat {n n' : NConf G Op Res S} {b : Bool} {l : Option (Ev Op Res)} (h : NStep P F n b l n') : P.mach.Step n.m l n'.m := by
  cases h with
  | start _ h => exact .inv _ _ _ _ h
  | nest _ _ _ h => exact .inv _ _ _ _ h
  | run _ _ _ h => exact .run _ _ _ _ _ h
  | ret _ _ h => exact .run _ _ _ _ _ h

/-- An execution with nested calls is an execution of the program: whatever holds for all its concurrent calls holds here. -/
theorem NExec.flat {n : NConf G Op Res S} {H : List (Ev Op Res)} (h : NExec P F n H) : P.mach.Exec n.m H := by
  induction h with
  | init => exact .init
  | @step n n' H b l _ hs ih =>
    cases l with
    | none => rw [Option.toList_none, List.append_nil]; exact .tau ih hs.flat
    | some e => exact .ev ih hs.flat

/-- The call has begun and not returned. -/
def Conf.Pending (m : Conf G Op Res S) (i : Nat) : Prop := (∃ op s, m.pc i = .at op s) ∨ ∃ op r, m.pc i = .ret op r

/-- The operation of a call that has begun. -/
def Proc.op? : Proc Op Res S → Option Op
  | .idle => none
  | .at op _ | .ret op _ | .done op _ => some op

/-- Every call but the outermost one was made by the function that the next call of the stack has called. -/
def Linked (F : Fns Op Res S) (m : Conf G Op Res S) : List (Frame Op Res) → Prop
  | [] => True
  | [_] => True
  | (j, _) :: (i, tr) :: rest => (∃ op s op', m.pc i = .at op s ∧ F op s tr = some op' ∧ (m.pc j).op? = some op') ∧ Linked F m ((i, tr) :: rest)

/-- Proof only: invariant of nested calls. -/
structure NInv (F : Fns Op Res S) (n : NConf G Op Res S) : Prop where
  pending : ∀ i, n.m.Pending i ↔ ∃ t tr, (i, tr) ∈ n.stack t
  nodup : ∀ t, ((n.stack t).map (·.1)).Nodup
  disj : ∀ t t' i tr tr', (i, tr) ∈ n.stack t → (i, tr') ∈ n.stack t' → t = t'
  linked : ∀ t, Linked F n.m (n.stack t)

theorem Linked.congr {m m' : Conf G Op Res S} : ∀ {st : List (Frame Op Res)}, Linked F m st → (∀ i tr, (i, tr) ∈ st → m'.pc i = m.pc i) → Linked F m' st
  | [], _, _ => trivial
  | [_], _, _ => trivial
  | (j, tr') :: (i, tr) :: rest, h, he => by
    obtain ⟨⟨op, s, op', h1, h2, h3⟩, h4⟩ := h
    exact ⟨⟨op, s, op', by rw [he i tr (by simp)]; exact h1, h2, by rw [he j tr' (by simp)]; exact h3⟩,
      h4.congr fun i tr hi => he i tr (List.mem_cons_of_mem _ hi)⟩

/-- The innermost call has moved. -/
theorem Linked.top {m m' : Conf G Op Res S} {i : Nat} {tr tr' : List (Op × Res)} {rest : List (Frame Op Res)} (h : Linked F m ((i, tr) :: rest))
    (hi : (m'.pc i).op? = (m.pc i).op?) (he : ∀ j tr, (j, tr) ∈ rest → m'.pc j = m.pc j) : Linked F m' ((i, tr') :: rest) := by
  cases rest with
  | nil => trivial
  | cons f rest =>
    obtain ⟨⟨op, s, op', h1, h2, h3⟩, h4⟩ := h
    exact ⟨⟨op, s, op', by rw [he f.1 f.2 (by simp)]; exact h1, h2, by rw [hi]; exact h3⟩, h4.congr he⟩

theorem Linked.tail {m : Conf G Op Res S} {f : Frame Op Res} {rest : List (Frame Op Res)} (h : Linked F m (f :: rest)) : Linked F m rest := by
  cases rest with
  | nil => trivial
  | cons g rest => exact h.2

theorem Linked.handBack {m : Conf G Op Res S} {op : Op} {r : Res} {rest : List (Frame Op Res)} (h : Linked F m rest) : Linked F m (handBack op r rest) := by
  cases rest with
  | nil => trivial
  | cons f rest => exact h.top rfl fun _ _ _ => rfl

theorem mem_handBack {op : Op} {r : Res} {rest : List (Frame Op Res)} {i : Nat} : (∃ tr, (i, tr) ∈ handBack op r rest) ↔ ∃ tr, (i, tr) ∈ rest := by
  cases rest with
  | nil => simp [handBack]
  | cons f rest =>
    obtain ⟨j, tr⟩ := f
    simp only [handBack, List.mem_cons, Prod.mk.injEq, exists_or]
    simp

theorem map_handBack {op : Op} {r : Res} {rest : List (Frame Op Res)} : (handBack op r rest).map (·.1) = rest.map (·.1) := by
  cases rest <;> rfl

theorem invoke_eq {m m' : Conf G Op Res S} {i : Nat} {op : Op} (h : P.mach.invoke m i op = some m') :
    m.pc i = .idle ∧ m' = ⟨m.g, upd m.pc i (.at op (P.begin op))⟩ := by
  simp only [Prog.mach] at h
  split at h
  · rename_i hp; simp only [Option.some.injEq] at h; exact ⟨hp, h.symm⟩
  · simp at h

/-- Where a call of `op` is after a step with outcome `x`. -/
def Proc.upto (op : Op) : S ⊕ Res → Proc Op Res S
  | .inl s => .at op s
  | .inr r => .ret op r

theorem run_eq {m m' : Conf G Op Res S} {i c : Nat} {op : Op} {s : S} (hp : m.pc i = .at op s) (h : P.mach.next m i c = some (none, m')) :
    ∃ g' x, P.step m.g i op s c = some (g', x) ∧ m' = ⟨g', upd m.pc i (.upto op x)⟩ := by
  simp only [Prog.mach, hp] at h
  split at h
  · simp at h
  · rename_i g' s' hst; simp only [Option.some.injEq, Prod.mk.injEq, true_and] at h; exact ⟨g', _, hst, h.symm⟩
  · rename_i g' r hst; simp only [Option.some.injEq, Prod.mk.injEq, true_and] at h; exact ⟨g', _, hst, h.symm⟩

theorem ret_eq {m m' : Conf G Op Res S} {i c : Nat} {op : Op} {r : Res} {e : Ev Op Res} (hp : m.pc i = .ret op r)
    (h : P.mach.next m i c = some (some e, m')) : e = .ret i r ∧ m' = ⟨m.g, upd m.pc i (.done op r)⟩ := by
  simp only [Prog.mach, hp, Option.some.injEq, Prod.mk.injEq] at h
  exact ⟨h.1.symm, h.2.symm⟩

theorem NInv.step {n n' : NConf G Op Res S} {b : Bool} {l : Option (Ev Op Res)} (hI : NInv F n) (h : NStep P F n b l n') : NInv F n' := by
  have idle : ∀ {i : Nat}, n.m.pc i = .idle → ∀ t tr, (i, tr) ∉ n.stack t := fun {i} hi t tr hm => by
    rcases (hI.pending i).mpr ⟨t, tr, hm⟩ with ⟨_, _, h⟩ | ⟨_, _, h⟩ <;> rw [hi] at h <;> simp at h
  -- a new innermost call `j` of goroutine `t`, not yet begun before
  have push : ∀ {t j : Nat} {op : Op} {st : List (Frame Op Res)}, n.stack t = st → n.m.pc j = .idle →
      Linked F ⟨n.m.g, upd n.m.pc j (.at op (P.begin op))⟩ ((j, []) :: st) →
      NInv F ⟨⟨n.m.g, upd n.m.pc j (.at op (P.begin op))⟩, upd n.stack t ((j, []) :: st)⟩ := by
    intro t j op st hst hj hlk
    refine ⟨fun i => ?_, fun t' => ?_, fun t1 t2 i tr tr' h1 h2 => ?_, fun t' => ?_⟩
    · by_cases hij : i = j
      · subst hij
        refine ⟨fun _ => ⟨t, [], by simp⟩, fun _ => .inl ⟨op, P.begin op, by simp⟩⟩
      · have hp : (Conf.Pending ⟨n.m.g, upd n.m.pc j (.at op (P.begin op))⟩ i ↔ n.m.Pending i) := by
          simp only [Conf.Pending, upd_ne _ _ hij]
        rw [hp, hI.pending i]
        constructor
        · rintro ⟨t', tr, hm⟩
          refine ⟨t', tr, ?_⟩
          by_cases ht : t' = t
          · subst ht; simp only [upd_same]; rw [← hst]; exact List.mem_cons_of_mem _ hm
          · simpa [upd_ne _ _ ht] using hm
        · rintro ⟨t', tr, hm⟩
          refine ⟨t', tr, ?_⟩
          by_cases ht : t' = t
          · subst ht
            simp only [upd_same, List.mem_cons, Prod.mk.injEq] at hm
            rcases hm with ⟨h, _⟩ | hm
            · exact absurd h hij
            · rw [hst]; exact hm
          · simpa [upd_ne _ _ ht] using hm
    · by_cases ht : t' = t
      · subst ht
        simp only [upd_same, List.map_cons, List.nodup_cons]
        refine ⟨fun hm => ?_, by rw [← hst]; exact hI.nodup t'⟩
        obtain ⟨⟨j', tr⟩, hm', rfl⟩ := List.mem_map.mp hm
        exact idle hj t' tr (by rw [hst]; exact hm')
      · simp only [upd_ne _ _ ht]; exact hI.nodup t'
    · have aux : ∀ t1 tr, (i, tr) ∈ upd n.stack t ((j, []) :: st) t1 → i = j ∧ t1 = t ∨ (i, tr) ∈ n.stack t1 := by
        intro t1 tr h1
        by_cases ht : t1 = t
        · subst ht
          simp only [upd_same, List.mem_cons, Prod.mk.injEq] at h1
          rcases h1 with ⟨h, _⟩ | h
          · exact .inl ⟨h, rfl⟩
          · exact .inr (by rw [hst]; exact h)
        · exact .inr (by simpa [upd_ne _ _ ht] using h1)
      rcases aux t1 tr h1 with ⟨rfl, rfl⟩ | h1 <;> rcases aux t2 tr' h2 with ⟨h3, h4⟩ | h2
      · exact h4.symm
      · exact absurd h2 (idle hj _ _)
      · exact absurd h1 (by rw [h3]; exact idle hj _ _)
      · exact hI.disj _ _ _ _ _ h1 h2
    · by_cases ht : t' = t
      · subst ht; simpa using hlk
      · simp only [upd_ne _ _ ht]
        refine (hI.linked t').congr fun i tr hm => ?_
        have : i ≠ j := by rintro rfl; exact idle hj _ _ hm
        simp [upd_ne _ _ this]
  -- the calls of the other goroutines, and the outer ones of this one, are not the innermost one
  have other : ∀ {t i : Nat} {tr : List (Op × Res)} {rest : List (Frame Op Res)}, n.stack t = (i, tr) :: rest →
      (∀ j tr', (j, tr') ∈ rest → j ≠ i) ∧ ∀ t', t' ≠ t → ∀ j tr', (j, tr') ∈ n.stack t' → j ≠ i := by
    intro t i tr rest hst
    constructor
    · rintro j tr' hm rfl
      have := hI.nodup t
      rw [hst, List.map_cons, List.nodup_cons] at this
      exact this.1 (List.mem_map.mpr ⟨_, hm, rfl⟩)
    · rintro t' ht j tr' hm rfl
      exact ht (hI.disj t' t j _ _ hm (by rw [hst]; exact List.mem_cons_self))
  cases h with
  | start hst hi =>
    obtain ⟨hp, rfl⟩ := invoke_eq hi
    exact push hst hp trivial
  | @nest t i j tr rest op op' s m' hst hp hF hi =>
    obtain ⟨hj, rfl⟩ := invoke_eq hi
    have hij : i ≠ j := by rintro rfl; rw [hp] at hj; simp at hj
    refine push hst hj ⟨⟨op, s, op', by simpa [upd_ne _ _ hij] using hp, hF, by simp [Proc.op?]⟩, ?_⟩
    rw [← hst]
    refine (hI.linked t).congr fun i tr hm => ?_
    have : i ≠ j := by rintro rfl; exact idle hj _ _ hm
    simp [upd_ne _ _ this]
  | @run t i c tr rest op s m' hst hp hF hn =>
    obtain ⟨g', x, _, rfl⟩ := run_eq hp hn
    obtain ⟨ho, ho'⟩ := other hst
    refine ⟨fun j => ?_, fun t' => ?_, fun t1 t2 j tr1 tr2 h1 h2 => ?_, fun t' => ?_⟩
    · by_cases hij : j = i
      · subst hij
        refine ⟨fun _ => ⟨t, [], by simp⟩, fun _ => ?_⟩
        cases x with
        | inl s' => exact .inl ⟨op, s', by simp [Proc.upto]⟩
        | inr r => exact .inr ⟨op, r, by simp [Proc.upto]⟩
      · have hp' : ∀ p, (Conf.Pending ⟨g', upd n.m.pc i p⟩ j ↔ n.m.Pending j) := fun p => by
          simp only [Conf.Pending, upd_ne _ _ hij]
        refine (hp' _).trans ((hI.pending j).trans ?_)
        constructor
        · rintro ⟨t', tr', hm⟩
          refine ⟨t', tr', ?_⟩
          by_cases ht : t' = t
          · subst ht
            rw [hst, List.mem_cons, Prod.mk.injEq] at hm
            rcases hm with ⟨h, _⟩ | hm
            · exact absurd h hij
            · simp [hm]
          · simpa [upd_ne _ _ ht] using hm
        · rintro ⟨t', tr', hm⟩
          refine ⟨t', tr', ?_⟩
          by_cases ht : t' = t
          · subst ht
            simp only [upd_same, List.mem_cons, Prod.mk.injEq] at hm
            rcases hm with ⟨h, _⟩ | hm
            · exact absurd h hij
            · rw [hst]; exact List.mem_cons_of_mem _ hm
          · simpa [upd_ne _ _ ht] using hm
    · by_cases ht : t' = t
      · subst ht
        have := hI.nodup t'
        rw [hst] at this
        simpa using this
      · simp only [upd_ne _ _ ht]; exact hI.nodup t'
    · have aux : ∀ t1 tr1, (j, tr1) ∈ upd n.stack t ((i, []) :: rest) t1 → ∃ tr2, (j, tr2) ∈ n.stack t1 := by
        intro t1 tr1 h1
        by_cases ht : t1 = t
        · subst ht
          simp only [upd_same, List.mem_cons, Prod.mk.injEq] at h1
          rcases h1 with ⟨rfl, _⟩ | h1
          · exact ⟨tr, by rw [hst]; exact List.mem_cons_self⟩
          · exact ⟨tr1, by rw [hst]; exact List.mem_cons_of_mem _ h1⟩
        · exact ⟨tr1, by simpa [upd_ne _ _ ht] using h1⟩
      obtain ⟨_, h1⟩ := aux _ _ h1
      obtain ⟨_, h2⟩ := aux _ _ h2
      exact hI.disj _ _ _ _ _ h1 h2
    · by_cases ht : t' = t
      · subst ht
        simp only [upd_same]
        have hl := hI.linked t'
        rw [hst] at hl
        refine hl.top ?_ fun j tr' hm => by simp [upd_ne _ _ (ho j tr' hm)]
        cases x <;> simp [Proc.op?, Proc.upto, hp]
      · simp only [upd_ne _ _ ht]
        exact (hI.linked t').congr fun j tr' hm => by simp [upd_ne _ _ (ho' t' ht j tr' hm)]
  | @ret t i c tr rest op r e m' hst hp hn =>
    obtain ⟨_, rfl⟩ := ret_eq hp hn
    obtain ⟨ho, ho'⟩ := other hst
    have aux : ∀ t1 j, (∃ tr1, (j, tr1) ∈ upd n.stack t (handBack op r rest) t1) → ∃ tr2, (j, tr2) ∈ n.stack t1 := by
      rintro t1 j ⟨tr1, h1⟩
      by_cases ht : t1 = t
      · subst ht
        simp only [upd_same] at h1
        obtain ⟨tr2, h2⟩ := mem_handBack.mp ⟨tr1, h1⟩
        exact ⟨tr2, by rw [hst]; exact List.mem_cons_of_mem _ h2⟩
      · exact ⟨tr1, by simpa [upd_ne _ _ ht] using h1⟩
    refine ⟨fun j => ?_, fun t' => ?_, fun t1 t2 j tr1 tr2 h1 h2 => ?_, fun t' => ?_⟩
    · by_cases hij : j = i
      · subst hij
        constructor
        · rintro (⟨_, _, h⟩ | ⟨_, _, h⟩) <;> simp at h
        · rintro ⟨t', tr', hm⟩
          exfalso
          by_cases ht : t' = t
          · subst ht
            simp only [upd_same] at hm
            obtain ⟨tr2, h2⟩ := mem_handBack.mp ⟨tr', hm⟩
            exact ho j tr2 h2 rfl
          · exact ho' t' ht j tr' (by simpa [upd_ne _ _ ht] using hm) rfl
      · have hp' : (Conf.Pending ⟨n.m.g, upd n.m.pc i (.done op r)⟩ j ↔ n.m.Pending j) := by
          simp only [Conf.Pending, upd_ne _ _ hij]
        rw [hp', hI.pending j]
        constructor
        · rintro ⟨t', tr', hm⟩
          by_cases ht : t' = t
          · subst ht
            rw [hst, List.mem_cons, Prod.mk.injEq] at hm
            rcases hm with ⟨h, _⟩ | hm
            · exact absurd h hij
            · obtain ⟨tr2, h2⟩ := mem_handBack (op := op) (r := r).mpr ⟨tr', hm⟩
              exact ⟨t', tr2, by simpa using h2⟩
          · exact ⟨t', tr', by simpa [upd_ne _ _ ht] using hm⟩
        · rintro ⟨t', tr', hm⟩
          obtain ⟨tr2, h2⟩ := aux t' j ⟨tr', hm⟩
          exact ⟨t', tr2, h2⟩
    · by_cases ht : t' = t
      · subst ht
        have := hI.nodup t'
        rw [hst, List.map_cons, List.nodup_cons] at this
        simp only [upd_same, map_handBack]
        exact this.2
      · simp only [upd_ne _ _ ht]; exact hI.nodup t'
    · obtain ⟨_, h1⟩ := aux _ _ ⟨_, h1⟩
      obtain ⟨_, h2⟩ := aux _ _ ⟨_, h2⟩
      exact hI.disj _ _ _ _ _ h1 h2
    · by_cases ht : t' = t
      · subst ht
        simp only [upd_same]
        have hl := hI.linked t'
        rw [hst] at hl
        refine Linked.handBack (hl.tail.congr fun j tr' hm => by simp [upd_ne _ _ (ho j tr' hm)])
      · simp only [upd_ne _ _ ht]
        exact (hI.linked t').congr fun j tr' hm => by simp [upd_ne _ _ (ho' t' ht j tr' hm)]

theorem NExec.inv {n : NConf G Op Res S} {H : List (Ev Op Res)} (h : NExec P F n H) : NInv F n := by
  induction h with
  | init =>
    refine ⟨fun i => ⟨?_, ?_⟩, fun t => by simp, fun t t' i tr tr' h => by simp at h, fun t => trivial⟩
    · rintro (⟨_, _, h⟩ | ⟨_, _, h⟩) <;> simp [Prog.mach] at h
    · rintro ⟨t, tr, h⟩; simp at h
  | step _ hs ih => exact ih.step hs

/-- The innermost call is no other one. -/
theorem NInv.other {n : NConf G Op Res S} (hI : NInv F n) {t i : Nat} {tr : List (Op × Res)} {rest : List (Frame Op Res)} (hst : n.stack t = (i, tr) :: rest) :
    (∀ f ∈ rest, f.1 ≠ i) ∧ ∀ t', t' ≠ t → ∀ f ∈ n.stack t', f.1 ≠ i := by
  constructor
  · rintro ⟨j, tr'⟩ hm rfl
    have := hI.nodup t
    rw [hst, List.map_cons, List.nodup_cons] at this
    exact this.1 (List.mem_map.mpr ⟨_, hm, rfl⟩)
  · rintro t' ht ⟨j, tr'⟩ hm rfl
    exact ht (hI.disj t' t j _ _ hm (by rw [hst]; exact List.mem_cons_self))

theorem NInv.idle {n : NConf G Op Res S} (hI : NInv F n) {j : Nat} (hj : n.m.pc j = .idle) (t : Nat) : ∀ f ∈ n.stack t, f.1 ≠ j := by
  rintro ⟨i, tr⟩ hm rfl
  rcases (hI.pending i).mpr ⟨t, tr, hm⟩ with ⟨_, _, h⟩ | ⟨_, _, h⟩ <;> rw [hj] at h <;> simp at h

/-- The function that made the innermost call. -/
theorem NInv.caller {n : NConf G Op Res S} (hI : NInv F n) {t i j : Nat} {tr tr' : List (Op × Res)} {rest : List (Frame Op Res)}
    (hst : n.stack t = (j, tr') :: (i, tr) :: rest) : ∃ op s op', n.m.pc i = .at op s ∧ F op s tr = some op' ∧ (n.m.pc j).op? = some op' := by
  have := hI.linked t
  rw [hst] at this
  exact this.1

/-- There is a number that no call has. -/
theorem exists_idle {m : Conf G Op Res S} {H : List (Ev Op Res)} (h : P.mach.Exec m H) : ∃ j, m.pc j = .idle := by
  have : ∃ b, ∀ i, b ≤ i → ∀ op, Ev.inv i op ∉ H := by
    clear h
    induction H with
    | nil => exact ⟨0, by simp⟩
    | cons e H ih =>
      obtain ⟨b, hb⟩ := ih
      cases e with
      | inv j op' => exact ⟨max b (j + 1), fun i hi op => by
          simp only [List.mem_cons, Ev.inv.injEq, not_or, not_and]
          exact ⟨fun h => by omega, hb i (by omega) op⟩⟩
      | ret j r => exact ⟨b, fun i hi op => by simp [hb i hi op]⟩
  obtain ⟨b, hb⟩ := this
  refine ⟨b, ?_⟩
  cases hp : m.pc b with
  | idle => rfl
  | «at» op s => exact absurd (((P.hist h).1 b op).mpr ⟨.inl s, by simp [Conf.view, hp, Proc.view]⟩) (hb b (Nat.le_refl _) op)
  | ret op r => exact absurd (((P.hist h).1 b op).mpr ⟨.inr r, by simp [Conf.view, hp, Proc.view]⟩) (hb b (Nat.le_refl _) op)
  | done op r => exact absurd (((P.hist h).1 b op).mpr ⟨.inr r, by simp [Conf.view, hp, Proc.view]⟩) (hb b (Nat.le_refl _) op)

/-- Nothing moves any more unless a goroutine begins something new. -/
def NConf.Stuck (P : Prog G Op Res S) (F : Fns Op Res S) (n : NConf G Op Res S) : Prop := ∀ l n', ¬ NStep P F n false l n'

/-- Levels of locks: `own op s` is the level of the lock that a call of `op` holds at `s`, `lvl op` a bound from below for the locks it takes. -/
structure Levels (P : Prog G Op Res S) (F : Fns Op Res S) (own : Op → S → Option Nat) (lvl : Op → Nat) (bound : Nat) : Prop where
  /-- a call that cannot move waits for a lock that another call holds -/
  waits : ∀ {m : Conf G Op Res S} {H : List (Ev Op Res)}, P.mach.Exec m H → ∀ {i : Nat} {op : Op} {s : S}, m.pc i = .at op s →
    (∃ m', P.mach.next m i 0 = some (none, m')) ∨
      own op s = none ∧ ∃ l i' op' s', lvl op ≤ l ∧ l < bound ∧ m.pc i' = .at op' s' ∧ own op' s' = some l
  /-- functions called with a lock held take only locks of a higher level -/
  above : ∀ {m : Conf G Op Res S} {H : List (Ev Op Res)}, P.mach.Exec m H → ∀ {i : Nat} {op : Op} {s : S}, m.pc i = .at op s →
    ∀ {tr : List (Op × Res)} {op' : Op}, F op s tr = some op' → lvl op ≤ lvl op' ∧ ∀ l, own op s = some l → l < lvl op'

/-- The level does not go down from a call to the innermost one. -/
theorem Linked.mono {own : Op → S → Option Nat} {lvl : Op → Nat} {bound : Nat} (hL : Levels P F own lvl bound) {m : Conf G Op Res S}
    {H : List (Ev Op Res)} (hE : P.mach.Exec m H) : ∀ {st : List (Frame Op Res)} {j i : Nat} {tr tr' : List (Op × Res)} {op op' : Op}, Linked F m ((j, tr) :: st) → (i, tr') ∈ st →
      (m.pc j).op? = some op' → (m.pc i).op? = some op → lvl op ≤ lvl op' ∧ ∀ s l, m.pc i = .at op s → own op s = some l → l < lvl op'
  | [], _, _, _, _, _, _, _, hm, _, _ => by simp at hm
  | (i₁, tr₁) :: st, j, i, tr, tr', op, op', h, hm, hj, hi => by
    obtain ⟨⟨op₁, s₁, op₂, h1, h2, h3⟩, h4⟩ := h
    rw [hj, Option.some.injEq] at h3
    subst h3
    obtain ⟨ha, hb⟩ := hL.above hE h1 h2
    have key : (m.pc i₁).op? = some op₁ := by rw [h1]; rfl
    rcases List.mem_cons.mp hm with h | hm
    · obtain ⟨rfl, rfl⟩ := Prod.mk.inj h
      rw [key, Option.some.injEq] at hi
      subst hi
      refine ⟨ha, fun s l hs ho => hb l ?_⟩
      rw [h1] at hs
      simp only [Proc.at.injEq, true_and] at hs
      rw [hs]; exact ho
    · obtain ⟨hc, hd⟩ := h4.mono hL hE hm key hi
      exact ⟨Nat.le_trans hc ha, fun s l hs ho => Nat.lt_of_lt_of_le (hd s l hs ho) ha⟩

/-- If the locks have levels, nested calls do not dead-lock. -/
theorem NExec.no_deadlock {own : Op → S → Option Nat} {lvl : Op → Nat} {bound : Nat} (hL : Levels P F own lvl bound) {n : NConf G Op Res S}
    {H : List (Ev Op Res)} (h : NExec P F n H) (hs : n.Stuck P F) : ∀ t, n.stack t = [] := by
  have hI := h.inv
  have hE := h.flat
  -- the innermost call of a goroutine waits for a lock
  have top : ∀ {t i : Nat} {tr : List (Op × Res)} {rest : List (Frame Op Res)}, n.stack t = (i, tr) :: rest →
      ∃ op s, n.m.pc i = .at op s ∧ own op s = none ∧ ∃ l i' op' s', lvl op ≤ l ∧ l < bound ∧ n.m.pc i' = .at op' s' ∧ own op' s' = some l := by
    intro t i tr rest hst
    rcases (hI.pending i).mpr ⟨t, tr, by rw [hst]; exact List.mem_cons_self⟩ with ⟨op, s, hp⟩ | ⟨op, r, hp⟩
    · cases hF : F op s tr with
      | some op' =>
        obtain ⟨j, hj⟩ := exists_idle hE
        exact absurd (NStep.nest (j := j) (m' := ⟨n.m.g, upd n.m.pc j (.at op' (P.begin op'))⟩) hst hp hF (by simp only [Prog.mach, hj])) (hs _ _)
      | none =>
        rcases hL.waits hE hp with ⟨m', hn⟩ | hw
        · exact absurd (NStep.run hst hp hF hn) (hs _ _)
        · exact ⟨op, s, hp, hw⟩
    · exact absurd (NStep.ret (c := 0) hst hp (by simp only [Prog.mach, hp]; rfl)) (hs _ _)
  have up : ∀ k, (∃ t, n.stack t ≠ []) → ∃ l i' op' s', k ≤ l ∧ l < bound ∧ n.m.pc i' = .at op' s' ∧ own op' s' = some l := by
    intro k hex
    induction k with
    | zero =>
      obtain ⟨t, ht⟩ := hex
      cases hst : n.stack t with
      | nil => exact absurd hst ht
      | cons f rest =>
        obtain ⟨_, _, _, _, l, i', op', s', _, h⟩ := top (i := f.1) (tr := f.2) (rest := rest) hst
        exact ⟨l, i', op', s', Nat.zero_le _, h⟩
    | succ k ih =>
      obtain ⟨l, i', op', s', hk, hlb, hp', ho'⟩ := ih
      obtain ⟨t, tr', hm⟩ := (hI.pending i').mp (.inl ⟨op', s', hp'⟩)
      cases hst : n.stack t with
      | nil => rw [hst] at hm; simp at hm
      | cons f rest =>
        obtain ⟨op, s, hp, ho, l₂, i₂, op₂, s₂, h1, h2, h3, h4⟩ := top (i := f.1) (tr := f.2) (rest := rest) hst
        rw [hst] at hm
        rcases List.mem_cons.mp hm with h | hm
        · obtain ⟨j, tr⟩ := f
          obtain ⟨rfl, rfl⟩ := Prod.mk.inj h
          simp only at hp
          rw [hp'] at hp
          obtain ⟨rfl, rfl⟩ := Proc.at.inj hp
          rw [ho'] at ho
          simp at ho
        · have hl := hI.linked t
          rw [hst] at hl
          obtain ⟨_, hlt⟩ := Linked.mono hL hE (j := f.1) (tr := f.2) (op' := op) (op := op') hl hm (by rw [hp]; rfl) (by rw [hp']; rfl)
          have := hlt s' l hp' ho'
          exact ⟨l₂, i₂, op₂, s₂, by omega, h2, h3, h4⟩
  intro t
  apply Classical.byContradiction
  intro ht
  obtain ⟨l, _, _, _, h1, h2, _⟩ := up bound ⟨t, ht⟩
  omega

/-- Where no goroutine has an unfinished call, all calls have returned. -/
theorem NExec.all_returned {n : NConf G Op Res S} {H : List (Ev Op Res)} (h : NExec P F n H) (hs : ∀ t, n.stack t = []) {i : Nat} {op : Op}
    (hi : Ev.inv i op ∈ H) : ∃ r, Ev.ret i r ∈ H := by
  apply Classical.byContradiction
  intro hr
  rcases P.pending h.flat hi (fun r hm => hr ⟨r, hm⟩) with ⟨s, hp⟩ | ⟨r, hp⟩
  · obtain ⟨t, tr, hm⟩ := (h.inv.pending i).mp (.inl ⟨_, _, hp⟩)
    rw [hs t] at hm; simp at hm
  · obtain ⟨t, tr, hm⟩ := (h.inv.pending i).mp (.inr ⟨_, _, hp⟩)
    rw [hs t] at hm; simp at hm

/-! ## Deadlocks -/

/-- The goroutines of `D` have not moved since `n₀`. -/
def Still (D : Nat → Prop) (n₀ n : NConf G Op Res S) : Prop :=
  ∀ t, D t → n.stack t = n₀.stack t ∧ ∀ f ∈ n.stack t, n.m.pc f.1 = n₀.m.pc f.1

/-- If the goroutines of `D` cannot move as long as `Q` holds, and the others cannot change `Q`, the goroutines of `D` never move again. -/
theorem NLeads.still {n₀ n : NConf G Op Res S} {H₀ H : List (Ev Op Res)} (hl : NLeads P F n₀ H₀ n H) (h₀ : NExec P F n₀ H₀) {D : Nat → Prop} {Q : G → Prop}
    (hq : Q n₀.m.g)
    (htop : ∀ t, D t → ∃ j tr rest op s, n₀.stack t = (j, tr) :: rest ∧ n₀.m.pc j = .at op s ∧ F op s tr = none ∧ ∀ g c, Q g → P.step g j op s c = none)
    (hkeep : ∀ n H, NExec P F n H → Still D n₀ n → Q n.m.g → ∀ i op s c g' x, n.m.pc i = .at op s → (∀ t tr, D t → (i, tr) ∉ n.stack t) →
      P.step n.m.g i op s c = some (g', x) → Q g') : Q n.m.g ∧ Still D n₀ n := by
  induction hl with
  | refl => exact ⟨hq, fun t _ => ⟨rfl, fun _ _ => rfl⟩⟩
  | @step n n' H₁ H b l hl hs ih =>
    obtain ⟨hQ, hS⟩ := ih h₀
    have h := hl.exec h₀
    have hI := h.inv
    -- a goroutine of `D` that does not move
    have dead : ∀ {t i : Nat} {tr : List (Op × Res)} {rest : List (Frame Op Res)}, D t → n.stack t = (i, tr) :: rest →
        ∃ op s, n.m.pc i = .at op s ∧ F op s tr = none ∧ ∀ c, P.mach.next n.m i c = none := by
      intro t i tr rest hD hst
      obtain ⟨j, tr₁, rest₁, op, s, h1, h2, h3, h4⟩ := htop t hD
      obtain ⟨h5, h6⟩ := hS t hD
      rw [hst, h1] at h5
      simp only [List.cons.injEq, Prod.mk.injEq] at h5
      obtain ⟨⟨rfl, rfl⟩, rfl⟩ := h5
      have hp : n.m.pc i = .at op s := (h6 (i, tr) (by rw [hst]; simp)).trans h2
      exact ⟨op, s, hp, h3, fun c => by simp only [Prog.mach, hp, h4 _ c hQ]⟩
    have keep : ∀ {t : Nat} {st : List (Frame Op Res)} {m' : Conf G Op Res S}, ¬ D t → (∀ t', D t' → ∀ f ∈ n.stack t', m'.pc f.1 = n.m.pc f.1) →
        Still D n₀ ⟨m', upd n.stack t st⟩ := by
      intro t st m' hD hm t' hD'
      have ht : t' ≠ t := by rintro rfl; exact hD hD'
      obtain ⟨h5, h6⟩ := hS t' hD'
      simp only [upd_ne _ _ ht]
      exact ⟨h5, fun f hf => (hm t' hD' f hf).trans (h6 f hf)⟩
    cases hs with
    | @start t i op m' hst hi =>
      obtain ⟨hp, rfl⟩ := invoke_eq hi
      refine ⟨hQ, keep (fun hD => ?_) fun t' _ f hf => by simp only [upd_ne _ _ (hI.idle hp t' f hf)]⟩
      obtain ⟨j, tr, rest, op, s, h1, _⟩ := htop t hD
      rw [(hS t hD).1, h1] at hst
      simp at hst
    | @nest t i j tr rest op op' s m' hst hp hF hi =>
      obtain ⟨hj, rfl⟩ := invoke_eq hi
      refine ⟨hQ, keep (fun hD => ?_) fun t' _ f hf => by simp only [upd_ne _ _ (hI.idle hj t' f hf)]⟩
      obtain ⟨op₁, s₁, h1, h2, _⟩ := dead hD hst
      rw [hp] at h1
      obtain ⟨rfl, rfl⟩ := Proc.at.inj h1
      rw [hF] at h2
      simp at h2
    | @run t i c tr rest op s m' hst hp hF hn =>
      have hD : ¬ D t := fun hD => by
        obtain ⟨op₁, s₁, h1, h2, h3⟩ := dead hD hst
        rw [h3] at hn
        simp at hn
      obtain ⟨g', x, hx, rfl⟩ := run_eq hp hn
      obtain ⟨_, ho'⟩ := hI.other hst
      refine ⟨hkeep n H h hS hQ i op s c g' x hp (fun t' tr' hD' hm => ?_) hx, keep hD fun t' hD' f hf => ?_⟩
      · exact ho' t' (by rintro rfl; exact hD hD') _ hm rfl
      · simp only [upd_ne _ _ (ho' t' (by rintro rfl; exact hD hD') f hf)]
    | @ret t i c tr rest op r e m' hst hp hn =>
      have hD : ¬ D t := fun hD => by
        obtain ⟨op₁, s₁, h1, h2, h3⟩ := dead hD hst
        rw [h3] at hn
        simp at hn
      obtain ⟨_, rfl⟩ := ret_eq hp hn
      obtain ⟨_, ho'⟩ := hI.other hst
      refine ⟨hQ, keep hD fun t' hD' f hf => ?_⟩
      simp only [upd_ne _ _ (ho' t' (by rintro rfl; exact hD hD') f hf)]

/-- The calls of a goroutine that does not move have not returned. -/
theorem Still.not_returned {n₀ n : NConf G Op Res S} {H : List (Ev Op Res)} {D : Nat → Prop} (hS : Still D n₀ n) (h : NExec P F n H) {t i : Nat}
    {tr : List (Op × Res)} (hD : D t) (hm : (i, tr) ∈ n₀.stack t) (hn : ∀ op r, n₀.m.pc i ≠ .ret op r) (r : Res) : Ev.ret i r ∉ H := by
  intro hr
  have hm' : (i, tr) ∈ n.stack t := by rw [(hS t hD).1]; exact hm
  obtain ⟨op, hv⟩ := (P.hist h.flat).2 i r hr
  obtain (⟨op', s, hp⟩ | ⟨op', r', hp⟩) := (h.inv.pending i).mpr ⟨t, tr, hm'⟩
  · simp [Conf.view, hp, Proc.view] at hv
  · exact hn op' r' (((hS t hD).2 _ hm').symm.trans hp)

end Verif.Conc
