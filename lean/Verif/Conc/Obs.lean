import Verif.Conc.Prog
/-!
# Linearizations with observations

`Linearization` is the order of a linearizable history together with the abstract states between its operations. An instant of the
linearization lies *during* a call if no operation placed after the instant returned before the call was made, and no operation placed
before the instant was made after the call returned. `During` is used to state what a call that is not atomic (a loop over a map, say) may
observe.

The second part of the file simulates programs (`Prog`) by the ghost automaton of `Lin.lean`.
-/
namespace Verif.Conc

variable {σ Op Res : Type}

/-- `L` is a linearization of `H`, and `st n` is the abstract state before its `n`-th operation. -/
structure Linearization (S : Spec σ Op Res) (H : List (Ev Op Res)) (L : List (Nat × Op × Res)) (st : Nat → σ) : Prop where
  once : (L.map (·.1)).Nodup
  invoked : ∀ x ∈ L, Ev.inv x.1 x.2.1 ∈ H
  returned : ∀ i r, Ev.ret i r ∈ H → ∃ op, (i, op, r) ∈ L
  init : st 0 = S.init
  legal : ∀ n i op r, L[n]? = some (i, op, r) → S.step (st n) op r (st (n + 1))
  order : L.Pairwise (fun x y => ¬ Before H y.1 x.1)

/-- The instant before the `n`-th operation of `L` lies during the call `i`. -/
def During {α : Type} (H : List (Ev Op Res)) (L : List (Nat × α)) (i n : Nat) : Prop :=
  n ≤ L.length ∧ (∀ m x, L[m]? = some x → m < n → ¬ Before H i x.1) ∧ (∀ m x, L[m]? = some x → n ≤ m → ¬ Before H x.1 i)

theorem runs_of_states {S : Spec σ Op Res} {st : Nat → σ} : ∀ (L : List (Nat × Op × Res)) (n : Nat),
    (∀ m i op r, L[m]? = some (i, op, r) → S.step (st (n + m)) op r (st (n + m + 1))) → Runs S (st n) L (st (n + L.length)) := by
  intro L
  induction L with
  | nil => intro n _; exact .nil _
  | cons x L ih =>
    intro n h
    obtain ⟨i, op, r⟩ := x
    refine .cons (h 0 i op r rfl) ?_
    have := ih (n + 1) (fun m i op r hm => by
      have := h (m + 1) i op r (by simpa using hm)
      rw [show n + 1 + m = n + (m + 1) by omega]; exact this)
    rw [show n + ((i, op, r) :: L).length = n + 1 + L.length by simp; omega]
    exact this

/-- A history with a linearization is linearizable. -/
theorem Linearization.linearizable {S : Spec σ Op Res} {H : List (Ev Op Res)} {L : List (Nat × Op × Res)} {st : Nat → σ}
    (h : Linearization S H L st) : Linearizable S H := by
  refine ⟨L, h.once, h.invoked, h.returned, ⟨st (0 + L.length), ?_⟩, h.order⟩
  rw [← h.init]
  exact runs_of_states L 0 (fun m i op r hm => by simpa using h.legal m i op r hm)

theorem states_of_runs {S : Spec σ Op Res} {s s' : σ} {L : List (Nat × Op × Res)} (h : Runs S s L s') :
    ∃ st : Nat → σ, st 0 = s ∧ st L.length = s' ∧ ∀ n i op r, L[n]? = some (i, op, r) → S.step (st n) op r (st (n + 1)) := by
  induction h with
  | nil s => exact ⟨fun _ => s, rfl, rfl, by simp⟩
  | @cons s s' s'' i op r l h1 _ ih =>
    obtain ⟨st, e1, e2, e3⟩ := ih
    refine ⟨fun n => match n with | 0 => s | n + 1 => st n, rfl, by simpa using e2, ?_⟩
    intro n j o q hn
    cases n with
    | zero =>
      simp only [List.getElem?_cons_zero, Option.some.injEq, Prod.mk.injEq] at hn
      obtain ⟨rfl, rfl, rfl⟩ := hn
      simpa [e1] using h1
    | succ n => exact e3 n j o q (by simpa using hn)

/-! ## The states of the constructed order -/

/-- The abstract states along `build reads k log`, where `at' j` is the state after `j` commits. -/
def buildSt (reads : List (Nat × Nat × Op × Res)) (at' : Nat → σ) : Nat → List (Nat × Op × Res) → Nat → σ
  | k, [], _ => at' k
  | k, _ :: l, n => if n ≤ (readsAt reads k).length then at' k else buildSt reads at' (k + 1) l (n - (readsAt reads k).length - 1)

theorem buildSt_zero (reads : List (Nat × Nat × Op × Res)) (at' : Nat → σ) (k : Nat) (l : List (Nat × Op × Res)) :
    buildSt reads at' k l 0 = at' k := by
  cases l <;> simp [buildSt]

theorem buildSt_legal {S : Spec σ Op Res} {reads : List (Nat × Nat × Op × Res)} {at' : Nat → σ} : ∀ (l : List (Nat × Op × Res)) (k : Nat),
    (∀ (j : Nat) i op r, l[j]? = some (i, op, r) → S.step (at' (k + j)) op r (at' (k + j + 1))) →
    (∀ j i op r, (j, i, op, r) ∈ reads → S.step (at' j) op r (at' j)) →
    ∀ n i op r, (build reads k l)[n]? = some (i, op, r) → S.step (buildSt reads at' k l n) op r (buildSt reads at' k l (n + 1)) := by
  intro l
  induction l with
  | nil =>
    intro k _ h2 n i op r hn
    exact h2 k i op r (mem_readsAt.mp (List.mem_of_getElem? hn))
  | cons e l ih =>
    intro k h1 h2 n i op r hn
    simp only [build] at hn
    rcases Nat.lt_trichotomy n (readsAt reads k).length with hlt | heq | hgt
    · rw [List.getElem?_append_left hlt] at hn
      simp only [buildSt, show n ≤ (readsAt reads k).length by omega, show n + 1 ≤ (readsAt reads k).length by omega, if_true]
      exact h2 k i op r (mem_readsAt.mp (List.mem_of_getElem? hn))
    · rw [List.getElem?_append_right (by omega)] at hn
      simp only [heq, Nat.sub_self, List.getElem?_cons_zero, Option.some.injEq] at hn
      have := h1 0 i op r (by simp [hn])
      simp only [buildSt, heq, Nat.le_refl, if_true, show ¬ (readsAt reads k).length + 1 ≤ (readsAt reads k).length by omega, if_false]
      rw [show (readsAt reads k).length + 1 - (readsAt reads k).length - 1 = 0 by omega, buildSt_zero]
      simpa using this
    · rw [List.getElem?_append_right (by omega)] at hn
      obtain ⟨m, hm⟩ : ∃ m, n = (readsAt reads k).length + 1 + m := ⟨n - (readsAt reads k).length - 1, by omega⟩
      subst hm
      rw [show (readsAt reads k).length + 1 + m - (readsAt reads k).length = m + 1 by omega, List.getElem?_cons_succ] at hn
      have := ih (k + 1) (fun j i op r hj => by
        have := h1 (j + 1) i op r (by simpa using hj)
        rw [show k + 1 + j = k + (j + 1) by omega]; exact this) h2 m i op r hn
      simp only [buildSt, show ¬ (readsAt reads k).length + 1 + m ≤ (readsAt reads k).length by omega,
        show ¬ (readsAt reads k).length + 1 + m + 1 ≤ (readsAt reads k).length by omega, if_false]
      rw [show (readsAt reads k).length + 1 + m - (readsAt reads k).length - 1 = m by omega,
        show (readsAt reads k).length + 1 + m + 1 - (readsAt reads k).length - 1 = m + 1 by omega]
      exact this

/-- A position among the reads at instant `k + j`: everything placed before it is an earlier commit, an earlier read or one of the first
`q` reads of the instant; everything after it a later one. -/
theorem build_split {reads : List (Nat × Nat × Op × Res)} {at' : Nat → σ} : ∀ (l : List (Nat × Op × Res)) (k j q : Nat),
    j ≤ l.length → q ≤ (readsAt reads (k + j)).length →
    ∃ n, n ≤ (build reads k l).length ∧ buildSt reads at' k l n = at' (k + j) ∧
      (∀ m x, (build reads k l)[m]? = some x → m < n → (∃ c, l[c]? = some x ∧ c < j) ∨ (∃ c, (k + c, x) ∈ reads ∧ c < j) ∨
        ∃ c, (readsAt reads (k + j))[c]? = some x ∧ c < q) ∧
      (∀ m x, (build reads k l)[m]? = some x → n ≤ m → (∃ c, l[c]? = some x ∧ j ≤ c) ∨ (∃ c, (k + c, x) ∈ reads ∧ j < c) ∨
        ∃ c, (readsAt reads (k + j))[c]? = some x ∧ q ≤ c) := by
  intro l
  induction l with
  | nil =>
    intro k j q hj hq
    have : j = 0 := by simpa using hj
    subst this
    refine ⟨q, by simpa [build] using hq, by simp [buildSt], ?_, ?_⟩
    · intro m x hm hlt
      exact Or.inr (Or.inr ⟨m, by simpa [build] using hm, hlt⟩)
    · intro m x hm hle
      exact Or.inr (Or.inr ⟨m, by simpa [build] using hm, hle⟩)
  | cons e l ih =>
    intro k j q hj hq
    cases j with
    | zero =>
      refine ⟨q, by simp only [build, List.length_append, List.length_cons, Nat.add_zero] at hq ⊢; omega, ?_, ?_, ?_⟩
      · simp only [Nat.add_zero] at hq
        simp [buildSt, hq]
      · intro m x hm hlt
        simp only [build] at hm
        simp only [Nat.add_zero] at hq
        rw [List.getElem?_append_left (by omega)] at hm
        exact Or.inr (Or.inr ⟨m, by simpa using hm, hlt⟩)
      · intro m x hm hle
        simp only [build] at hm
        by_cases hml : m < (readsAt reads k).length
        · rw [List.getElem?_append_left hml] at hm
          exact Or.inr (Or.inr ⟨m, by simpa using hm, hle⟩)
        · rw [List.getElem?_append_right (by omega)] at hm
          have hmem := List.mem_of_getElem? hm
          rw [List.mem_cons] at hmem
          rcases hmem with rfl | hmem
          · exact Or.inl ⟨0, by simp, by omega⟩
          · rcases (mem_build l (k + 1)).mp hmem with ⟨c, hc⟩ | ⟨c, _, hc⟩
            · exact Or.inl ⟨c + 1, by simpa using hc, by omega⟩
            · exact Or.inr (Or.inl ⟨c + 1, by rw [show k + (c + 1) = k + 1 + c by omega]; exact hc, by omega⟩)
    | succ j =>
      obtain ⟨n, h1, h2, h3, h4⟩ := ih (k + 1) j q (by simpa using hj) (by rw [show k + 1 + j = k + (j + 1) by omega]; exact hq)
      refine ⟨(readsAt reads k).length + 1 + n, ?_, ?_, ?_, ?_⟩
      · simp only [build, List.length_append, List.length_cons]; omega
      · simp only [buildSt, show ¬ (readsAt reads k).length + 1 + n ≤ (readsAt reads k).length by omega, if_false]
        rw [show (readsAt reads k).length + 1 + n - (readsAt reads k).length - 1 = n by omega, h2, show k + 1 + j = k + (j + 1) by omega]
      · intro m x hm hlt
        simp only [build] at hm
        by_cases hml : m < (readsAt reads k).length
        · rw [List.getElem?_append_left hml] at hm
          exact Or.inr (Or.inl ⟨0, by simpa using mem_readsAt.mp (List.mem_of_getElem? hm), by omega⟩)
        · rw [List.getElem?_append_right (by omega)] at hm
          by_cases hme : m = (readsAt reads k).length
          · subst hme
            simp only [Nat.sub_self, List.getElem?_cons_zero, Option.some.injEq] at hm
            exact Or.inl ⟨0, by simp [hm], by omega⟩
          · obtain ⟨m', rfl⟩ : ∃ m', m = (readsAt reads k).length + 1 + m' := ⟨m - (readsAt reads k).length - 1, by omega⟩
            rw [show (readsAt reads k).length + 1 + m' - (readsAt reads k).length = m' + 1 by omega, List.getElem?_cons_succ] at hm
            rcases h3 m' x hm (by omega) with ⟨c, h5, h6⟩ | ⟨c, h5, h6⟩ | ⟨c, h5, h6⟩
            · exact Or.inl ⟨c + 1, by simpa using h5, by omega⟩
            · exact Or.inr (Or.inl ⟨c + 1, by rw [show k + (c + 1) = k + 1 + c by omega]; exact h5, by omega⟩)
            · exact Or.inr (Or.inr ⟨c, by rw [show k + (j + 1) = k + 1 + j by omega]; exact h5, h6⟩)
      · intro m x hm hle
        simp only [build] at hm
        rw [List.getElem?_append_right (by omega)] at hm
        obtain ⟨m', rfl⟩ : ∃ m', m = (readsAt reads k).length + 1 + m' := ⟨m - (readsAt reads k).length - 1, by omega⟩
        rw [show (readsAt reads k).length + 1 + m' - (readsAt reads k).length = m' + 1 by omega, List.getElem?_cons_succ] at hm
        rcases h4 m' x hm (by omega) with ⟨c, h5, h6⟩ | ⟨c, h5, h6⟩ | ⟨c, h5, h6⟩
        · exact Or.inl ⟨c + 1, by simpa using h5, by omega⟩
        · exact Or.inr (Or.inl ⟨c + 1, by rw [show k + (c + 1) = k + 1 + c by omega]; exact h5, by omega⟩)
        · exact Or.inr (Or.inr ⟨c, by rw [show k + (j + 1) = k + 1 + j by omega]; exact h5, h6⟩)

/-- In a list ordered by `R`-free pairs, split at the last element that satisfies `P`. -/
theorem split_last {α : Type} (P : α → Prop) : ∀ l : List α, ∃ q, q ≤ l.length ∧ (∀ c x, l[c]? = some x → q ≤ c → ¬ P x) ∧
    (∀ c x, l[c]? = some x → c < q → ∃ c' y, l[c']? = some y ∧ c ≤ c' ∧ P y) := by
  intro l
  induction l with
  | nil => exact ⟨0, by simp, by simp, by simp⟩
  | cons a l ih =>
    obtain ⟨q, h1, h2, h3⟩ := ih
    by_cases hq : q = 0
    · subst hq
      by_cases ha : P a
      · refine ⟨1, by simp, ?_, ?_⟩
        · intro c x hc hle
          cases c with
          | zero => omega
          | succ c => exact h2 c x (by simpa using hc) (by omega)
        · intro c x hc hlt
          exact ⟨0, a, by simp, by omega, ha⟩
      · refine ⟨0, by simp, ?_, by omega⟩
        intro c x hc _
        cases c with
        | zero => simp only [List.getElem?_cons_zero, Option.some.injEq] at hc; subst hc; exact ha
        | succ c => exact h2 c x (by simpa using hc) (by omega)
    · refine ⟨q + 1, by simpa using h1, ?_, ?_⟩
      · intro c x hc hle
        cases c with
        | zero => omega
        | succ c => exact h2 c x (by simpa using hc) (by omega)
      · intro c x hc hlt
        cases c with
        | zero =>
          obtain ⟨y, hy⟩ : ∃ y, l[0]? = some y := ⟨l[0]'(by omega), by simp⟩
          obtain ⟨c', z, h4, _, h6⟩ := h3 0 y hy (by omega)
          exact ⟨c' + 1, z, by simpa using h4, by omega, h6⟩
        | succ c =>
          obtain ⟨c', z, h4, h5, h6⟩ := h3 c x (by simpa using hc) (by omega)
          exact ⟨c' + 1, z, by simpa using h4, by omega, h6⟩

/-- Some instants of the ghost automaton lie during the call `i`: those from its invocation to its return. -/
def Ghost.Inst (g : Ghost σ Op Res) (i j : Nat) : Prop := g.start i ≤ j ∧ j ≤ (g.fin i).getD g.log.length

/-- If `a` returned before `b` was made and `b` before `c`, then `a` before `c`; histories in which nothing returns before it is made. -/
theorem before_trans {H : List (Ev Op Res)} {a b c : Nat} (hab : Before H a b) (hbc : Before H b c)
    (hord : ∀ H₁ H₂ r op, H = H₁ ++ H₂ → Ev.ret b r ∈ H₁ → Ev.inv b op ∉ H₂) : Before H a c := by
  obtain ⟨A₁, A₂, r, op, h1, h2, h3⟩ := hab
  obtain ⟨B₁, B₂, r', op', h4, h5, h6⟩ := hbc
  by_cases hlen : A₁.length ≤ B₁.length
  · refine ⟨B₁, B₂, r, op', h4, ?_, h6⟩
    have : A₁ <+: B₁ := List.prefix_of_prefix_length_le (l₃ := H) ⟨A₂, h1.symm⟩ ⟨B₂, h4.symm⟩ hlen
    exact this.subset h2
  · exfalso
    have : B₁ <+: A₁ := List.prefix_of_prefix_length_le (l₃ := H) ⟨B₂, h4.symm⟩ ⟨A₂, h1.symm⟩ (by omega)
    exact hord A₁ A₂ r' op h1 (this.subset h5) h3

/-- In a history of the ghost automaton a call returns after it was made. -/
theorem ghost_order {S : Spec σ Op Res} {g : Ghost σ Op Res} (h : GReach S g) :
    ∀ b H₁ H₂ r op, g.hist = H₁ ++ H₂ → Ev.ret b r ∈ H₁ → Ev.inv b op ∉ H₂ := by
  induction h with
  | init =>
    intro b H₁ H₂ r op he hr _
    have : H₁ ++ H₂ = [] := he.symm
    rw [List.append_eq_nil_iff] at this
    rw [this.1] at hr; simp at hr
  | @step g g' hg hs ih =>
    have hi := ginv_reach hg
    intro b H₁ H₂ r op he hr hm
    have key : ∀ e, g'.hist = g.hist ++ [e] → (∀ o, e = .inv b o → g.st b = .idle) → False := by
      intro e he' hid
      rw [he'] at he
      rcases List.eq_nil_or_concat H₂ with rfl | ⟨H₂', e', rfl⟩
      · simp at hm
      · rw [List.concat_eq_append, ← List.append_assoc] at he
        obtain ⟨h4, h5⟩ := List.append_inj' he rfl
        simp only [List.cons.injEq, and_true] at h5
        subst h5
        rw [List.concat_eq_append, List.mem_append] at hm
        rcases hm with hm | hm
        · exact ih b H₁ H₂' r op h4 hr hm
        · simp only [List.mem_singleton] at hm
          have h6 := hid op hm.symm
          have h7 := (hi.rets b r (by rw [h4]; exact List.mem_append_left _ hr)).1
          rw [h6] at h7; simp at h7
    cases hs with
    | invoke i o h1 => exact key (.inv i o) rfl (fun o' he' => by simp only [Ev.inv.injEq] at he'; rw [← he'.1]; exact h1)
    | commit => exact ih b H₁ H₂ r op he hr hm
    | retC i o r' _ => exact key (.ret i r') rfl (fun o' he' => by simp at he')
    | retR i k o r' _ _ _ _ => exact key (.ret i r') rfl (fun o' he' => by simp at he')

/-- The linearization of a history of the ghost automaton, with all instants of all calls. Calls without effect are not in it. -/
theorem GReach.linearization_effects {S : Spec σ Op Res} {g : Ghost σ Op Res} (h : GReach S g) :
    ∃ L st, Linearization S g.hist L st ∧ (∀ x ∈ L, ∀ op, g.st x.1 ≠ .invoked op) ∧ ∀ i j, g.Inst i j → ∃ n, During g.hist L i n ∧ st n = g.at' j ∧
      ∀ c x, g.log[c]? = some x → j ≤ c → ∃ m, L[m]? = some x ∧ n ≤ m := by
  have hi := ginv_reach h
  have hpos : ∀ i j, g.Inst i j → ∃ n, During g.hist (build g.reads 0 g.log) i n ∧ buildSt g.reads g.at' 0 g.log n = g.at' j ∧
      ∀ c x, g.log[c]? = some x → j ≤ c → ∃ m, (build g.reads 0 g.log)[m]? = some x ∧ n ≤ m := by
    rintro i j ⟨h1, h2⟩
    have hj : j ≤ g.log.length := by
      cases hf : g.fin i with
      | none => simpa [hf] using h2
      | some f => have := hi.finLe i f hf; simp [hf] at h2; omega
    obtain ⟨q, hq1, hq2, hq3⟩ := split_last (fun x : Nat × Op × Res => Before g.hist x.1 i) (readsAt g.reads (0 + j))
    obtain ⟨n, e1, e2, e3, e4⟩ := build_split (at' := g.at') g.log 0 j q hj hq1
    refine ⟨n, ⟨e1, ?_, ?_⟩, by simpa using e2, ?_⟩
    rotate_left 2
    · rintro c ⟨a, op, r⟩ hc hjc
      have hmem : (a, op, r) ∈ build g.reads 0 g.log := (mem_build g.log 0).2 (Or.inl ⟨c, hc⟩)
      obtain ⟨m, hm⟩ := List.getElem?_of_mem hmem
      refine ⟨m, hm, ?_⟩
      by_contra hlt
      have hin := hi.inLog a op r (List.mem_of_getElem? hc)
      rcases e3 m _ hm (by omega) with ⟨c', hc', hlt'⟩ | ⟨c', hc', _⟩ | ⟨c', hc', _⟩
      · have hnd := hi.logNodup
        obtain ⟨q1, q2⟩ := List.getElem?_eq_some_iff.mp hc
        obtain ⟨q3, q4⟩ := List.getElem?_eq_some_iff.mp hc'
        have := (List.nodup_iff_injective_get.1 hnd) (a₁ := ⟨c, by simpa using q1⟩) (a₂ := ⟨c', by simpa using q3⟩)
          (by simp [q2, q4])
        simp only [Fin.mk.injEq] at this
        omega
      · exact hin.1 _ _ _ hc'
      · exact hin.1 _ _ _ (mem_readsAt.mp (List.mem_of_getElem? hc'))
    · rintro m ⟨a, op, r⟩ hm hlt hb
      obtain ⟨f, hf, hle⟩ := hi.before _ _ hb
      simp only at hle
      have h2' : j ≤ f := by simpa [hf] using h2
      rcases e3 m _ hm hlt with ⟨c, hc, hlt'⟩ | ⟨c, hc, hlt'⟩ | ⟨c, hc, hlt'⟩
      · have := (hi.logTime _ _ _ _ hc).1; omega
      · have := (hi.readTime _ _ _ _ hc).1; omega
      · obtain ⟨c', y, hy, hcc, hby⟩ := hq3 c _ hc hlt'
        -- `y` before `i` before `a`, so `y` before `a`
        have hya := before_trans hby hb (ghost_order h i)
        rcases Nat.eq_or_lt_of_le hcc with he | hlt2
        · subst he
          rw [hc] at hy
          simp only [Option.some.injEq] at hy
          subst hy
          obtain ⟨f', hf', hle'⟩ := hi.before _ _ hya
          have hmem := mem_readsAt.mp (List.mem_of_getElem? hc)
          have h5 := (hi.readTime _ _ _ _ hmem)
          have h6 := h5.2 f' hf'
          simp only at hle'
          -- a returned before itself: impossible
          obtain ⟨H₁, H₂, r', op', hH, hr, hv⟩ := hya
          exact ghost_order h a H₁ H₂ r' op' hH hr hv
        · have hro : (readsAt g.reads (0 + j)).Pairwise (fun x y => ¬ Before g.hist y.1 x.1) := by
            simp only [readsAt]
            rw [List.pairwise_map]
            exact hi.readsOrder.sublist List.filter_sublist
          rw [List.pairwise_iff_getElem] at hro
          obtain ⟨hc1, hc2⟩ := List.getElem?_eq_some_iff.mp hc
          obtain ⟨hc3, hc4⟩ := List.getElem?_eq_some_iff.mp hy
          have := hro c c' hc1 hc3 hlt2
          rw [hc2, hc4] at this
          exact this hya
    · rintro m ⟨a, op, r⟩ hm hle hb
      obtain ⟨f, hf, hle'⟩ := hi.before _ _ hb
      simp only at hf
      rcases e4 m _ hm hle with ⟨c, hc, hlt'⟩ | ⟨c, hc, hlt'⟩ | ⟨c, hc, hlt'⟩
      · have := (hi.logTime _ _ _ _ hc).2 f hf; omega
      · have := (hi.readTime _ _ _ _ hc).2 f hf; omega
      · exact hq2 c _ hc hlt' hb
  have heff : ∀ x ∈ build g.reads 0 g.log, ∀ op, g.st x.1 ≠ .invoked op := by
    rintro ⟨i, o, r⟩ hx op hs
    rcases (mem_build g.log 0).1 hx with ⟨c, hc⟩ | ⟨k, _, hk⟩
    · exact (hi.fresh i op hs 0 o r).1 (List.mem_of_getElem? hc)
    · exact (hi.fresh i op hs (0 + k) o r).2 hk
  -- the linearization itself
  obtain ⟨l1, l2, l3, _, l5⟩ := h.build_linearizes
  exact ⟨build g.reads 0 g.log, buildSt g.reads g.at' 0 g.log, ⟨l1, l2, l3, by rw [buildSt_zero]; exact hi.init,
    buildSt_legal g.log 0 (fun j i op r hj => by simpa using hi.legal j i op r hj) (fun j i op r hj => (hi.readLegal j i op r hj).2), l5⟩, heff, hpos⟩

/-- The linearization of a history of the ghost automaton, with all instants of all calls. -/
theorem GReach.linearization {S : Spec σ Op Res} {g : Ghost σ Op Res} (h : GReach S g) :
    ∃ L st, Linearization S g.hist L st ∧ ∀ i j, g.Inst i j → ∃ n, During g.hist L i n ∧ st n = g.at' j ∧
      ∀ c x, g.log[c]? = some x → j ≤ c → ∃ m, L[m]? = some x ∧ n ≤ m := by
  obtain ⟨L, st, h1, _, h2⟩ := h.linearization_effects
  exact ⟨L, st, h1, h2⟩

/-! ## Simulation of programs -/

section
variable {G S' : Type}

/-- Simulation of a program by the ghost automaton: every step of a call either leaves the ghost alone or commits the call. -/
theorem Prog.simulate (P : Prog G Op Res S') (S : Spec σ Op Res) (I : G → View Op Res S' → Ghost σ Op Res → Prop)
    (h0 : I P.init (fun _ => none) (Ghost.init S))
    (hinv : ∀ g v gh i op, GReach S gh → I g v gh → v i = none → gh.st i = .idle → I g (upd v i (some (op, .inl (P.begin op)))) (gh.invoke i op))
    (hstep : ∀ g v gh i op s c g' x, GReach S gh → I g v gh → v i = some (op, .inl s) → P.step g i op s c = some (g', x) →
      I g' (upd v i (some (op, x))) gh ∨
      ∃ r s', gh.st i = .invoked op ∧ S.step gh.cur op r s' ∧ I g' (upd v i (some (op, x))) (gh.commit i op r s'))
    (hret : ∀ g v gh i op r, GReach S gh → I g v gh → v i = some (op, .inr r) → gh.st i ≠ .done →
      (gh.st i = .committed op r ∧ I g v (gh.retC i r)) ∨
      ∃ k, gh.st i = .invoked op ∧ gh.start i ≤ k ∧ k ≤ gh.log.length ∧ S.step (gh.at' k) op r (gh.at' k) ∧ I g v (gh.retR i k op r))
    {m : Conf G Op Res S'} {H : List (Ev Op Res)} (h : P.mach.Exec m H) : ∃ gh, GReach S gh ∧ gh.hist = H ∧ I m.g m.view gh := by
  let Sim : Conf G Op Res S' → Ghost σ Op Res → Prop := fun m gh => I m.g m.view gh ∧ (∀ i, m.pc i = .idle → gh.st i = .idle) ∧
    (∀ i op s, m.pc i = .at op s → gh.st i ≠ .done) ∧ (∀ i op r, m.pc i = .ret op r → gh.st i ≠ .done)
  obtain ⟨gh, h1, h2, h3, _⟩ := Verif.Conc.simulate (S := S) Sim ⟨h0, by simp [Ghost.init], by simp [Prog.mach], by simp [Prog.mach]⟩ (by
    rintro m gh l m' hg ⟨s1, s2, s3, s4⟩ hst
    cases hst with
    | inv i op _ he =>
      simp only [Prog.mach] at he
      split at he
      · rename_i hpc
        simp only [Option.some.injEq] at he
        subst he
        have hidle := s2 i hpc
        refine ⟨gh.invoke i op, .step (.refl _) (.invoke _ i op hidle), rfl, ?_, ?_, ?_, ?_⟩
        · rw [view_upd]
          exact hinv m.g m.view gh i op hg s1 (by simp [Conf.view, hpc, Proc.view]) hidle
        all_goals
          intro j
          by_cases hj : j = i
          · subst hj; simp [Ghost.invoke]
          · simp only [Ghost.invoke, upd_ne _ _ hj]
            first | exact s2 j | exact s3 j | exact s4 j
      · simp at he
    | run i c _ _ he =>
      simp only [Prog.mach] at he
      cases hpc : m.pc i with
      | idle => simp [hpc] at he
      | done _ _ => simp [hpc] at he
      | «at» op s =>
        simp only [hpc] at he
        have hnd := s3 i op s hpc
        cases hst : P.step m.g i op s c with
        | none => simp [hst] at he
        | some y =>
          obtain ⟨g', x⟩ := y
          have hx := hstep m.g m.view gh i op s c g' x hg s1 (by simp [Conf.view, hpc, Proc.view]) hst
          obtain ⟨pr, rfl, rfl, hpr, hidle, hdone⟩ : ∃ pr : Proc Op Res S', l = none ∧ m' = ⟨g', upd m.pc i pr⟩ ∧ pr.view = some (op, x) ∧
              pr ≠ .idle ∧ ∀ o r, pr ≠ .done o r := by
            cases x with
            | inl s' =>
              simp only [hst, Option.some.injEq, Prod.mk.injEq] at he
              exact ⟨.at op s', he.1.symm, he.2.symm, rfl, by simp, by simp⟩
            | inr r =>
              simp only [hst, Option.some.injEq, Prod.mk.injEq] at he
              exact ⟨.ret op r, he.1.symm, he.2.symm, rfl, by simp, by simp⟩
          have rest : ∀ gh' : Ghost σ Op Res, gh'.st i ≠ .done → (∀ j, j ≠ i → gh'.st j = gh.st j) →
              I g' (upd m.view i (some (op, x))) gh' → Sim ⟨g', upd m.pc i pr⟩ gh' := by
            intro gh' h1 h2 h3
            refine ⟨by rw [view_upd, hpr]; exact h3, ?_, ?_, ?_⟩
            all_goals
              intro j
              by_cases hj : j = i
              · subst hj; first | (simp only [upd_same]; exact fun h => absurd h hidle) | (intro _ _ _; exact h1)
              · simp only [upd_ne _ _ hj, h2 j hj]
                first | exact s2 j | exact s3 j | exact s4 j
          rcases hx with hx | ⟨r, s', hi, hsp, hx⟩
          · exact ⟨gh, .refl _, by simp, rest gh hnd (fun _ _ => rfl) hx⟩
          · exact ⟨gh.commit i op r s', .step (.refl _) (.commit _ i op r s' hi hsp), by simp [Ghost.commit],
              rest _ (by simp [Ghost.commit]) (fun j hj => by simp [Ghost.commit, upd_ne _ _ hj]) hx⟩
      | ret op r =>
        simp only [hpc, Option.some.injEq, Prod.mk.injEq] at he
        obtain ⟨rfl, rfl⟩ := he
        have hnd := s4 i op r hpc
        have hv : m.view i = some (op, .inr r) := by simp [Conf.view, hpc, Proc.view]
        have e2 : upd m.view i (Proc.done op r).view = m.view := by
          funext j
          by_cases hj : j = i
          · subst hj; simp [Conf.view, hpc, Proc.view]
          · simp [upd_ne _ _ hj]
        have rest : ∀ gh' : Ghost σ Op Res, (∀ j, j ≠ i → gh'.st j = gh.st j) → I m.g m.view gh' → Sim ⟨m.g, upd m.pc i (.done op r)⟩ gh' := by
          intro gh' h2 h3
          refine ⟨by rw [view_upd, e2]; exact h3, ?_, ?_, ?_⟩
          all_goals
            intro j
            by_cases hj : j = i
            · subst hj; simp
            · simp only [upd_ne _ _ hj, h2 j hj]
              first | exact s2 j | exact s3 j | exact s4 j
        rcases hret m.g m.view gh i op r hg s1 hv hnd with ⟨hc, hI⟩ | ⟨k, hi, hk1, hk2, hsp, hI⟩
        · exact ⟨gh.retC i r, .step (.refl _) (.retC _ i op r hc), by simp [Ghost.retC],
            rest _ (fun j hj => by simp [Ghost.retC, upd_ne _ _ hj]) hI⟩
        · exact ⟨gh.retR i k op r, .step (.refl _) (.retR _ i k op r hi hk1 hk2 hsp), by simp [Ghost.retR],
            rest _ (fun j hj => by simp [Ghost.retR, upd_ne _ _ hj]) hI⟩) h
  exact ⟨gh, h1, h2, h3⟩

end

end Verif.Conc
