import Verif.Conc.Client
import Mathlib.Data.Finset.Max
import Mathlib.Data.List.Sort
/-!
# Linearizations with observations, and objects that are linearizable one by one

In a *marked* linearization there are, besides the operations, the instants at which calls observed the state. Observations are operations
without effect: `none` instead of an operation. Unlike the instants of `During`, the observations are ordered with respect to each other. That
is needed to put marked linearizations of several objects together (`Marked.family`, the locality of linearizability of Herlihy and Wing).
-/
namespace Verif.Conc

variable {σ G Op Res S' : Type}

/-- Observations are operations that change nothing. -/
def Spec.seen (S : Spec σ Op Res) : Spec σ (Option Op) Res where
  init := S.init
  step s o r s' := match o with
    | some op => S.step s op r s'
    | none => s' = s

/-- `X` is an order of operations and observations of `H`, and `st n` is the abstract state before the `n`-th of them. Calls that returned a `bad`
result are left out. -/
structure Marked (S : Spec σ Op Res) (bad : Res → Prop) (H : List (Ev Op Res)) (X : List (Nat × Option Op × Res)) (st : Nat → σ) : Prop where
  once : X.Pairwise fun x y => x.2.1.isSome → y.2.1.isSome → x.1 ≠ y.1
  invoked : ∀ i op r, (i, some op, r) ∈ X → Ev.inv i op ∈ H
  called : ∀ x ∈ X, (∃ op, Ev.inv x.1 op ∈ H) ∧ ∀ r, bad r → Ev.ret x.1 r ∉ H
  returned : ∀ i r, Ev.ret i r ∈ H → ¬ bad r → ∃ op, (i, some op, r) ∈ X
  init : st 0 = S.init
  legal : ∀ n i o r, X[n]? = some (i, o, r) → S.seen.step (st n) o r (st (n + 1))
  order : X.Pairwise fun x y => ¬ Before H y.1 x.1

/-- Calls can be numbered in the order of their invocations. -/
theorem exists_pos (H : List (Ev Op Res)) : ∃ pos : Nat → Nat, ∀ y w z, Before H y w → pos w ≤ pos z → (∃ op, Ev.inv z op ∈ H) → Before H y z := by
  classical
  let is : Nat → Ev Op Res → Bool := fun w e => match e with | .inv i _ => i = w | .ret _ _ => false
  refine ⟨fun w => H.length - H.reverse.findIdx (is w), ?_⟩
  rintro y w z ⟨A, B, r, op, rfl, hr, hi⟩ hle ⟨op', hz⟩
  have h1 : (A ++ B).reverse.findIdx (is w) < B.length := by
    have := List.findIdx_lt_length_of_exists (xs := B.reverse) (p := is w) ⟨_, List.mem_reverse.2 hi, by simp [is]⟩
    rw [List.reverse_append, List.findIdx_append, if_pos this]
    simpa using this
  have h2 : (A ++ B).reverse.findIdx (is z) < (A ++ B).reverse.length :=
    List.findIdx_lt_length_of_exists ⟨_, List.mem_reverse.2 hz, by simp [is]⟩
  have h3 := List.findIdx_getElem (w := h2)
  have h4 : (A ++ B).reverse.findIdx (is z) < B.reverse.length := by
    rw [List.length_reverse, List.length_append] at h2
    simp only [List.length_append] at hle
    simp only [List.length_reverse]; omega
  obtain ⟨q, hq⟩ : ∃ q, q = (A ++ B).reverse.findIdx (is z) := ⟨_, rfl⟩
  simp only [← hq] at h3 h4
  simp only [List.reverse_append] at h3
  rw [List.getElem_append_left h4] at h3
  have hm : B.reverse[q] ∈ B := List.mem_reverse.1 (List.getElem_mem h4)
  cases hb : B.reverse[q] with
  | ret j r => rw [hb] at h3; simp [is] at h3
  | inv j o =>
    rw [hb] at h3 hm
    simp only [is, decide_eq_true_eq] at h3
    subst h3
    exact ⟨A, B, r, o, rfl, hr, hm⟩

/-! ## The ghost automaton -/

theorem build_tail {reads : List (Nat × Nat × Op × Res)} {k m : Nat} {e y : Nat × Op × Res} {l : List (Nat × Op × Res)}
    (h : (build reads (k + 1) l)[m]? = some y) : (build reads k (e :: l))[(readsAt reads k).length + 1 + m]? = some y := by
  simp only [build]
  rw [List.getElem?_append_right (by omega), show (readsAt reads k).length + 1 + m - (readsAt reads k).length = m + 1 by omega, List.getElem?_cons_succ]
  exact h

/-- The place of a read in the constructed order. -/
theorem build_at {reads : List (Nat × Nat × Op × Res)} {at' : Nat → σ} {x : Nat × Op × Res} {q : Nat} : ∀ (l : List (Nat × Op × Res)) (k j : Nat),
    j ≤ l.length → (readsAt reads (k + j))[q]? = some x →
    ∃ n, (build reads k l)[n]? = some x ∧ buildSt reads at' k l n = at' (k + j) ∧
      ∀ c y, l[c]? = some y → j ≤ c → ∃ m, (build reads k l)[m]? = some y ∧ n ≤ m := by
  intro l
  induction l with
  | nil =>
    intro k j hj hq
    have : j = 0 := by simpa using hj
    subst this
    exact ⟨q, by simpa [build] using hq, by simp [buildSt], by simp⟩
  | cons e l ih =>
    intro k j hj hq
    cases j with
    | zero =>
      rw [Nat.add_zero] at hq
      have hlt := (List.getElem?_eq_some_iff.mp hq).1
      refine ⟨q, ?_, ?_, ?_⟩
      · simp only [build]; rw [List.getElem?_append_left hlt]; exact hq
      · simp [buildSt, Nat.le_of_lt hlt]
      · intro c y hc _
        cases c with
        | zero =>
          simp only [List.getElem?_cons_zero, Option.some.injEq] at hc
          subst hc
          exact ⟨(readsAt reads k).length, by simp [build], by omega⟩
        | succ c =>
          obtain ⟨m, hm⟩ := List.getElem?_of_mem ((mem_build (reads := reads) l (k + 1)).2 (Or.inl ⟨c, by simpa using hc⟩))
          exact ⟨_, build_tail hm, by omega⟩
    | succ j =>
      obtain ⟨n, h1, h2, h3⟩ := ih (k + 1) j (by simpa using hj) (by rw [show k + 1 + j = k + (j + 1) by omega]; exact hq)
      refine ⟨_, build_tail h1, ?_, ?_⟩
      · simp only [buildSt, show ¬ (readsAt reads k).length + 1 + n ≤ (readsAt reads k).length by omega, if_false]
        rw [show (readsAt reads k).length + 1 + n - (readsAt reads k).length - 1 = n by omega, h2, show k + 1 + j = k + (j + 1) by omega]
      · intro c y hc hle
        cases c with
        | zero => omega
        | succ c =>
          obtain ⟨m, h4, h5⟩ := h3 c y (by simpa using hc) (by omega)
          exact ⟨_, build_tail h4, by omega⟩

/-- The history of the ghost automaton has a marked linearization, with all instants of all calls that have returned as observations. -/
theorem GReach.marked {S : Spec σ Op Res} {g : Ghost σ Op Res} (h : GReach S g) :
    ∃ X st, Marked S (fun _ => False) g.hist X st ∧ (∀ x ∈ X, ∀ op, g.st x.1 ≠ .invoked op) ∧ (∀ i r, (i, none, r) ∈ X → Ev.ret i r ∈ g.hist) ∧
      ∀ i j r, Ev.ret i r ∈ g.hist → g.Inst i j → ∃ n, X[n]? = some (i, none, r) ∧ st n = g.at' j ∧
        ∀ (c i' : Nat) (o : Op) (r' : Res), g.log[c]? = some (i', o, r') → j ≤ c → ∃ m, X[m]? = some (i', some o, r') ∧ n ≤ m := by
  classical
  have hi := ginv_reach h
  obtain ⟨pos, hpos⟩ := exists_pos g.hist
  -- the observations
  let O : List (Nat × Nat × Option Op × Res) := g.hist.flatMap fun e => match e with
    | .ret i r => ((List.range (g.log.length + 1)).filter fun j => decide (g.Inst i j)).map fun j => (j, i, none, r)
    | .inv _ _ => []
  have memO : ∀ j i o r, (j, i, o, r) ∈ O ↔ o = none ∧ Ev.ret i r ∈ g.hist ∧ g.Inst i j ∧ j ≤ g.log.length := by
    intro j i o r
    simp only [O, List.mem_flatMap]
    constructor
    · rintro ⟨e, he, hm⟩
      cases e with
      | inv => simp at hm
      | ret i' r' =>
        simp only [List.mem_map, List.mem_filter, List.mem_range, decide_eq_true_eq, Prod.mk.injEq] at hm
        obtain ⟨j', ⟨h1, h2⟩, rfl, rfl, rfl, rfl⟩ := hm
        exact ⟨rfl, he, h2, by omega⟩
    · rintro ⟨rfl, h1, h2, h3⟩
      refine ⟨_, h1, ?_⟩
      exact List.mem_map.2 ⟨j, List.mem_filter.2 ⟨List.mem_range.2 (by omega), by simpa using h2⟩, rfl⟩
  let R₀ : List (Nat × Nat × Option Op × Res) := g.reads.map (fun x => (x.1, x.2.1, some x.2.2.1, x.2.2.2)) ++ O
  let R := R₀.mergeSort fun a b => decide (pos a.2.1 ≤ pos b.2.1)
  have hperm : R.Perm R₀ := List.mergeSort_perm _ _
  have hsort : R.Pairwise fun a b => pos a.2.1 ≤ pos b.2.1 := by
    have := List.pairwise_mergeSort (le := fun a b : Nat × Nat × Option Op × Res => decide (pos a.2.1 ≤ pos b.2.1))
      (fun a b c => by simp only [decide_eq_true_eq]; omega) (fun a b => by simp only [Bool.or_eq_true, decide_eq_true_eq]; omega) R₀
    simpa using this
  have memR : ∀ j i o r, (j, i, o, r) ∈ R ↔ (∃ op, o = some op ∧ (j, i, op, r) ∈ g.reads) ∨ (j, i, o, r) ∈ O := by
    intro j i o r
    rw [hperm.mem_iff]
    simp only [R₀, List.mem_append, List.mem_map, Prod.mk.injEq]
    constructor
    · rintro (⟨⟨j', i', op, r'⟩, h1, rfl, rfl, rfl, rfl⟩ | h1)
      · exact Or.inl ⟨op, rfl, h1⟩
      · exact Or.inr h1
    · rintro (⟨op, rfl, h1⟩ | h1)
      · exact Or.inl ⟨_, h1, rfl, rfl, rfl, rfl⟩
      · exact Or.inr h1
  -- reads and observations are in time
  have timeR : ∀ j i o r, (j, i, o, r) ∈ R → g.start i ≤ j ∧ (∀ f, g.fin i = some f → j ≤ f) ∧ j ≤ g.log.length ∧ (∃ op, Ev.inv i op ∈ g.hist) ∧
      g.st i = .done := by
    intro j i o r hm
    rcases (memR j i o r).1 hm with ⟨op, rfl, h1⟩ | h1
    · obtain ⟨a1, a2⟩ := hi.readTime _ _ _ _ h1
      exact ⟨a1, a2, (hi.readLegal _ _ _ _ h1).1, ⟨_, (hi.inReads _ _ _ _ h1).2⟩, (hi.inReads _ _ _ _ h1).1⟩
    · obtain ⟨_, h2, h3, h4⟩ := (memO _ _ _ _).1 h1
      refine ⟨h3.1, ?_, h4, ?_, (hi.rets i r h2).1⟩
      · intro f hf; have := h3.2; rw [hf] at this; simpa using this
      · rcases (hi.rets i r h2).2 with ⟨op, h5⟩ | ⟨k, op, h5⟩
        · exact ⟨op, (hi.inLog _ _ _ h5).2.2.1⟩
        · exact ⟨op, (hi.inReads _ _ _ _ h5).2⟩
  let Lg : List (Nat × Option Op × Res) := g.log.map fun x => (x.1, some x.2.1, x.2.2)
  have getL : ∀ (c i : Nat) (o : Option Op) (r : Res), Lg[c]? = some (i, o, r) ↔ ∃ op, o = some op ∧ g.log[c]? = some (i, op, r) := by
    intro c i o r
    simp only [Lg, List.getElem?_map, Option.map_eq_some_iff, Prod.mk.injEq]
    constructor
    · rintro ⟨⟨i', op, r'⟩, h1, rfl, rfl, rfl⟩; exact ⟨op, rfl, h1⟩
    · rintro ⟨op, rfl, h1⟩; exact ⟨_, h1, rfl, rfl, rfl⟩
  have lenL : Lg.length = g.log.length := by simp [Lg]
  -- members
  have mem : ∀ i o r, (i, o, r) ∈ build R 0 Lg → (∃ op, o = some op ∧ (i, op, r) ∈ g.log) ∨ ∃ j, (j, i, o, r) ∈ R := by
    intro i o r hm
    rcases (mem_build _ _).1 hm with ⟨c, hc⟩ | ⟨j, _, hj⟩
    · obtain ⟨op, h1, h2⟩ := (getL _ _ _ _).1 hc
      exact Or.inl ⟨op, h1, List.mem_of_getElem? h2⟩
    · exact Or.inr ⟨_, hj⟩
  refine ⟨build R 0 Lg, buildSt R g.at' 0 Lg, ⟨?_, ?_, ?_, ?_, ?_, ?_, ?_⟩, ?_, ?_, ?_⟩
  · -- no operation twice
    apply build_pairwise
    · intro j
      have h0 : R₀.Pairwise fun x y => x.2.2.1.isSome → y.2.2.1.isSome → x.2.1 ≠ y.2.1 := by
        rw [List.pairwise_append]
        refine ⟨?_, ?_, ?_⟩
        · rw [List.pairwise_map]
          have h1 : (g.reads.map (·.2.1)).Nodup := hi.readsNodup
          rw [List.Nodup, List.pairwise_map] at h1
          exact h1.imp fun h _ _ => h
        · refine List.pairwise_of_forall_mem_list ?_
          rintro ⟨j, i, o, r⟩ hm _ _ h1
          rw [((memO _ _ _ _).1 hm).1] at h1; simp at h1
        · rintro x _ ⟨j, i, o, r⟩ hm _ h1
          rw [((memO _ _ _ _).1 hm).1] at h1; simp at h1
      have h1 : R.Pairwise fun x y => x.2.2.1.isSome → y.2.2.1.isSome → x.2.1 ≠ y.2.1 :=
        hperm.symm.pairwise h0 fun h a b => (h b a).symm
      simp only [readsAt]
      rw [List.pairwise_map]
      exact h1.sublist List.filter_sublist
    · rintro j j' ⟨i, o, r⟩ ⟨i', o', r'⟩ hx hy hlt _ _ he
      replace hx := (getL _ _ _ _).1 hx; obtain ⟨op, rfl, hx⟩ := hx
      replace hy := (getL _ _ _ _).1 hy; obtain ⟨op', rfl, hy⟩ := hy
      have h1 := hi.logNodup
      rw [List.nodup_iff_pairwise_ne, List.pairwise_map, List.pairwise_iff_getElem] at h1
      obtain ⟨hj, hx⟩ := List.getElem?_eq_some_iff.mp hx
      obtain ⟨hj', hy⟩ := List.getElem?_eq_some_iff.mp hy
      exact h1 j j' hj hj' hlt (by rw [hx, hy]; exact he)
    · rintro j j' ⟨i, o, r⟩ ⟨i', o', r'⟩ hx hy hlt _ hs he
      simp only at he
      subst he
      replace hx := (getL _ _ _ _).1 hx; obtain ⟨op, rfl, hx⟩ := hx
      replace hy := (memR _ _ _ _).1 hy; rcases hy with ⟨op', rfl, hy⟩ | hy
      · exact (hi.inLog _ _ _ (List.mem_of_getElem? hx)).1 _ _ _ hy
      · rw [((memO _ _ _ _).1 hy).1] at hs; simp at hs
    · rintro j j' ⟨i, o, r⟩ ⟨i', o', r'⟩ hx hy hlt hs _ he
      simp only at he
      subst he
      replace hy := (getL _ _ _ _).1 hy; obtain ⟨op, rfl, hy⟩ := hy
      replace hx := (memR _ _ _ _).1 hx; rcases hx with ⟨op', rfl, hx⟩ | hx
      · exact (hi.inLog _ _ _ (List.mem_of_getElem? hy)).1 _ _ _ hx
      · rw [((memO _ _ _ _).1 hx).1] at hs; simp at hs
    · rintro j j' ⟨i, o, r⟩ ⟨i', o', r'⟩ hx hy hlt hs hs' he
      simp only at he
      subst he
      replace hx := (memR _ _ _ _).1 hx; rcases hx with ⟨op, rfl, hx⟩ | hx
      · replace hy := (memR _ _ _ _).1 hy; rcases hy with ⟨op', rfl, hy⟩ | hy
        · have := List.inj_on_of_nodup_map hi.readsNodup hx hy rfl
          simp only [Prod.mk.injEq] at this
          omega
        · rw [((memO _ _ _ _).1 hy).1] at hs'; simp at hs'
      · rw [((memO _ _ _ _).1 hx).1] at hs; simp at hs
  · intro i op r hm
    rcases mem _ _ _ hm with ⟨op', e, h1⟩ | ⟨j, h1⟩
    · simp only [Option.some.injEq] at e
      subst e
      exact (hi.inLog _ _ _ h1).2.2.1
    · replace h1 := (memR _ _ _ _).1 h1; rcases h1 with ⟨op', e, h1⟩ | h1
      · simp only [Option.some.injEq] at e
        subst e
        exact (hi.inReads _ _ _ _ h1).2
      · have := ((memO _ _ _ _).1 h1).1; simp at this
  · rintro ⟨i, o, r⟩ hm
    refine ⟨?_, fun _ h => h.elim⟩
    rcases mem _ _ _ hm with ⟨op, rfl, h1⟩ | ⟨j, h1⟩
    · exact ⟨_, (hi.inLog _ _ _ h1).2.2.1⟩
    · exact (timeR _ _ _ _ h1).2.2.2.1
  · intro i r hr _
    rcases (hi.rets i r hr).2 with ⟨op, h1⟩ | ⟨k, op, h1⟩
    · obtain ⟨c, hc⟩ := List.mem_iff_getElem?.mp h1
      exact ⟨op, (mem_build _ _).mpr (Or.inl ⟨c, (getL _ _ _ _).2 ⟨op, rfl, hc⟩⟩)⟩
    · refine ⟨op, (mem_build _ _).mpr (Or.inr ⟨k, by rw [lenL]; exact (hi.readLegal _ _ _ _ h1).1, ?_⟩)⟩
      rw [Nat.zero_add]
      exact (memR _ _ _ _).2 (Or.inl ⟨op, rfl, h1⟩)
  · rw [buildSt_zero]; exact hi.init
  · refine buildSt_legal (S := S.seen) Lg 0 ?_ ?_
    · intro j i o r hj
      replace hj := (getL _ _ _ _).1 hj; obtain ⟨op, rfl, hj⟩ := hj
      simpa [Spec.seen] using hi.legal j i op r hj
    · intro j i o r hj
      replace hj := (memR _ _ _ _).1 hj; rcases hj with ⟨op, rfl, h1⟩ | h1
      · exact (hi.readLegal _ _ _ _ h1).2
      · rw [((memO _ _ _ _).1 h1).1]; rfl
  · apply build_pairwise
    · intro j
      simp only [readsAt]
      rw [List.pairwise_map]
      refine List.Pairwise.imp_of_mem ?_ (hsort.sublist List.filter_sublist)
      rintro ⟨j1, i1, o1, r1⟩ ⟨j2, i2, o2, r2⟩ h1 h2 hle hb
      have h2 := (timeR _ _ _ _ (List.mem_filter.1 h2).1).2.2.2.1
      obtain ⟨H₁, H₂, r', op', hH, hr, hv⟩ := hpos _ _ _ hb hle h2
      exact ghost_order h _ H₁ H₂ r' op' hH hr hv
    · rintro j j' ⟨i, op, r⟩ ⟨i', op', r'⟩ hx hy hlt hb
      replace hx := (getL _ _ _ _).1 hx; obtain ⟨op, rfl, hx⟩ := hx
      replace hy := (getL _ _ _ _).1 hy; obtain ⟨op', rfl, hy⟩ := hy
      obtain ⟨f, h1, h2⟩ := hi.before _ _ hb
      have h3 := (hi.logTime _ _ _ _ hx).1
      have h4 := (hi.logTime _ _ _ _ hy).2 f h1
      simp only at h2
      omega
    · rintro j j' ⟨i, op, r⟩ ⟨i', op', r'⟩ hx hy hlt hb
      replace hx := (getL _ _ _ _).1 hx; obtain ⟨op, rfl, hx⟩ := hx
      obtain ⟨f, h1, h2⟩ := hi.before _ _ hb
      have h3 := (hi.logTime _ _ _ _ hx).1
      have h4 := (timeR _ _ _ _ hy).2.1 f h1
      simp only at h2
      omega
    · rintro j j' ⟨i, op, r⟩ ⟨i', op', r'⟩ hx hy hlt hb
      replace hy := (getL _ _ _ _).1 hy; obtain ⟨op', rfl, hy⟩ := hy
      obtain ⟨f, h1, h2⟩ := hi.before _ _ hb
      have h3 := (timeR _ _ _ _ hx).1
      have h4 := (hi.logTime _ _ _ _ hy).2 f h1
      simp only at h2
      omega
    · rintro j j' ⟨i, op, r⟩ ⟨i', op', r'⟩ hx hy hlt hb
      obtain ⟨f, h1, h2⟩ := hi.before _ _ hb
      have h3 := (timeR _ _ _ _ hx).1
      have h4 := (timeR _ _ _ _ hy).2.1 f h1
      simp only at h2
      omega
  · rintro ⟨i, o, r⟩ hm op hs
    rcases mem _ _ _ hm with ⟨op', rfl, h1⟩ | ⟨j, h1⟩
    · exact (hi.fresh i op hs 0 op' r).1 h1
    · have := (timeR _ _ _ _ h1).2.2.2.2
      rw [hs] at this; simp at this
  · intro i r hm
    rcases mem _ _ _ hm with ⟨op', e, h1⟩ | ⟨j, h1⟩
    · simp at e
    · replace h1 := (memR _ _ _ _).1 h1; rcases h1 with ⟨op', e, h1⟩ | h1
      · simp at e
      · exact ((memO _ _ _ _).1 h1).2.1
  · intro i j r hr hin
    have hj : j ≤ g.log.length := by
      have h2 := hin.2
      cases hf : g.fin i with
      | none => simpa [hf] using h2
      | some f => have := hi.finLe i f hf; simp [hf] at h2; omega
    have hm : (i, none, r) ∈ readsAt R (0 + j) := mem_readsAt.2 (by
      rw [Nat.zero_add]; exact (memR _ _ _ _).2 (Or.inr ((memO _ _ _ _).2 ⟨rfl, hr, hin, hj⟩)))
    obtain ⟨q, hq⟩ := List.getElem?_of_mem hm
    obtain ⟨n, h1, h2, h3⟩ := build_at (at' := g.at') Lg 0 j (by rw [lenL]; exact hj) hq
    refine ⟨n, h1, by rw [h2, Nat.zero_add], ?_⟩
    intro c i' o r' hc hle
    exact h3 c _ ((getL _ _ _ _).2 ⟨o, rfl, hc⟩) hle

/-! ## Without the observations -/

/-- `L` is a linearization of `H` without the calls that returned a `bad` result, and `st n` is the abstract state before its `n`-th operation. -/
structure LinearizationBut (S : Spec σ Op Res) (bad : Res → Prop) (H : List (Ev Op Res)) (L : List (Nat × Op × Res)) (st : Nat → σ) : Prop where
  once : (L.map (·.1)).Nodup
  invoked : ∀ x ∈ L, Ev.inv x.1 x.2.1 ∈ H
  good : ∀ x ∈ L, ∀ r, bad r → Ev.ret x.1 r ∉ H
  returned : ∀ i r, Ev.ret i r ∈ H → ¬ bad r → ∃ op, (i, op, r) ∈ L
  init : st 0 = S.init
  legal : ∀ n i op r, L[n]? = some (i, op, r) → S.step (st n) op r (st (n + 1))
  order : L.Pairwise (fun x y => ¬ Before H y.1 x.1)

/-- The operation, if it is not an observation. -/
def unmark (x : Nat × Option Op × Res) : Option (Nat × Op × Res) := x.2.1.map fun op => (x.1, op, x.2.2)

theorem unmark_some {x : Nat × Option Op × Res} {i : Nat} {op : Op} {r : Res} : unmark x = some (i, op, r) ↔ x = (i, some op, r) := by
  obtain ⟨i', o, r'⟩ := x
  cases o <;> simp [unmark]

/-- How many of the first `n` marks are operations. -/
def ops (X : List (Nat × Option Op × Res)) (n : Nat) : Nat := ((X.take n).filterMap unmark).length

theorem ops_succ {X : List (Nat × Option Op × Res)} {n : Nat} {x : Nat × Option Op × Res} (h : X[n]? = some x) :
    ops X (n + 1) = ops X n + (unmark x).toList.length := by
  simp only [ops, List.take_add_one, h, Option.toList_some, List.filterMap_append, List.length_append]
  cases hx : unmark x <;> simp [hx]

theorem ops_mono (X : List (Nat × Option Op × Res)) {n m : Nat} (h : n ≤ m) : ops X n ≤ ops X m :=
  (((List.take_sublist_take_left h : (X.take n).Sublist (X.take m)).filterMap unmark)).length_le

theorem ops_at {X : List (Nat × Option Op × Res)} {n i : Nat} {op : Op} {r : Res} (h : X[n]? = some (i, some op, r)) :
    (X.filterMap unmark)[ops X n]? = some (i, op, r) := by
  have hlt := (List.getElem?_eq_some_iff.mp h).1
  have e : X = X.take n ++ (i, some op, r) :: X.drop (n + 1) := by
    have := List.getElem?_eq_some_iff.mp h
    rw [← this.2, List.getElem_cons_drop, List.take_append_drop]
  have : X.filterMap unmark = (X.take n).filterMap unmark ++ (i, op, r) :: (X.drop (n + 1)).filterMap unmark := by
    conv => lhs; rw [e]
    simp [unmark]
  rw [this, ops, List.getElem?_append_right (Nat.le_refl _), Nat.sub_self]
  rfl

theorem ops_get {X : List (Nat × Option Op × Res)} : ∀ {k i : Nat} {op : Op} {r : Res}, (X.filterMap unmark)[k]? = some (i, op, r) →
    ∃ n, X[n]? = some (i, some op, r) ∧ ops X n = k := by
  induction X with
  | nil => intro k i op r h; simp at h
  | cons x X ih =>
    intro k i op r h
    have hc : ∀ n, ops (x :: X) (n + 1) = (unmark x).toList.length + ops X n := by
      intro n
      simp only [ops, List.take_succ_cons, List.filterMap_cons]
      cases unmark x <;> simp [Nat.add_comm]
    cases hx : unmark x with
    | none =>
      rw [List.filterMap_cons_none hx] at h
      obtain ⟨n, h1, h2⟩ := ih h
      exact ⟨n + 1, by simpa using h1, by rw [hc, hx, h2]; simp⟩
    | some y =>
      rw [List.filterMap_cons_some hx] at h
      cases k with
      | zero =>
        simp only [List.getElem?_cons_zero, Option.some.injEq] at h
        subst h
        rw [unmark_some] at hx
        exact ⟨0, by simp [hx], by simp [ops]⟩
      | succ k =>
        obtain ⟨n, h1, h2⟩ := ih (by simpa using h)
        exact ⟨n + 1, by simpa using h1, by rw [hc, hx, h2]; simp [Nat.add_comm]⟩

/-- Observations become instants. -/
theorem Marked.linearization {S : Spec σ Op Res} {bad : Res → Prop} {H : List (Ev Op Res)} {X : List (Nat × Option Op × Res)} {st : Nat → σ}
    (h : Marked S bad H X st) : ∃ L st', LinearizationBut S bad H L st' ∧ ∀ n i r, X[n]? = some (i, none, r) →
      ∃ n', During H L i n' ∧ st' n' = st n ∧ ∀ (m i' : Nat) (o : Op) (r' : Res), X[m]? = some (i', some o, r') → n ≤ m →
        ∃ m', L[m']? = some (i', o, r') ∧ n' ≤ m' := by
  classical
  have same : ∀ n n', n ≤ n' → n' ≤ X.length → ops X n = ops X n' → st n = st n' := by
    intro n n' hle
    induction hle with
    | refl => intro _ _; rfl
    | @step n' hle ih =>
      intro hlen he
      have hm := ops_mono X (Nat.le_succ n')
      have hm' := ops_mono X hle
      rw [ih (by omega) (by simp only [Nat.succ_eq_add_one] at *; omega)]
      obtain ⟨x, hx⟩ : ∃ x, X[n']? = some x := ⟨_, List.getElem?_eq_getElem (by omega)⟩
      have hs := ops_succ hx
      obtain ⟨i, o, r⟩ := x
      cases o with
      | none => exact (h.legal _ _ _ _ hx).symm
      | some op => simp only [unmark, Option.map_some, Option.toList_some, List.length_singleton, Nat.succ_eq_add_one] at hs he; omega
  let st' : Nat → σ := fun k => if hk : ∃ n, n ≤ X.length ∧ ops X n = k then st (Classical.choose hk) else S.init
  have st_eq : ∀ n, n ≤ X.length → st' (ops X n) = st n := by
    intro n hn
    have hk : ∃ n', n' ≤ X.length ∧ ops X n' = ops X n := ⟨n, hn, rfl⟩
    simp only [st', dif_pos hk]
    obtain ⟨h1, h2⟩ := Classical.choose_spec hk
    rcases Nat.le_total (Classical.choose hk) n with hle | hle
    · exact same _ _ hle hn h2
    · exact (same _ _ hle h1 h2.symm).symm
  have ord := List.pairwise_iff_getElem.1 h.order
  have ord' : ∀ (a b : Nat) (x y : Nat × Option Op × Res), X[a]? = some x → X[b]? = some y → a < b → ¬ Before H y.1 x.1 := by
    intro a b x y ha hb hlt
    obtain ⟨a1, rfl⟩ := List.getElem?_eq_some_iff.mp ha
    obtain ⟨b1, rfl⟩ := List.getElem?_eq_some_iff.mp hb
    exact ord a b a1 b1 hlt
  have mem : ∀ i op r, (i, op, r) ∈ X.filterMap unmark → (i, some op, r) ∈ X := by
    intro i op r hm
    obtain ⟨x, h1, h2⟩ := List.mem_filterMap.1 hm
    rw [unmark_some] at h2
    exact h2 ▸ h1
  refine ⟨X.filterMap unmark, st', ⟨?_, ?_, ?_, ?_, ?_, ?_, ?_⟩, ?_⟩
  · rw [List.Nodup, List.pairwise_map]
    refine (List.pairwise_filterMap).2 (h.once.imp ?_)
    rintro x y hxy ⟨i, op, r⟩ hx ⟨i', op', r'⟩ hy
    rw [unmark_some] at hx hy
    subst hx; subst hy
    exact hxy rfl rfl
  · rintro ⟨i, op, r⟩ hm
    exact h.invoked _ _ _ (mem _ _ _ hm)
  · rintro ⟨i, op, r⟩ hm
    exact (h.called _ (mem _ _ _ hm)).2
  · intro i r hr hb
    obtain ⟨op, hm⟩ := h.returned i r hr hb
    exact ⟨op, List.mem_filterMap.2 ⟨_, hm, rfl⟩⟩
  · have := st_eq 0 (Nat.zero_le _)
    rw [show ops X 0 = 0 by simp [ops]] at this
    rw [this, h.init]
  · intro k i op r hk
    obtain ⟨n, h1, rfl⟩ := ops_get hk
    have hlt := (List.getElem?_eq_some_iff.mp h1).1
    have hs := ops_succ h1
    simp only [unmark, Option.map_some, Option.toList_some, List.length_singleton] at hs
    rw [← hs, st_eq n (by omega), st_eq (n + 1) (by omega)]
    exact h.legal n i (some op) r h1
  · refine (List.pairwise_filterMap).2 (h.order.imp ?_)
    rintro x y hxy ⟨i, op, r⟩ hx ⟨i', op', r'⟩ hy
    rw [unmark_some] at hx hy
    subst hx; subst hy
    exact hxy
  · intro n i r hn
    have hlt := (List.getElem?_eq_some_iff.mp hn).1
    have after : ∀ (m i' : Nat) (o : Op) (r' : Res), X[m]? = some (i', some o, r') → (ops X n ≤ ops X m ↔ n ≤ m) := by
      intro m i' o r' hm
      constructor
      · intro hle
        by_contra hc
        have h1 := ops_succ hm
        have h2 := ops_mono X (show m + 1 ≤ n by omega)
        simp only [unmark, Option.map_some, Option.toList_some, List.length_singleton] at h1
        omega
      · exact fun hle => ops_mono X hle
    refine ⟨ops X n, ⟨?_, ?_, ?_⟩, st_eq n (by omega), ?_⟩
    · exact ((List.take_sublist n X).filterMap unmark).length_le
    · rintro k ⟨i', o, r'⟩ hk hlt'
      obtain ⟨m, h1, rfl⟩ := ops_get hk
      have : ¬ n ≤ m := fun hc => by have := ops_mono X hc; omega
      exact ord' m n _ _ h1 hn (by omega)
    · rintro k ⟨i', o, r'⟩ hk hle
      obtain ⟨m, h1, rfl⟩ := ops_get hk
      have h2 := (after _ _ _ _ h1).1 hle
      have h3 : n ≠ m := by
        rintro rfl
        rw [hn] at h1
        simp at h1
      exact ord' n m _ _ hn h1 (by omega)
    · intro m i' o r' hm hle
      exact ⟨_, ops_at hm, ops_mono X hle⟩

/-! ## Families -/

/-- Two orders can be merged. -/
theorem merge_two {α : Type} {B : α → α → Prop} {pos : α → Nat} {p : α → Bool} : ∀ (n : Nat) (l l' : List α), l.length + l'.length = n →
    (∀ z, z ∈ l ∨ z ∈ l' → ¬ B z z ∧ ∀ y w, B y w → pos w ≤ pos z → B y z) → (∀ z ∈ l, p z = true) → (∀ z ∈ l', p z = false) →
    l.Pairwise (fun a b => ¬ B b a) → l'.Pairwise (fun a b => ¬ B b a) →
    ∃ M : List α, M.Pairwise (fun a b => ¬ B b a) ∧ M.filter p = l ∧ (M.filter fun a => !p a) = l' := by
  intro n
  induction n with
  | zero =>
    intro l l' hn _ _ _ _ _
    have h1 : l = [] := List.eq_nil_of_length_eq_zero (by omega)
    have h2 : l' = [] := List.eq_nil_of_length_eq_zero (by omega)
    subst h1; subst h2
    exact ⟨[], by simp, by simp, by simp⟩
  | succ n ih =>
    intro l l' hn hB hl hl' hp hp'
    cases l with
    | nil => exact ⟨l', hp', by simpa using hl', by simpa using hl'⟩
    | cons a l =>
      cases l' with
      | nil => exact ⟨a :: l, hp, List.filter_eq_self.2 hl, List.filter_eq_nil_iff.2 fun x hx => by simp [hl x hx]⟩
      | cons b l' =>
        have mem : ∀ {M : List α} {q q' : List α}, M.filter p = q → (M.filter fun a => !p a) = q' → ∀ y ∈ M, y ∈ q ∨ y ∈ q' := by
          rintro M q q' rfl rfl y hy
          cases hpy : p y
          · exact Or.inr (List.mem_filter.2 ⟨hy, by simp [hpy]⟩)
          · exact Or.inl (List.mem_filter.2 ⟨hy, hpy⟩)
        have pa := hl a (by simp)
        have pb := hl' b (by simp)
        rw [List.pairwise_cons] at hp hp'
        rcases Nat.le_total (pos a) (pos b) with hle | hle
        · obtain ⟨M, h1, h2, h3⟩ := ih l (b :: l') (by simp only [List.length_cons] at hn ⊢; omega)
            (fun z hz => hB z (hz.imp (List.mem_cons_of_mem _) id)) (fun z hz => hl z (List.mem_cons_of_mem _ hz)) hl' hp.2 (List.pairwise_cons.2 hp')
          refine ⟨a :: M, List.pairwise_cons.2 ⟨?_, h1⟩, by rw [List.filter_cons_of_pos pa, h2], by rw [List.filter_cons_of_neg (by simp [pa]), h3]⟩
          intro y hy hb
          rcases mem h2 h3 y hy with hy | hy
          · exact hp.1 y hy hb
          · have hyb := (hB b (Or.inr (by simp))).2 _ _ hb hle
            rcases List.mem_cons.1 hy with rfl | hy
            · exact (hB y (Or.inr (by simp))).1 hyb
            · exact hp'.1 y hy hyb
        · obtain ⟨M, h1, h2, h3⟩ := ih (a :: l) l' (by simp only [List.length_cons] at hn ⊢; omega)
            (fun z hz => hB z (hz.imp id (List.mem_cons_of_mem _))) hl (fun z hz => hl' z (List.mem_cons_of_mem _ hz)) (List.pairwise_cons.2 hp) hp'.2
          refine ⟨b :: M, List.pairwise_cons.2 ⟨?_, h1⟩, by rw [List.filter_cons_of_neg (by simp [pb]), h2], by rw [List.filter_cons_of_pos (by simp [pb]), h3]⟩
          intro y hy hb
          rcases mem h2 h3 y hy with hy | hy
          · have hya := (hB a (Or.inl (by simp))).2 _ _ hb hle
            rcases List.mem_cons.1 hy with rfl | hy
            · exact (hB y (Or.inl (by simp))).1 hya
            · exact hp.1 y hy hya
          · exact hp'.1 y hy hb

/-- Orders of finitely many objects can be merged. -/
theorem merge_all {B : Nat → Nat → Prop} {pos : Nat → Nat} (X : Nat → List (Nat × Op × Res))
    (hB : ∀ x, ∀ z ∈ X x, ¬ B z.1 z.1 ∧ ∀ y w, B y w → pos w ≤ pos z.1 → B y z.1) (hp : ∀ x, (X x).Pairwise fun a b => ¬ B b.1 a.1) :
    ∀ N, ∃ M : FLog Op Res, M.Pairwise (fun a b => ¬ B b.1 a.1) ∧ (∀ x, x < N → plog x M = X x) ∧ ∀ e ∈ M, e.2.1.1 < N := by
  intro N
  induction N with
  | zero => exact ⟨[], by simp, by simp, by simp⟩
  | succ N ih =>
    obtain ⟨M, h1, h2, h3⟩ := ih
    have back : ∀ e ∈ M, (e.1, e.2.1.2, e.2.2) ∈ X e.2.1.1 := by
      intro e he
      rw [← h2 _ (h3 e he)]
      exact List.mem_map.2 ⟨e, List.mem_filter.2 ⟨he, by simp⟩, rfl⟩
    have q1 : ∀ z, z ∈ M ∨ z ∈ ((X N).map fun e => (e.1, (N, e.2.1), e.2.2)) → ¬ B z.1 z.1 ∧ ∀ y w : Nat × (Nat × Op) × Res, B y.1 w.1 → pos w.1 ≤ pos z.1 → B y.1 z.1 := by
      rintro z (hz | hz)
      · exact ⟨(hB _ _ (back z hz)).1, fun y w => (hB _ _ (back z hz)).2 y.1 w.1⟩
      · obtain ⟨y, hy, rfl⟩ := List.mem_map.1 hz
        exact ⟨(hB _ _ hy).1, fun u w => (hB _ _ hy).2 u.1 w.1⟩
    have q2 : ∀ z ∈ ((X N).map fun e => (e.1, (N, e.2.1), e.2.2)), decide (z.2.1.1 < N) = false := by
      intro z hz
      obtain ⟨y, _, rfl⟩ := List.mem_map.1 hz
      simp
    obtain ⟨M', a1, a2, a3⟩ := merge_two (B := fun a b : Nat × (Nat × Op) × Res => B a.1 b.1) (pos := fun a => pos a.1) (p := fun a => decide (a.2.1.1 < N)) _
      M ((X N).map fun e => (e.1, (N, e.2.1), e.2.2)) rfl q1 (fun z hz => by simpa using h3 z hz) q2 h1 (by rw [List.pairwise_map]; exact hp N)
    · refine ⟨M', a1, ?_, ?_⟩
      · intro x hx
        by_cases hlt : x < N
        · rw [← h2 x hlt, plog, plog, ← a2, List.filter_filter]
          congr 1
          refine List.filter_congr fun e _ => ?_
          by_cases he : e.2.1.1 = x
          · simp [he, hlt]
          · simp [he]
        · have : x = N := by omega
          subst this
          have e1 : (M'.filter fun e => decide (e.2.1.1 = x)) = (X x).map fun e => (e.1, (x, e.2.1), e.2.2) := by
            have e2 : (M'.filter fun e => decide (e.2.1.1 = x)) = (M'.filter fun a => !decide (a.2.1.1 < x)).filter fun e => decide (e.2.1.1 = x) := by
              rw [List.filter_filter]
              refine List.filter_congr fun e _ => ?_
              by_cases he : e.2.1.1 = x
              · simp [he]
              · simp [he]
            rw [e2, a3]
            refine List.filter_eq_self.2 ?_
            intro e he
            obtain ⟨y, _, rfl⟩ := List.mem_map.1 he
            simp
          rw [plog, e1, List.map_map]
          exact List.map_id _
      · intro e he
        by_cases hlt : e.2.1.1 < N
        · omega
        · have : e ∈ M'.filter fun a => !decide (a.2.1.1 < N) := List.mem_filter.2 ⟨he, by simpa using hlt⟩
          rw [a3] at this
          obtain ⟨y, _, rfl⟩ := List.mem_map.1 this
          simp

/-- `Hx` is the part of the history `E` of a family that concerns the object `x`. -/
structure PartOf (x : Nat) (E : List (Ev (Nat × Op) Res)) (Hx : List (Ev Op Res)) : Prop where
  inv : ∀ j op, Ev.inv j op ∈ Hx ↔ Ev.inv j (x, op) ∈ E
  ret : ∀ j r, Ev.ret j r ∈ Hx ↔ Ev.ret j r ∈ E ∧ ∃ op, Ev.inv j (x, op) ∈ E
  before : ∀ a b op op', Ev.inv a (x, op) ∈ E → Ev.inv b (x, op') ∈ E → Before E a b → Before Hx a b

theorem cnt_mine {x j : Nat} {M : FLog Op Res} {n : Nat} {o : Op} {r : Res} (h : M[n]? = some (j, (x, o), r)) :
    cnt x M (n + 1) = cnt x M n + 1 ∧ (plog x M)[cnt x M n]? = some (j, o, r) := by
  have e : M = M.take n ++ (j, (x, o), r) :: M.drop (n + 1) := by
    have := List.getElem?_eq_some_iff.mp h
    rw [← this.2, List.getElem_cons_drop, List.take_append_drop]
  constructor
  · simp [cnt, List.take_add_one, h, plog]
  · have : plog x M = plog x (M.take n) ++ (j, o, r) :: plog x (M.drop (n + 1)) := by
      conv => lhs; rw [e]
      rw [plog_append]
      simp [plog]
    rw [this, cnt, List.getElem?_append_right (Nat.le_refl _), Nat.sub_self]
    rfl

theorem cnt_other {x y j : Nat} {M : FLog Op Res} {n : Nat} {o : Op} {r : Res} (h : M[n]? = some (j, (x, o), r)) (hy : y ≠ x) :
    cnt y M (n + 1) = cnt y M n := by
  simp [cnt, List.take_add_one, h, plog, Ne.symm hy]

/-- If the objects have marked linearizations, so has the family. -/
theorem Marked.family {S : Spec σ Op Res} {bad : Res → Prop} {E : List (Ev (Nat × Op) Res)} {Hx : Nat → List (Ev Op Res)}
    {X : Nat → List (Nat × Option Op × Res)} {st : Nat → Nat → σ} (hX : ∀ x, Marked S bad (Hx x) (X x) (st x)) (hP : ∀ x, PartOf x E (Hx x))
    (hret : ∀ j r, Ev.ret j r ∈ E → ∃ o, Ev.inv j o ∈ E) (hone : ∀ j o o', Ev.inv j o ∈ E → Ev.inv j o' ∈ E → o = o')
    (hirr : ∀ j, ¬ Before E j j) :
    ∃ Y st', Marked (famSpec S) bad E Y st' ∧ ∀ x n i r, (X x)[n]? = some (i, none, r) → ∃ n', Y[n']? = some (i, none, r) ∧ st' n' x = st x n ∧
      ∀ (m i' : Nat) (o : Op) (r' : Res), (X x)[m]? = some (i', some o, r') → n ≤ m → ∃ m', Y[m']? = some (i', some (x, o), r') ∧ n' ≤ m' := by
  obtain ⟨pos, hpos⟩ := exists_pos E
  have hin : ∀ x, ∀ z ∈ X x, ∃ op, Ev.inv z.1 (x, op) ∈ E := by
    intro x z hz
    obtain ⟨op, h1⟩ := ((hX x).called z hz).1
    exact ⟨op, ((hP x).inv _ _).1 h1⟩
  -- finitely many objects
  obtain ⟨N, hN⟩ : ∃ N, ∀ j o, Ev.inv j o ∈ E → o.1 < N := by
    clear hX hP hret hone hirr hpos hin
    induction E with
    | nil => exact ⟨0, by simp⟩
    | cons e E ih =>
      obtain ⟨N, hN⟩ := ih
      cases e with
      | ret j r => exact ⟨N, fun j o h => hN j o (by simpa using h)⟩
      | inv j o =>
        refine ⟨max N (o.1 + 1), fun j' o' h => ?_⟩
        simp only [List.mem_cons, Ev.inv.injEq] at h
        rcases h with ⟨_, rfl⟩ | h
        · omega
        · have := hN j' o' h; omega
  obtain ⟨M, h1, h2, h3⟩ := merge_all (B := Before E) (pos := pos) X
    (fun x z hz => ⟨hirr _, fun y w hb hle => hpos y w z.1 hb hle (by obtain ⟨op, h⟩ := hin x z hz; exact ⟨_, h⟩)⟩)
    (fun x => by
      refine List.Pairwise.imp_of_mem ?_ (hX x).order
      intro a b ha hb hn hB
      obtain ⟨oa, ha⟩ := hin x a ha
      obtain ⟨ob, hb⟩ := hin x b hb
      exact hn ((hP x).before _ _ _ _ hb ha hB)) N
  have hlog : ∀ x, plog x M = X x := by
    intro x
    by_cases hx : x < N
    · exact h2 x hx
    · have e1 : X x = [] := by
        rw [List.eq_nil_iff_forall_not_mem]
        intro z hz
        obtain ⟨op, h⟩ := hin x z hz
        exact hx (hN _ _ h)
      rw [e1, plog, List.map_eq_nil_iff, List.filter_eq_nil_iff]
      intro e he
      simp only [decide_eq_true_eq]
      rintro rfl
      exact hx (h3 e he)
  let up : Nat × (Nat × Option Op) × Res → Nat × Option (Nat × Op) × Res := fun e => (e.1, e.2.1.2.map fun op => (e.2.1.1, op), e.2.2)
  have back : ∀ e ∈ M, (e.1, e.2.1.2, e.2.2) ∈ X e.2.1.1 := by
    intro e he
    rw [← hlog]
    exact List.mem_map.2 ⟨e, List.mem_filter.2 ⟨he, by simp⟩, rfl⟩
  have find : ∀ {x n i : Nat} {o : Option Op} {r : Res}, (X x)[n]? = some (i, o, r) → ∃ n', M[n']? = some (i, (x, o), r) ∧ cnt x M n' = n := by
    intro x n i o r hn
    rw [← hlog] at hn
    exact plog_get hn
  refine ⟨M.map up, fun n x => st x (cnt x M n), ⟨?_, ?_, ?_, ?_, ?_, ?_, ?_⟩, ?_⟩
  · -- no operation twice
    rw [List.pairwise_iff_getElem]
    intro a b ha hb hlt
    rw [List.length_map] at ha hb
    obtain ⟨⟨i, ⟨x, o⟩, r⟩, hea⟩ : ∃ e, M[a]? = some e := ⟨_, List.getElem?_eq_getElem ha⟩
    obtain ⟨⟨i', ⟨x', o'⟩, r'⟩, heb⟩ : ∃ e, M[b]? = some e := ⟨_, List.getElem?_eq_getElem hb⟩
    have e1 := (List.getElem?_eq_some_iff.mp hea).2
    have e2 := (List.getElem?_eq_some_iff.mp heb).2
    simp only [List.getElem_map, e1, e2, up]
    intro s1 s2 he
    subst he
    obtain ⟨op, q1⟩ := hin _ _ (back _ (List.mem_of_getElem? hea))
    obtain ⟨op', q2⟩ := hin _ _ (back _ (List.mem_of_getElem? heb))
    have hxx : x = x' := congrArg (·.1) (hone _ _ _ q1 q2)
    subst hxx
    have c1 := cnt_mine hea
    have c2 := cnt_mine heb
    have c3 := cnt_mono x M (show a + 1 ≤ b by omega)
    rw [hlog] at c1 c2
    obtain ⟨b1, b2⟩ := List.getElem?_eq_some_iff.mp c1.2
    obtain ⟨b3, b4⟩ := List.getElem?_eq_some_iff.mp c2.2
    have := List.pairwise_iff_getElem.1 (hX x).once _ _ b1 b3 (by omega)
    rw [b2, b4] at this
    exact this (by simpa using s1) (by simpa using s2) rfl
  · intro i o r hm
    obtain ⟨⟨i', ⟨x, o'⟩, r'⟩, he, hu⟩ := List.mem_map.1 hm
    simp only [up, Prod.mk.injEq, Option.map_eq_some_iff] at hu
    obtain ⟨rfl, ⟨op, rfl, rfl⟩, rfl⟩ := hu
    exact ((hP x).inv _ _).1 ((hX x).invoked _ _ _ (back _ he))
  · intro y hy
    obtain ⟨⟨i', ⟨x, o'⟩, r'⟩, he, rfl⟩ := List.mem_map.1 hy
    obtain ⟨op, h4⟩ := hin _ _ (back _ he)
    refine ⟨⟨_, h4⟩, fun r hr hm => ?_⟩
    exact ((hX x).called _ (back _ he)).2 r hr (((hP x).ret _ _).2 ⟨hm, op, h4⟩)
  · intro i r hr hb
    obtain ⟨⟨x, op⟩, ho⟩ := hret i r hr
    obtain ⟨op', hm⟩ := (hX x).returned i r (((hP x).ret _ _).2 ⟨hr, op, ho⟩) hb
    obtain ⟨n, hn⟩ := List.getElem?_of_mem hm
    obtain ⟨n', h4, _⟩ := find hn
    exact ⟨(x, op'), List.mem_map.2 ⟨_, List.mem_of_getElem? h4, rfl⟩⟩
  · funext x
    simp only [cnt_zero]
    exact (hX x).init
  · intro n i o r hn
    simp only [List.getElem?_map, Option.map_eq_some_iff] at hn
    obtain ⟨⟨i', ⟨x, o'⟩, r'⟩, he, hu⟩ := hn
    simp only [up, Prod.mk.injEq] at hu
    obtain ⟨rfl, rfl, rfl⟩ := hu
    obtain ⟨c1, c2⟩ := cnt_mine he
    rw [hlog] at c2
    have hl := (hX x).legal _ _ _ _ c2
    have ho : ∀ y, y ≠ x → st y (cnt y M (n + 1)) = st y (cnt y M n) := fun y hy => by rw [cnt_other he hy]
    cases o' with
    | none =>
      simp only [Option.map_none, Spec.seen]
      funext y
      by_cases hy : y = x
      · subst hy; rw [c1]; exact hl
      · exact ho y hy
    | some op =>
      refine ⟨?_, ho⟩
      simp only [c1]
      exact hl
  · rw [List.pairwise_map]; exact h1
  · intro x n i r hn
    obtain ⟨n', h4, h5⟩ := find hn
    refine ⟨n', by simp [h4, up], by simp only [h5], ?_⟩
    intro m i' o r' hm hle
    obtain ⟨m', h6, h7⟩ := find hm
    refine ⟨m', by simp [h6, up], ?_⟩
    by_contra hc
    have h8 := cnt_mono x M (show m' + 1 ≤ n' by omega)
    have := (cnt_mine h6).1
    omega

/-! ## The executions of the objects -/

theorem Prog.inv_unique (P : Prog G Op Res S') {m : Conf G Op Res S'} {H : List (Ev Op Res)} (h : P.mach.Exec m H) {j : Nat} {o o' : Op}
    (h1 : Ev.inv j o ∈ H) (h2 : Ev.inv j o' ∈ H) : o = o' := by
  obtain ⟨x, hx⟩ := ((P.hist h).1 _ _).1 h1
  obtain ⟨x', hx'⟩ := ((P.hist h).1 _ _).1 h2
  rw [hx] at hx'
  simpa using congrArg (fun z => z.map (·.1)) hx'

theorem Prog.ret_inv (P : Prog G Op Res S') {m : Conf G Op Res S'} {H : List (Ev Op Res)} (h : P.mach.Exec m H) {j : Nat} {r : Res}
    (h1 : Ev.ret j r ∈ H) : ∃ o, Ev.inv j o ∈ H := by
  obtain ⟨o, ho⟩ := (P.hist h).2 _ _ h1
  exact ⟨o, ((P.hist h).1 _ _).2 ⟨_, ho⟩⟩

/-- The part of a call that belongs to the object `x`. -/
def Proc.at' (x : Nat) : Proc (Nat × Op) Res S' → Proc Op Res S'
  | .idle => .idle
  | .at o s => if o.1 = x then .at o.2 s else .idle
  | .ret o r => if o.1 = x then .ret o.2 r else .idle
  | .done o r => if o.1 = x then .done o.2 r else .idle

/-- No call is before itself. -/
theorem Prog.before_irrefl (P : Prog G Op Res S') {m : Conf G Op Res S'} {H : List (Ev Op Res)} (h : P.mach.Exec m H) (j : Nat) : ¬ Before H j j := by
  induction h with
  | init => intro hb; obtain ⟨⟨r, hr⟩, _⟩ := before_mem hb; simp at hr
  | tau _ _ ih => exact ih
  | @ev m m' H e hm hs ih =>
    intro hb
    rcases before_append hb with hb | ⟨op, r, rfl, hr⟩
    · exact ih hb
    · obtain ⟨o, ho⟩ := (P.hist hm).2 _ _ hr
      cases hs with
      | inv _ _ _ he =>
        simp only [Prog.mach] at he
        split at he
        · rename_i hpc
          simp [Conf.view, hpc, Proc.view] at ho
        · simp at he
      | run i c _ _ he =>
        simp only [Prog.mach] at he
        split at he
        · simp at he
        · split at he <;> simp at he
        · simp at he
        · simp at he

/-- The execution of one object of a family. -/
theorem Prog.family_part (P : Prog G Op Res S') {g₀ : Nat → G} {m : Conf (Nat → G) (Nat × Op) Res S'} {E : List (Ev (Nat × Op) Res)}
    (h : (P.family.from g₀).mach.Exec m E) (x : Nat) :
    ∃ Hx, (P.from (g₀ x)).mach.Exec ⟨m.g x, fun j => (m.pc j).at' x⟩ Hx ∧ PartOf x E Hx := by
  have upd_at : ∀ (pc : Nat → Proc (Nat × Op) Res S') (i : Nat) (p : Proc (Nat × Op) Res S'),
      (fun j => (upd pc i p j).at' x) = upd (fun j => (pc j).at' x) i (p.at' x) := by
    intro pc i p
    funext j
    by_cases hj : j = i
    · subst hj; simp
    · simp [upd_ne _ _ hj]
  have upd_idle : ∀ (pc : Nat → Proc (Nat × Op) Res S') (i : Nat) (p : Proc (Nat × Op) Res S'), p.at' x = (pc i).at' x →
      (fun j => (upd pc i p j).at' x) = fun j => (pc j).at' x := by
    intro pc i p hp
    rw [upd_at, hp]
    funext j
    by_cases hj : j = i
    · subst hj; simp
    · simp [upd_ne _ _ hj]
  induction h with
  | init => exact ⟨[], .init, by simp, by simp, fun _ _ _ _ h => by simp at h⟩
  | @tau m m' E hm hs ih =>
    obtain ⟨Hx, h1, h2⟩ := ih
    cases hs with
    | run i c _ _ he =>
      simp only [Prog.mach] at he
      split at he
      · simp at he
      · rename_i o s hpc
        simp only [Prog.from, Prog.family] at he
        cases hst : P.step (m.g o.1) i o.2 s c with
        | none => simp [hst] at he
        | some y =>
          obtain ⟨g', z⟩ := y
          by_cases hx : o.1 = x
          · subst hx
            have e1 : (m.pc i).at' o.1 = .at o.2 s := by simp [hpc, Proc.at']
            refine ⟨Hx, .tau h1 (.run _ i c _ _ ?_), h2⟩
            cases z with
            | inl s' =>
              simp only [hst, Option.map_some, Option.some.injEq, Prod.mk.injEq, true_and] at he
              subst he
              have e2 : (Proc.at o s' : Proc (Nat × Op) Res S').at' o.1 = .at o.2 s' := by simp [Proc.at']
              simp only [Prog.mach, e1, Prog.from, hst, upd_at, upd_same, e2]
            | inr r =>
              simp only [hst, Option.map_some, Option.some.injEq, Prod.mk.injEq, true_and] at he
              subst he
              have e2 : (Proc.ret o r : Proc (Nat × Op) Res S').at' o.1 = .ret o.2 r := by simp [Proc.at']
              simp only [Prog.mach, e1, Prog.from, hst, upd_at, upd_same, e2]
          · refine ⟨Hx, ?_, h2⟩
            cases z with
            | inl s' =>
              simp only [hst, Option.map_some, Option.some.injEq, Prod.mk.injEq, true_and] at he
              subst he
              simp only
              rw [upd_ne _ _ (Ne.symm hx), upd_idle _ _ _ (by simp [hpc, Proc.at', hx])]
              exact h1
            | inr r =>
              simp only [hst, Option.map_some, Option.some.injEq, Prod.mk.injEq, true_and] at he
              subst he
              simp only
              rw [upd_ne _ _ (Ne.symm hx), upd_idle _ _ _ (by simp [hpc, Proc.at', hx])]
              exact h1
      · simp at he
      · simp at he
  | @ev m m' E e hm hs ih =>
    obtain ⟨Hx, h1, h2⟩ := ih
    have hev : (P.family.from g₀).mach.Exec m' (E ++ [e]) := .ev hm hs
    -- the order
    have hord : ∀ Hx', (∀ e ∈ Hx, e ∈ Hx') → (∃ l, Hx' = Hx ++ l) → (∀ b op, e = .inv b (x, op) → Hx' = Hx ++ [.inv b op]) →
        ∀ a b op op', Ev.inv a (x, op) ∈ E ++ [e] → Ev.inv b (x, op') ∈ E ++ [e] → Before (E ++ [e]) a b → Before Hx' a b := by
      rintro Hx' _ ⟨l, rfl⟩ hnew a b op op' ha hb hB
      have haE : ∀ r, Ev.ret a r ∈ E → Ev.inv a (x, op) ∈ E := by
        intro r hr
        obtain ⟨o, ho⟩ := (P.family.from g₀).ret_inv hm hr
        have := (P.family.from g₀).inv_unique hev (List.mem_append_left _ ho) ha
        exact this ▸ ho
      rcases before_append hB with hB | ⟨o, r, rfl, hr⟩
      · obtain ⟨⟨r, hr⟩, o, ho⟩ := before_mem hB
        have := (P.family.from g₀).inv_unique hev (List.mem_append_left _ ho) hb
        subst this
        exact (h2.before a b op op' (haE r hr) ho hB).append
      · have := (P.family.from g₀).inv_unique hev (o := o) (List.mem_append_right _ (by simp)) hb
        subst this
        rw [hnew b op' rfl]
        exact before_now ((h2.ret _ _).2 ⟨hr, op, haE r hr⟩)
    cases hs with
    | inv i o _ he =>
      simp only [Prog.mach] at he
      split at he
      · rename_i hpc
        simp only [Option.some.injEq] at he
        subst he
        have hnew : ∀ o r, Ev.inv i o ∉ E ∧ Ev.ret i r ∉ E := by
          intro o' r
          constructor
          · intro hi
            obtain ⟨z, hz⟩ := (((P.family.from g₀).hist hm).1 _ _).1 hi
            simp [Conf.view, hpc, Proc.view] at hz
          · intro hi
            obtain ⟨z, hz⟩ := ((P.family.from g₀).hist hm).2 _ _ hi
            simp [Conf.view, hpc, Proc.view] at hz
        obtain ⟨y, op⟩ := o
        by_cases hx : y = x
        · subst hx
          refine ⟨Hx ++ [.inv i op], .ev h1 (.inv _ i op _ ?_), ?_, ?_, hord _ (fun e he => List.mem_append_left _ he) ⟨_, rfl⟩ ?_⟩
          · have e1 : (m.pc i).at' y = .idle := by simp [hpc, Proc.at']
            have e2 : (Proc.at (y, op) ((P.family.from g₀).begin (y, op)) : Proc (Nat × Op) Res S').at' y = .at op (P.begin op) := by
              simp only [Proc.at', if_true]; rfl
            simp only [Prog.mach, e1, upd_at, e2]
            rfl
          · intro j op'
            simp only [List.mem_append, h2.inv, List.mem_singleton, Ev.inv.injEq, Prod.mk.injEq, true_and]
          · intro j r
            simp only [List.mem_append, h2.ret, List.mem_singleton, reduceCtorEq, or_false, Ev.inv.injEq, Prod.mk.injEq, true_and]
            constructor
            · rintro ⟨q1, op', q2⟩; exact ⟨q1, op', Or.inl q2⟩
            · rintro ⟨q1, op', q2 | ⟨q2, _⟩⟩
              · exact ⟨q1, op', q2⟩
              · exact absurd (q2 ▸ q1) (hnew (y, op) r).2
          · rintro b op' he
            simp only [Ev.inv.injEq, Prod.mk.injEq, true_and] at he
            rw [he.1, he.2]
        · refine ⟨Hx, ?_, ?_, ?_, hord _ (fun e he => he) ⟨[], by simp⟩ ?_⟩
          · simp only
            rw [upd_idle _ _ _ (by simp [hpc, Proc.at', hx])]
            exact h1
          · intro j op'
            simp only [List.mem_append, h2.inv, List.mem_singleton, Ev.inv.injEq, Prod.mk.injEq, Ne.symm hx, false_and, and_false, or_false]
          · intro j r
            simp only [List.mem_append, h2.ret, List.mem_singleton, reduceCtorEq, or_false, Ev.inv.injEq, Prod.mk.injEq, Ne.symm hx, false_and, and_false]
          · rintro b op' he
            simp only [Ev.inv.injEq, Prod.mk.injEq] at he
            exact absurd he.2.1 hx
      · simp at he
    | run i c _ _ he =>
      simp only [Prog.mach] at he
      split at he
      · simp at he
      · split at he <;> simp at he
      · rename_i o r hpc
        simp only [Option.some.injEq, Prod.mk.injEq] at he
        obtain ⟨rfl, rfl⟩ := he
        obtain ⟨y, op⟩ := o
        have hin : Ev.inv i (y, op) ∈ E := (((P.family.from g₀).hist hm).1 _ _).2 ⟨.inr r, by simp [Conf.view, hpc, Proc.view]⟩
        by_cases hx : y = x
        · subst hx
          refine ⟨Hx ++ [.ret i r], .ev h1 (.run _ i c _ _ ?_), ?_, ?_, hord _ (fun e he => List.mem_append_left _ he) ⟨_, rfl⟩ (by simp)⟩
          · have e1 : (m.pc i).at' y = .ret op r := by simp [hpc, Proc.at']
            have e2 : (Proc.done (y, op) r : Proc (Nat × Op) Res S').at' y = .done op r := by simp [Proc.at']
            simp only [Prog.mach, e1, upd_at, e2]
          · intro j op'
            simp only [List.mem_append, h2.inv, List.mem_singleton, reduceCtorEq, or_false]
          · intro j r'
            simp only [List.mem_append, h2.ret, List.mem_singleton, reduceCtorEq, or_false, Ev.ret.injEq]
            constructor
            · rintro (⟨q1, op', q2⟩ | ⟨rfl, rfl⟩)
              · exact ⟨Or.inl q1, op', q2⟩
              · exact ⟨Or.inr ⟨rfl, rfl⟩, op, hin⟩
            · rintro ⟨q1 | q1, q2⟩
              · exact Or.inl ⟨q1, q2⟩
              · exact Or.inr q1
        · refine ⟨Hx, ?_, ?_, ?_, hord _ (fun e he => he) ⟨[], by simp⟩ (by simp)⟩
          · simp only
            rw [upd_idle _ _ _ (by simp [hpc, Proc.at', hx])]
            exact h1
          · intro j op'
            simp only [List.mem_append, h2.inv, List.mem_singleton, reduceCtorEq, or_false]
          · intro j r'
            simp only [List.mem_append, h2.ret, List.mem_singleton, reduceCtorEq, or_false, Ev.ret.injEq]
            constructor
            · rintro ⟨q1, q2⟩; exact ⟨Or.inl q1, q2⟩
            · rintro ⟨q1 | ⟨rfl, rfl⟩, op', q2⟩
              · exact ⟨q1, op', q2⟩
              · have := (P.family.from g₀).inv_unique hm hin q2
                simp only [Prod.mk.injEq] at this
                exact absurd this.1 hx
      · simp at he

end Verif.Conc
