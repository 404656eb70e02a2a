import Verif.XStream.Panic
import Verif.XStream.Props
/-!
# Invariants of the operations that run in the goroutine of the caller, with functions that panic
-/
namespace Verif.XStream
open Verif.Go Verif.Conc.Net

variable {α K : Type}

/-! ## AnyMach, AllMach -/

/-- The predicate is evaluated without a panic and does not decide the result. -/
def Passes (bad : Val α → Bool) (want : Bool) (f : Val α → Bool) (xs : List (Val α)) : Prop := ∀ x ∈ xs, bad x = false ∧ f x ≠ want

/-- The result was decided by an element `v`. -/
def Decided (bad : Val α → Bool) (want : Bool) (f : Val α → Bool) (h : Hist (Val α) (Ev α K)) (last : List (Ev α K)) : Prop :=
  ∃ xs v ys, h.ins 0 = xs ++ v :: ys ∧ h.log = xs.map .call ++ [.call v] ++ last ∧ Passes bad want f xs ∧ bad v = false ∧ f v = want

/-- Proof only: part of an invariant or simulation; models no code. -/
def machPInv (bad : Val α → Bool) (want : Bool) (f : Val α → Bool) : Option (TermSt α K) → Hist (Val α) (Ev α K) → Prop
  | some .loop, h => h.eof 0 = false ∧ h.log = (h.ins 0).map .call ∧ Passes bad want f (h.ins 0)
  | some (.call v), h => h.eof 0 = false ∧ ∃ xs, h.ins 0 = xs ++ [v] ∧ h.log = xs.map .call ∧ Passes bad want f xs
  | some (.ret r), h => h.eof 0 = true ∧ r = .bool (!want) ∧ h.log = (h.ins 0).map .call ∧ Passes bad want f (h.ins 0) ∨
      h.eof 0 = false ∧ r = .bool want ∧ Decided bad want f h []
  | some .drain, h => h.eof 0 = false ∧ Decided bad want f h [.ret (.bool want)]
  | some .done, h => h.eof 0 = true ∧ (h.log = (h.ins 0).map .call ++ [.ret (.bool (!want))] ∧ Passes bad want f (h.ins 0) ∨
      Decided bad want f h [.ret (.bool want)])
  | none, h => h.eof 0 = false ∧ ∃ xs v, h.ins 0 = xs ++ [v] ∧ h.log = xs.map .call ++ [.panic v] ∧ Passes bad want f xs ∧ bad v = true

theorem machP_keeps (bad : Val α → Bool) (want : Bool) (f : Val α → Bool) (s : Option (TermSt α K)) (h : Hist (Val α) (Ev α K))
    (hi : machPInv bad want f s h) : (machP bad want f).Keeps (machPInv bad want f) h ((machP bad want f).next s) := by
  rcases s with _ | s
  · trivial
  · cases s with
    | call v =>
      obtain ⟨h1, xs, h4, h5, h6⟩ := hi
      by_cases hb : bad v = true
      · simp only [machP, panicky, machS, panickyNext, machNext, hb, if_true, Seq.Keeps]
        exact ⟨h1, xs, v, h4, by simp [Hist.add, h5], h6, hb⟩
      · by_cases hf : f v = want
        · simp only [machP, panicky, machS, panickyNext, machNext, hb, hf, if_true, Seq.Keeps]
          exact .inr ⟨h1, rfl, xs, v, [], h4, by simp [Hist.add, h5], h6, by simpa using hb, hf⟩
        · simp only [machP, panicky, machS, panickyNext, machNext, hb, hf, Seq.Keeps]
          refine ⟨h1, by simp [Hist.add, h4, h5], ?_⟩
          intro w hw
          simp only [Hist.add, h4, List.mem_append, List.mem_singleton] at hw
          rcases hw with hw | rfl
          · exact h6 w hw
          · exact ⟨by simpa using hb, hf⟩
    | loop =>
      obtain ⟨h1, h2, h3⟩ := hi
      refine ⟨Nat.one_pos, h1, fun v => ⟨h1, _, rfl, h2, h3⟩, .inl ⟨by simp [Hist.add], rfl, h2, h3⟩⟩
    | ret r =>
      rcases hi with ⟨h1, rfl, h2, h3⟩ | ⟨h1, rfl, xs, v, ys, h2, h3, h4, h5, h6⟩
      · have : (!want) ≠ want := by cases want <;> simp
        simp only [machP, panicky, machS, panickyNext, machNext, this, if_false, Seq.Keeps]
        exact ⟨h1, .inl ⟨by simp [Hist.add, h2], h3⟩⟩
      · simp only [machP, panicky, machS, panickyNext, machNext, if_true, Seq.Keeps]
        exact ⟨h1, xs, v, ys, h2, by simp [Hist.add, h3], h4, h5, h6⟩
    | drain =>
      obtain ⟨h1, xs, v, ys, h2, h3, h4⟩ := hi
      exact ⟨Nat.one_pos, h1, fun w => ⟨h1, xs, v, ys ++ [w], by simp [Hist.add, h2], h3, h4⟩,
        ⟨by simp [Hist.add], .inr ⟨xs, v, ys, h2, h3, h4⟩⟩⟩
    | done => trivial

theorem machP_init (bad : Val α → Bool) (want : Bool) (f : Val α → Bool) :
    machPInv bad want f (machP (K := K) bad want f).init (Hist.empty : Hist (Val α) (Ev α K)) := by
  simp [machPInv, machP, panicky, machS, Hist.empty, Passes]

/-! ## ForeachOrdered -/

/-- The elements from index `i` on have been handled, the last first, without a panic. -/
def Handled (bad : Val α → Bool) (h : Hist (Val α) (Ev α K)) (i : Nat) (last : List (Ev α K)) : Prop :=
  h.log = ((h.ins 0).drop i).reverse.map .call ++ last ∧ ∀ x ∈ (h.ins 0).drop i, bad x = false

/-- Proof only: part of an invariant or simulation; models no code. -/
def orderedPInv (bad : Val α → Bool) : Option (OrderedSt α) → Hist (Val α) (Ev α K) → Prop
  | some (.loop items), h => h.eof 0 = false ∧ items = h.ins 0 ∧ h.log = []
  | some (.back items i), h => h.eof 0 = true ∧ items = h.ins 0 ∧ -1 ≤ i ∧ i < items.length ∧ Handled bad h (i + 1).toNat []
  | some .ret, h => h.eof 0 = true ∧ Handled bad h 0 []
  | some .done, h => h.eof 0 = true ∧ Handled bad h 0 [.ret .unit]
  | none, h => h.eof 0 = true ∧ ∃ ys v xs, h.ins 0 = ys ++ v :: xs ∧ bad v = true ∧ Handled bad h (ys.length + 1) [.panic v]

theorem orderedP_keeps (bad : Val α → Bool) (s : Option (OrderedSt α)) (h : Hist (Val α) (Ev α K)) (hi : orderedPInv bad s h) :
    (orderedP bad).Keeps (orderedPInv bad) h ((orderedP bad).next s) := by
  rcases s with _ | s
  · trivial
  · cases s with
    | loop items =>
      obtain ⟨h1, h2, h3⟩ := hi
      refine ⟨Nat.one_pos, h1, fun v => ⟨h1, by simp [Hist.add, h2], h3⟩, ⟨by simp [Hist.add], h2, by omega, by omega, ?_⟩⟩
      subst h2
      simp [Handled, Hist.add, h3]
    | back items i =>
      obtain ⟨h1, h2, h3, h4, h5, h6⟩ := hi
      subst h2
      by_cases e : i ≥ 0
      · have hlt : i.toNat < (h.ins 0).length := by omega
        have hg : (h.ins 0).getD i.toNat .nil = (h.ins 0)[i.toNat] := by rw [List.getD_eq_getElem?_getD, List.getElem?_eq_getElem hlt]; rfl
        have hd : (h.ins 0).drop i.toNat = (h.ins 0)[i.toNat] :: (h.ins 0).drop (i.toNat + 1) := List.drop_eq_getElem_cons hlt
        have e1 : (i + 1).toNat = i.toNat + 1 := by omega
        have e2 : (i - 1 + 1).toNat = i.toNat := by congr 1; omega
        rw [e1] at h5 h6
        by_cases hb : bad ((h.ins 0)[i.toNat]) = true
        · simp only [orderedP, panicky, orderedS, panickyNext, orderedNext, e, if_true, hg, hb, Seq.Keeps]
          refine ⟨h1, (h.ins 0).take i.toNat, (h.ins 0)[i.toNat], (h.ins 0).drop (i.toNat + 1), ?_, hb, ?_, ?_⟩
          · simp only [Hist.add]; rw [← hd, List.take_append_drop]
          · simp only [Hist.add, List.length_take, Nat.min_eq_left (Nat.le_of_lt hlt), h5, List.append_nil]
          · simpa only [Hist.add, List.length_take, Nat.min_eq_left (Nat.le_of_lt hlt)] using h6
        · simp only [orderedP, panicky, orderedS, panickyNext, orderedNext, e, if_true, hg, hb, Seq.Keeps]
          refine ⟨h1, rfl, by omega, by omega, ?_, ?_⟩
          · simp only [Hist.add, e2, h5]; rw [hd]; simp only [List.reverse_cons, List.map_append, List.map_cons, List.map_nil, List.append_nil]
          · simp only [Hist.add, e2]; rw [hd]
            intro x hx
            rcases List.mem_cons.mp hx with rfl | hx
            · simpa using hb
            · exact h6 x hx
      · simp only [orderedP, panicky, orderedS, panickyNext, orderedNext, e, if_false, Seq.Keeps]
        have : (i + 1).toNat = 0 := by omega
        rw [this] at h5 h6
        exact ⟨h1, h5, h6⟩
    | ret =>
      obtain ⟨h1, h2, h3⟩ := hi
      exact ⟨h1, by simp [Hist.add, h2], h3⟩
    | done => trivial

theorem orderedP_init (bad : Val α → Bool) : orderedPInv bad (orderedP (K := K) bad).init (Hist.empty : Hist (Val α) (Ev α K)) := by
  simp [orderedPInv, orderedP, panicky, orderedS, Hist.empty]

/-! ## GroupBy, Group -/

/-- The map represents the grouping of `xs` by a key function that may panic. -/
def GroupsP [DecidableEq K] {A : Type} (f : A → Option K) (xs : List A) (g : GMap K (List A)) : Prop :=
  GMap.WF g ∧ ∀ k, GMap.get g k = if (xs.filter fun x => f x = some k) = [] then none else some (xs.filter fun x => f x = some k)

theorem groupsP_nil [DecidableEq K] {A : Type} (f : A → Option K) : GroupsP f [] ([] : GMap K (List A)) := ⟨GMap.wf_nil, by simp⟩

theorem groupsP_snoc [DecidableEq K] {A : Type} (f : A → Option K) {xs : List A} {g : GMap K (List A)} (h : GroupsP f xs g) (v : A) {k : K} (hk : f v = some k) :
    GroupsP f (xs ++ [v]) (GMap.set g k ((GMap.get g k).getD [] ++ [v])) := by
  refine ⟨GMap.wf_set h.1 _ _, fun k' => ?_⟩
  rw [GMap.get_set, h.2 k]
  by_cases e : k' = k
  · subst e
    by_cases e2 : (xs.filter fun x => f x = some k') = []
    · simp [List.filter_append, e2, hk]
    · simp [List.filter_append, e2, hk]
  · rw [if_neg e, h.2 k']
    simp [List.filter_append, Ne.symm e, hk]

/-- The grouping of `xs` by a key function that may panic: one entry for every key that occurs, with the elements of that key in order. -/
def IsGroupingP [DecidableEq K] {A : Type} (f : A → Option K) (xs : List A) (g : GMap K (List A)) : Prop :=
  GMap.WF g ∧ ∀ k l, (k, l) ∈ g ↔ l = xs.filter (fun x => f x = some k) ∧ l ≠ []

theorem groupsP_is [DecidableEq K] {A : Type} {f : A → Option K} {xs : List A} {g : GMap K (List A)} (h : GroupsP f xs g) : IsGroupingP f xs g := by
  refine ⟨h.1, fun k l => ?_⟩
  rw [GMap.mem_iff h.1, h.2 k]
  split
  · next e => simp only [reduceCtorEq, false_iff]; rintro ⟨h1, h2⟩; exact h2 (h1.trans e)
  · next e => simp only [Option.some.injEq]; exact ⟨fun hh => ⟨hh.symm, fun h0 => e (hh.trans h0)⟩, fun hh => hh.1.symm⟩

/-- Proof only: part of an invariant or simulation; models no code. -/
def keyedPInv [DecidableEq K] (f : Val α → Option K) : KeyedSt α K → Hist (Val α) (Ev α K) → Prop
  | .loop g, h => h.eof 0 = false ∧ h.log = [] ∧ GroupsP f (h.ins 0) g ∧ ∀ x ∈ h.ins 0, f x ≠ none
  | .panicking v, h => h.eof 0 = false ∧ h.log = [] ∧ ∃ xs, h.ins 0 = xs ++ [v] ∧ f v = none ∧ ∀ x ∈ xs, f x ≠ none
  | .ret g, h => h.eof 0 = true ∧ h.log = [] ∧ GroupsP f (h.ins 0) g ∧ ∀ x ∈ h.ins 0, f x ≠ none
  | .done, h => (h.eof 0 = true ∧ (∃ g, h.log = [.ret (.groups g)] ∧ GroupsP f (h.ins 0) g) ∧ ∀ x ∈ h.ins 0, f x ≠ none) ∨
      (h.eof 0 = false ∧ ∃ xs v, h.ins 0 = xs ++ [v] ∧ h.log = [.panic v] ∧ f v = none ∧ ∀ x ∈ xs, f x ≠ none)

theorem keyedP_keeps [DecidableEq K] (f : Val α → Option K) (s : KeyedSt α K) (h : Hist (Val α) (Ev α K)) (hi : keyedPInv f s h) :
    (keyedP f).Keeps (keyedPInv f) h ((keyedP f).next s) := by
  cases s with
  | loop g =>
    obtain ⟨h1, h2, h3, h4⟩ := hi
    refine ⟨Nat.one_pos, h1, fun v => ?_, ⟨by simp [Hist.add], h2, h3, h4⟩⟩
    change keyedPInv f (match f v with | none => KeyedSt.panicking v | some k => .loop (GMap.set g k ((GMap.get g k).getD [] ++ [v]))) _
    cases hf : f v with
    | none =>
      exact ⟨h1, h2, _, rfl, hf, h4⟩
    | some k =>
      refine ⟨h1, h2, groupsP_snoc f h3 v hf, ?_⟩
      intro x hx
      have hx : x ∈ h.ins 0 ++ [v] := by simpa [Hist.add] using hx
      rw [List.mem_append, List.mem_singleton] at hx
      rcases hx with hx | rfl
      · exact h4 x hx
      · rw [hf]; simp
  | panicking v =>
    obtain ⟨h1, h2, xs, h3, h4, h5⟩ := hi
    exact .inr ⟨h1, xs, v, h3, by simp [Hist.add, h2], h4, h5⟩
  | ret g =>
    obtain ⟨h1, h2, h3, h4⟩ := hi
    exact .inl ⟨h1, ⟨g, by simp [Hist.add, h2], h3⟩, h4⟩
  | done => trivial

theorem keyedP_init [DecidableEq K] (f : Val α → Option K) : keyedPInv f (keyedP f).init (Hist.empty : Hist (Val α) (Ev α K)) := by
  simp [keyedPInv, keyedP, Hist.empty, groupsP_nil]

/-! ## Sort -/

/-- Proof only: part of an invariant or simulation; models no code. -/
def sortPInv : SortPSt α → Hist (Val α) (Ev α K) → Prop
  | .loop items, h => h.eof 0 = false ∧ items = h.ins 0 ∧ h.log = []
  | .panicking, h => h.eof 0 = true ∧ h.log = []
  | .done, h => h.eof 0 = true ∧ h.log = [.panic .nil]

theorem sortP_keeps (s : SortPSt α) (h : Hist (Val α) (Ev α K)) (hi : sortPInv s h) : sortP.Keeps sortPInv h (sortP.next s) := by
  cases s with
  | loop items =>
    obtain ⟨h1, h2, h3⟩ := hi
    exact ⟨Nat.one_pos, h1, fun v => ⟨h1, by simp [Hist.add, h2], h3⟩, ⟨by simp [Hist.add], h3⟩⟩
  | panicking => exact ⟨hi.1, by simp [Hist.add, hi.2]⟩
  | done => trivial

theorem sortP_init : sortPInv (sortP (K := K)).init (Hist.empty : Hist (Val α) (Ev α K)) := by
  simp [sortPInv, sortP, Hist.empty]

end Verif.XStream
