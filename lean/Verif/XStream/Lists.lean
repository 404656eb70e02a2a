import Verif.XStream.Spec
/-! # Lemmas about the list functions of the specification -/
namespace Verif.XStream
open Verif.Go

variable {α K A : Type}

theorem firstPerKey_mem_key [DecidableEq K] (f : A → K) (xs : List A) (k : K) : (∃ x ∈ firstPerKey f xs, f x = k) ↔ ∃ x ∈ xs, f x = k := by
  induction xs with
  | nil => simp [firstPerKey]
  | cons y ys ih =>
    simp only [firstPerKey, List.mem_cons, exists_eq_or_imp, List.mem_filter]
    by_cases e : f y = k
    · simp [e]
    · simp only [e, false_or]
      rw [← ih]
      constructor
      · rintro ⟨x, ⟨h1, _⟩, h2⟩; exact ⟨x, h1, h2⟩
      · rintro ⟨x, h1, h2⟩; exact ⟨x, ⟨h1, by simp [h2, Ne.symm e]⟩, h2⟩

theorem firstPerKey_snoc [DecidableEq K] (f : A → K) (xs : List A) (v : A) :
    firstPerKey f (xs ++ [v]) = if ∃ x ∈ xs, f x = f v then firstPerKey f xs else firstPerKey f xs ++ [v] := by
  induction xs with
  | nil => simp [firstPerKey]
  | cons y ys ih =>
    simp only [List.cons_append, firstPerKey, ih]
    by_cases e : f y = f v
    · simp [e]
      split <;> simp [e]
    · by_cases e2 : ∃ x ∈ ys, f x = f v
      · simp [e, e2]
      · simp [e, e2, Ne.symm e]

theorem firstPerKey_length [DecidableEq K] (f : A → K) (xs : List A) : (firstPerKey f xs).length ≤ xs.length := by
  induction xs with
  | nil => simp [firstPerKey]
  | cons x xs ih =>
    simp only [firstPerKey, List.length_cons]
    have := List.length_filter_le (fun y => decide (f y ≠ f x)) (firstPerKey f xs)
    omega

theorem chunks_nil (n : Nat) : chunks n ([] : List A) = [] := by simp [chunks]

theorem chunks_append {n : Nat} (hn : 0 < n) (c r : List A) (hc : c.length = n) : chunks n (c ++ r) = c :: chunks n r := by
  cases c with
  | nil => simp at hc; omega
  | cons x xs =>
    rw [List.cons_append, chunks, if_neg (by omega), ← List.cons_append]
    rw [List.take_left' hc, List.drop_left' hc]

theorem chunks_flatten {n : Nat} (hn : 0 < n) (cs : List (List A)) (r : List A) (hc : ∀ c ∈ cs, c.length = n) :
    chunks n (cs.flatten ++ r) = cs ++ chunks n r := by
  induction cs with
  | nil => rfl
  | cons c cs ih =>
    rw [List.flatten_cons, List.append_assoc, chunks_append hn _ _ (hc c (by simp)), ih fun c' h => hc c' (by simp [h])]
    rfl

theorem chunks_short {n : Nat} (r : List A) (h0 : r ≠ []) (h : r.length ≤ n) : chunks n r = [r] := by
  cases r with
  | nil => simp at h0
  | cons x xs =>
    have : 0 < n := by simp at h; omega
    rw [chunks, if_neg (by omega), List.take_of_length_le h, List.drop_of_length_le h, chunks_nil]

theorem chunks_length (n : Nat) (l : List A) : (chunks n l).length ≤ l.length := by
  induction l using chunks.induct n with
  | case1 => simp [chunks]
  | case2 x xs h => simp [chunks, h]
  | case3 x xs h ih =>
    rw [chunks, if_neg h]
    simp only [List.length_cons, List.length_drop] at ih ⊢
    omega

/-- The loop swaps the first `cnt` elements with their mirror images. -/
theorem swapLoop_get (cnt : Nat) : ∀ (l : List (Val α)), cnt ≤ l.length / 2 →
    (swapLoop l cnt).length = l.length ∧ ∀ j < l.length, (swapLoop l cnt)[j]? =
      if j < cnt ∨ l.length - 1 - j < cnt then l[l.length - 1 - j]? else l[j]? := by
  induction cnt with
  | zero => intro l _; simp [swapLoop]
  | succ i ih =>
    intro l hl
    simp only [swapLoop]
    generalize ho : l.length - 1 - i = opp
    have hi : i < l.length := by omega
    have hop : opp < l.length := by omega
    have hne : i ≠ opp := by omega
    generalize hl' : (l.set i (l.getD opp .nil)).set opp (l.getD i .nil) = l'
    have hlen : l'.length = l.length := by rw [← hl']; simp
    have hget : ∀ j < l.length, l'[j]? = if j = i then l[opp]? else if j = opp then l[i]? else l[j]? := by
      intro j hj
      rw [← hl']
      by_cases e2 : j = opp
      · subst e2
        rw [List.getElem?_set_self (by simpa using hop), if_neg (Ne.symm hne), if_pos rfl, List.getD_eq_getElem?_getD,
          List.getElem?_eq_getElem hi]; rfl
      · rw [List.getElem?_set_ne (Ne.symm e2)]
        by_cases e1 : j = i
        · subst e1
          rw [List.getElem?_set_self hi, if_pos rfl, List.getD_eq_getElem?_getD, List.getElem?_eq_getElem hop]; rfl
        · rw [List.getElem?_set_ne (Ne.symm e1), if_neg e1, if_neg e2]
    obtain ⟨h1, h2⟩ := ih l' (by omega)
    refine ⟨by omega, fun j hj => ?_⟩
    rw [h2 j (by omega), hlen]
    by_cases c1 : j < i ∨ l.length - 1 - j < i
    · rw [if_pos c1, if_pos (by omega), hget _ (by omega), if_neg (by omega), if_neg (by omega)]
    · rw [if_neg c1, hget j hj]
      by_cases e1 : j = i
      · subst e1; rw [if_pos rfl, if_pos (by omega), ho]
      · rw [if_neg e1]
        by_cases e2 : j = opp
        · subst e2; rw [if_pos rfl, if_pos (by omega), show l.length - 1 - j = i by omega]
        · rw [if_neg e2, if_neg (by omega)]

theorem swapLoop_reverse (l : List (Val α)) : swapLoop l (l.length / 2) = l.reverse := by
  obtain ⟨h1, h2⟩ := swapLoop_get (l.length / 2) l (Nat.le_refl _)
  apply List.ext_getElem?
  intro j
  by_cases hj : j < l.length
  · rw [h2 j hj, List.getElem?_reverse hj]
    split
    · rfl
    · have : l.length - 1 - j = j := by omega
      rw [this]
  · rw [List.getElem?_eq_none (by omega), List.getElem?_eq_none (by simp; omega)]

/-! ## Groups -/

/-- The map represents the grouping of `xs`. -/
def Groups [DecidableEq K] (f : A → K) (xs : List A) (g : GMap K (List A)) : Prop :=
  GMap.WF g ∧ ∀ k, GMap.get g k = if (xs.filter fun x => f x = k) = [] then none else some (xs.filter fun x => f x = k)

theorem groups_nil [DecidableEq K] (f : A → K) : Groups f [] ([] : GMap K (List A)) := ⟨GMap.wf_nil, by simp⟩

theorem groups_snoc [DecidableEq K] (f : A → K) {xs : List A} {g : GMap K (List A)} (h : Groups f xs g) (v : A) :
    Groups f (xs ++ [v]) (GMap.set g (f v) ((GMap.get g (f v)).getD [] ++ [v])) := by
  refine ⟨GMap.wf_set h.1 _ _, fun k => ?_⟩
  rw [GMap.get_set, h.2 (f v)]
  by_cases e : k = f v
  · subst e
    by_cases e2 : (xs.filter fun x => f x = f v) = []
    · simp [List.filter_append, e2]
    · simp [List.filter_append, e2]
  · rw [if_neg e, h.2 k]
    simp [List.filter_append, Ne.symm e]

theorem groups_is [DecidableEq K] {f : A → K} {xs : List A} {g : GMap K (List A)} (h : Groups f xs g) : IsGrouping f xs g := by
  refine ⟨h.1, fun k l => ?_⟩
  rw [GMap.mem_iff h.1, h.2 k]
  split
  · next e => simp only [reduceCtorEq, false_iff]; rintro ⟨h1, h2⟩; exact h2 (h1.trans e)
  · next e => simp only [Option.some.injEq]; exact ⟨fun hh => ⟨hh.symm, fun h0 => e (hh.trans h0)⟩, fun hh => hh.1.symm⟩

theorem isGrouping_perm [DecidableEq K] {f : A → K} {xs : List A} {g g' : GMap K (List A)} (h : IsGrouping f xs g) (hp : g'.Perm g) :
    IsGrouping f xs g' := ⟨(hp.map _).nodup_iff.mpr h.1, fun k l => by rw [hp.mem_iff]; exact h.2 k l⟩

theorem groupLoop_groups [DecidableEq K] (f : Val α → K) : ∀ (l xs : List (Val α)) (g : GMap K (List (Val α))), Groups f xs g →
    Groups f (xs ++ l) (groupLoop f g l) := by
  intro l
  induction l with
  | nil => intro xs g h; simpa [groupLoop] using h
  | cons v vs ih =>
    intro xs g h
    have := ih _ _ (groups_snoc f h v)
    simpa [groupLoop] using this

theorem groupLoop_length [DecidableEq K] (f : Val α → K) : ∀ (l : List (Val α)) (g : GMap K (List (Val α))), (groupLoop f g l).length ≤ g.length + l.length := by
  intro l
  induction l with
  | nil => intro g; simp [groupLoop]
  | cons v vs ih =>
    intro g
    have := ih (GMap.set g (f v) ((GMap.get g (f v)).getD [] ++ [v]))
    have h2 := List.length_filter_le (fun x : K × List (Val α) => decide (x.1 ≠ f v)) g
    simp only [groupLoop, GMap.set, GMap.del, List.length_cons] at this ⊢
    omega

theorem upTo_snoc_of_none (p : A → Bool) (xs : List A) (v : A) (h : xs.any p = false) : upTo p (xs ++ [v]) = xs ++ [v] := by
  induction xs with
  | nil => simp [upTo]
  | cons x xs ih =>
    simp only [List.any_cons, Bool.or_eq_false_iff] at h
    simp [upTo, h.1, ih h.2]

theorem upTo_of_none (p : A → Bool) (xs : List A) (h : xs.any p = false) : upTo p xs = xs := by
  induction xs with
  | nil => simp [upTo]
  | cons x xs ih =>
    simp only [List.any_cons, Bool.or_eq_false_iff] at h
    simp [upTo, h.1, ih h.2]

theorem upTo_append (p : A → Bool) (xs ys : List A) (h : xs.any p = true) : upTo p (xs ++ ys) = upTo p xs := by
  induction xs with
  | nil => simp at h
  | cons x xs ih =>
    simp only [List.cons_append, upTo]
    split
    · rfl
    · next hx => rw [ih (by simpa [hx] using h)]

end Verif.XStream
