import Mathlib.Tactic.Common
import Verif.XString.PropsA
/-! # Property theorems for xstring: reversal, search and replace, trimming, numerals (C57, C70, C71, C73) -/
namespace Verif.XString
open Verif.Go Verif.XMath

/-! ## C57 -/

theorem take_prefix_split {src pre e : Bytes} {k : Nat} (hk : k ≤ src.length) (h : src.take k = pre ++ e) :
    src.take (k - e.length) = pre ∧ e.length ≤ k := by
  have hl := congrArg List.length h
  simp [List.length_take] at hl
  have he : e.length ≤ k := by omega
  refine ⟨?_, he⟩
  have : src.take (k - e.length) = (src.take k).take (k - e.length) := by rw [List.take_take]; congr 1; omega
  rw [this, h, show k - e.length = pre.length by omega]; simp

theorem reverseLoop_spec (src : Bytes) : ∀ (f k : Nat) (dn : List Int), k ≤ f → k ≤ src.length →
    (∀ r ∈ dn, IsScalar r) →
    ∃ res, reverseLoop src f k (encodeAll dn.reverse).length (encodeAll dn.reverse ++ List.replicate k 0) = some res ∧
      (res.err = false → ValidUtf8 (src.take k) ∧ runeError ∉ runes (src.take k) ∧
        res.str = encodeAll (dn.reverse ++ (runes (src.take k)).reverse)) ∧
      (res.err = true → ¬ (ValidUtf8 (src.take k) ∧ runeError ∉ runes (src.take k))) := by
  intro f
  induction f with
  | zero =>
    intro k dn hk _ _
    have : k = 0 := by omega
    subst this
    refine ⟨_, rfl, ?_, ?_⟩
    · intro _; exact ⟨⟨[], by simp, rfl⟩, by simp [runes_nil], by simp [runes_nil]⟩
    · intro h; simp at h
  | succ f ih =>
    intro k dn hk hks hd
    unfold reverseLoop
    by_cases hk0 : k > 0
    · simp only [hk0, if_true]
      by_cases hr : (decodeLastRune (src.take k)).1 = runeError
      · simp only [hr, if_true]
        refine ⟨_, rfl, by simp, ?_⟩
        rintro _ ⟨hv, hn⟩
        -- a valid non-empty string decodes its last character
        have he := (validUtf8_iff _).mp hv
        have hne : runes (src.take k) ≠ [] := by
          intro h
          have := congrArg List.length (runes_eq_nil.mp h)
          simp only [List.length_take, List.length_nil] at this; omega
        obtain ⟨rs, r, hrr⟩ : ∃ rs r, runes (src.take k) = rs ++ [r] :=
          ⟨(runes (src.take k)).dropLast, (runes (src.take k)).getLast hne, (List.dropLast_concat_getLast hne).symm⟩
        have hsc : IsScalar r := runes_scalar (src.take k) r (by rw [hrr]; simp)
        rw [hrr, encodeAll_append] at he
        have h1 : encodeAll [r] = encodeRune r := by simp [encodeAll]
        rw [h1] at he
        have := decodeLastRune_append hsc (encodeAll rs)
        rw [he] at this
        rw [this] at hr
        exact hn (by rw [hrr]; simp at hr; simp [hr])
      · simp only [hr, if_false]
        obtain ⟨pre, hp, hsc, hw⟩ := decodeLastRune_sound hr
        generalize hr' : (decodeLastRune (src.take k)).1 = r at *
        obtain ⟨ht, hle⟩ := take_prefix_split hks hp
        have henc : encodeAt (encodeAll dn.reverse ++ List.replicate k 0) (encodeAll dn.reverse).length r
            = some (encodeAll (r :: dn).reverse ++ List.replicate (k - (encodeRune r).length) 0) := by
          unfold encodeAt
          simp only
          rw [if_pos (by simp; omega)]
          congr 1
          rw [List.take_left, List.drop_append, List.drop_eq_nil_of_le (by omega)]
          have : List.reverse (r :: dn) = dn.reverse ++ [r] := by simp
          rw [this, encodeAll_append]
          have h1 : encodeAll [r] = encodeRune r := by simp [encodeAll]
          rw [h1, List.drop_replicate]
          simp [List.append_assoc]
        rw [henc, hw]
        simp only
        have hlen : (encodeAll dn.reverse).length + (encodeRune r).length = (encodeAll (r :: dn).reverse).length := by
          have : List.reverse (r :: dn) = dn.reverse ++ [r] := by simp
          rw [this, encodeAll_append]; simp [encodeAll]
        rw [hlen]
        have hl1 := (encodeRune_length r).1
        obtain ⟨res, e1, e2, e3⟩ := ih (k - (encodeRune r).length) (r :: dn) (by omega) (by omega)
          (by intro x hx; rcases List.mem_cons.mp hx with rfl | hx; exacts [hsc, hd x hx])
        rw [ht] at e2 e3
        have hv1 : ∀ {p : Bytes}, ValidUtf8 p → runes (p ++ encodeRune r) = runes p ++ [r] := by
          intro p hv
          rw [runes_append_valid hv]
          have := runes_encodeRune_append r []
          rw [List.append_nil, norm_of_scalar hsc, runes_nil] at this
          rw [this]
        have hvr : ValidUtf8 (encodeRune r) := ⟨[r], by simpa using hsc, by simp [encodeAll]⟩
        refine ⟨res, e1, ?_, ?_⟩
        · intro h
          obtain ⟨v1, v2, v3⟩ := e2 h
          rw [hp]
          refine ⟨validUtf8_append v1 hvr, ?_, ?_⟩
          · rw [hv1 v1]; simp only [List.mem_append, List.mem_singleton, not_or]
            exact ⟨v2, fun h => hr h.symm⟩
          · rw [v3, hv1 v1]; simp
        · rintro h ⟨v1, v2⟩
          apply e3 h
          rw [hp] at v1 v2
          -- the prefix of a valid string at a character boundary is valid
          obtain ⟨rs, q1, q2⟩ := v1
          have hrs : runes (pre ++ encodeRune r) = rs := by rw [q2]; exact runes_encodeAll q1
          have hne : rs ≠ [] := by
            intro h; rw [h] at q2; simp [encodeAll, encodeRune_ne_nil] at q2
          obtain ⟨rs', x, rfl⟩ : ∃ rs' x, rs = rs' ++ [x] :=
            ⟨rs.dropLast, rs.getLast hne, (List.dropLast_concat_getLast hne).symm⟩
          have hx : IsScalar x := q1 x (by simp)
          have d1 := decodeLastRune_append hsc pre
          have d2 := decodeLastRune_append hx (encodeAll rs')
          have h1 : encodeAll [x] = encodeRune x := by simp [encodeAll]
          rw [encodeAll_append, h1] at q2
          rw [q2, d2] at d1
          have hxr : x = r := by simpa using congrArg Prod.fst d1
          subst hxr
          have hpre : pre = encodeAll rs' := List.append_cancel_right q2
          refine ⟨⟨rs', fun y hy => q1 y (by simp [hy]), hpre⟩, ?_⟩
          rw [hpre, runes_encodeAll (fun y hy => q1 y (by simp [hy]))]
          rw [hrs] at v2
          intro hm; exact v2 (by simp [hm])
    · have : k = 0 := by omega
      subst this
      simp only [hk0, if_false]
      refine ⟨_, rfl, ?_, ?_⟩
      · intro _; exact ⟨⟨[], by simp, rfl⟩, by simp [runes_nil], by simp [runes_nil]⟩
      · intro h; simp at h

/-- C57, exact behaviour on every byte string: `Reverse` never panics; it succeeds iff the text is valid UTF-8 without
U+FFFD, and then yields exactly the reversed characters. -/
theorem C57_reverse_exact (s : Bytes) : ∃ res, reverse s = some res ∧
    (res.err = false ↔ ValidUtf8 s ∧ runeError ∉ runes s) ∧
    (res.err = false → runes res.str = (runes s).reverse ∧ ValidUtf8 res.str) := by
  unfold reverse
  by_cases hs : s = []
  · subst hs
    exact ⟨⟨[], false⟩, rfl, ⟨fun _ => ⟨⟨[], by simp, rfl⟩, by simp [runes_nil]⟩, fun _ => rfl⟩,
      fun _ => ⟨by simp [runes_nil], ⟨[], by simp, rfl⟩⟩⟩
  · rw [if_neg hs]
    obtain ⟨res, h1, h2, h3⟩ := reverseLoop_spec s s.length s.length [] (Nat.le_refl _) (Nat.le_refl _) (by simp)
    simp only [List.reverse_nil, encodeAll_nil, List.length_nil, List.nil_append, List.take_length] at h1 h2 h3
    refine ⟨res, h1, ⟨fun h => ⟨(h2 h).1, (h2 h).2.1⟩, ?_⟩, ?_⟩
    · intro h
      cases he : res.err with
      | false => rfl
      | true => exact absurd h (h3 he)
    · intro h
      rw [(h2 h).2.2]
      exact ⟨runes_encodeAll (fun r hr => runes_scalar s r (List.mem_reverse.mp hr)), validUtf8_encodeAll _⟩

example : (reverse [97, 0xFF]).map (·.err) = some true ∧ (reverse [97, 98]).map (·.str) = some [98, 97] := by decide

/-- C57 as stated ("for every valid UTF-8 string `Reverse` succeeds") is false: U+FFFD is a valid character that
`Reverse` mistakes for a decoding error. -/
theorem C57_reverse_refuted : ValidUtf8 [0xEF, 0xBF, 0xBD] ∧ (reverse [0xEF, 0xBF, 0xBD]).map (·.err) = some true :=
  ⟨⟨[0xFFFD], by decide, by decide⟩, by decide⟩

/-- C57, what holds: for valid text without U+FFFD, `Reverse` succeeds, reverses the characters, and reversing twice
gives the original bytes back; `MustReverse` does not panic. Missing: text containing U+FFFD, where the code reports an
error (`C57_reverse_refuted`). -/
theorem C57_reverse_partial (s : Bytes) (hs : ValidUtf8 s) (hn : runeError ∉ runes s) :
    ∃ t, reverse s = some ⟨t, false⟩ ∧ runes t = (runes s).reverse ∧ reverse t = some ⟨s, false⟩ ∧
      mustReverse s = some t := by
  obtain ⟨⟨t, e⟩, h1, h2, h3⟩ := C57_reverse_exact s
  have he : e = false := h2.mpr ⟨hs, hn⟩
  subst he
  obtain ⟨h4, h5⟩ := h3 rfl
  simp only at h4 h5
  obtain ⟨⟨t', e'⟩, g1, g2, g3⟩ := C57_reverse_exact t
  have he' : e' = false := g2.mpr ⟨h5, by rw [h4]; simpa using hn⟩
  subst he'
  obtain ⟨g4, g5⟩ := g3 rfl
  simp only at g4 g5
  have : t' = s := runes_inj g5 hs (by rw [g4, h4, List.reverse_reverse])
  subst this
  exact ⟨t, h1, h4, g1, by simp [mustReverse, h1]⟩

example : reverse niHao = some ⟨[0xE5, 0xA5, 0xBD, 0xE4, 0xBD, 0xA0], false⟩ ∧ runeError ∉ runes niHao := by decide

/-- C57: invalid UTF-8 is reported as an error (and makes `MustReverse` panic). -/
theorem C57_invalid_reported (s : Bytes) (hs : ¬ ValidUtf8 s) :
    (reverse s).map (·.err) = some true ∧ mustReverse s = none := by
  obtain ⟨⟨t, e⟩, h1, h2, _⟩ := C57_reverse_exact s
  have he : e = true := by
    cases e with
    | true => rfl
    | false => exact absurd (h2.mp rfl).1 hs
  subst he
  simp [h1, mustReverse]

example : reverse niHao = some ⟨[0xE5, 0xA5, 0xBD, 0xE4, 0xBD, 0xA0], false⟩ := by decide
example : ¬ ValidUtf8 [0xE4, 0xBD] := by
  rw [validUtf8_iff]; decide

/-! ## C71 -/

theorem replaceLoop_removed {t : Bytes} (ht : t ≠ []) : ∀ (f : Nat) (s : Bytes), s.length ≤ f →
    Removed t s (replaceLoop t f s) := by
  intro f
  induction f with
  | zero =>
    intro s hs
    have : s = [] := List.eq_nil_of_length_eq_zero (by omega)
    subst this
    apply Removed.none
    intro a b e
    simp at e; exact ht e.2.1
  | succ f ih =>
    intro s hs
    unfold replaceLoop
    cases h : index t s with
    | none => exact Removed.none (index_none h)
    | some i =>
      obtain ⟨⟨r, hr⟩, hle, hmin⟩ := index_some h
      have hd : s.drop (i + t.length) = r := by
        have h1 : (s.take i ++ t).length = i + t.length := by simp; omega
        have h2 : s.drop (i + t.length) = (s.take i ++ t ++ r).drop (i + t.length) := congrArg _ hr
        rw [h2, ← h1, List.drop_left]
      simp only
      rw [hd]
      have hlt : r.length ≤ f := by
        have h2 := congrArg List.length hr
        have : 0 < t.length := List.length_pos_iff.mpr ht
        simp only [List.length_append, List.length_take] at h2
        omega
      have := Removed.found (t := t) (a := s.take i) (b := r) (by
        intro a' b' e
        rw [← hr] at e
        have h3 := hmin a' b' e
        simp only [List.length_take]; omega) (ih r hlt)
      rw [← hr] at this
      exact this

/-- C71: for non-empty `t`, `RemoveString(s, t)` deletes exactly the non-overlapping occurrences found from left to
right; for empty `t` it returns `s`. -/
theorem C71_removeString (s t : Bytes) :
    (t ≠ [] → Removed t s (removeString s t)) ∧ (t = [] → removeString s t = s) := by
  constructor
  · intro ht
    unfold removeString
    by_cases hs : s = []
    · subst hs
      simp only [true_or, if_true]
      apply Removed.none
      intro a b e
      simp at e; exact ht e.2.1
    · simp only [hs, ht, or_self, if_false]
      exact replaceLoop_removed ht _ _ (Nat.le_refl _)
  · rintro rfl; simp [removeString]

example : removeString [97, 98, 120, 97, 98] [97, 98] = [120] ∧ removeString [97, 97, 97] [97, 97] = [97] := by decide

theorem removed_length {t s out : Bytes} (h : Removed t s out) :
    ∃ k, s.length = out.length + k * t.length ∧ (k = 0 → out = s) ∧ (k = 0 → ∀ a b, s ≠ a ++ t ++ b) := by
  induction h with
  | none hn => exact ⟨0, by simp, fun _ => rfl, fun _ => hn⟩
  | found _ _ ih =>
    obtain ⟨k, h1, _⟩ := ih
    refine ⟨k + 1, ?_, by omega, by omega⟩
    rw [Nat.add_mul, Nat.one_mul]; simp; omega

/-- C71: the string is unchanged iff `t` is empty or does not occur in it. -/
theorem C71_unchanged_iff (s t : Bytes) : removeString s t = s ↔ t = [] ∨ ∀ a b, s ≠ a ++ t ++ b := by
  constructor
  · intro h
    by_cases ht : t = []
    · exact Or.inl ht
    · right
      have hr := (C71_removeString s t).1 ht
      obtain ⟨k, h1, _, h3⟩ := removed_length hr
      rw [h] at h1
      have : 0 < t.length := List.length_pos_iff.mpr ht
      have hk : k = 0 := by
        rcases Nat.eq_zero_or_pos k with h' | h'
        · exact h'
        · have := Nat.mul_pos h' this; omega
      exact h3 hk
  · rintro (ht | hn)
    · exact (C71_removeString s t).2 ht
    · by_cases ht : t = []
      · exact (C71_removeString s t).2 ht
      · have hr := (C71_removeString s t).1 ht
        generalize hg : removeString s t = o at hr
        cases hr with
        | none => rfl
        | found _ _ => exact absurd rfl (hn _ _)

example : removeString [97, 98] [98, 97] = [97, 98] := by decide

/-- `Removed` determines its result, so C71 pins the output down completely. -/
theorem removed_unique {t s o1 o2 : Bytes} (h1 : Removed t s o1) (h2 : Removed t s o2) : o1 = o2 := by
  induction h1 generalizing o2 with
  | none hn =>
    cases h2 with
    | none => rfl
    | found _ _ => exact absurd rfl (hn _ _)
  | @found a b out hmin _ ih =>
    generalize hs : a ++ t ++ b = s' at h2
    cases h2 with
    | none hn => exact absurd hs.symm (hn _ _)
    | @found a' b' out' hmin' hr' =>
      have h1 := hmin a' b' hs
      have h2 := hmin' a b hs.symm
      have hl : a.length = a'.length := Nat.le_antisymm h1 h2
      rw [List.append_assoc, List.append_assoc] at hs
      obtain ⟨e1, e2⟩ := List.append_inj hs hl
      have e3 : b = b' := List.append_cancel_left e2
      subst e1; subst e3
      rw [ih hr']

/-- C71: the result may still contain `t` (the deletions are not repeated): removing "ab" from "aabb" gives "ab". -/
theorem C71_not_repeated : removeString [97, 97, 98, 98] [97, 98] = [97, 98] := by decide

example : removeString [97, 98, 120, 97, 98] [97, 98] = [120] := by decide

/-- C71 (search): `strings.Index`-based `Contains` is true iff `t` occurs in non-empty `s`. -/
theorem C71_contains (s t : Bytes) : contains s t = true ↔ s ≠ [] ∧ ∃ a b, s = a ++ t ++ b := by
  unfold contains stringsContains
  by_cases hs : s = []
  · simp [hs]
  · rw [if_neg hs]
    cases h : index t s with
    | none =>
      have := index_none h
      simp only [Option.isSome_none, Bool.false_eq_true, false_iff]
      rintro ⟨_, a, b, e⟩
      exact this a b e
    | some i =>
      obtain ⟨⟨r, hr⟩, _⟩ := index_some h
      simp only [Option.isSome_some, true_iff]
      exact ⟨hs, _, _, hr⟩

/-- C71 (search): `ContainsAnySubstrings` is true iff one of the substrings occurs. -/
theorem C71_containsAny (s : Bytes) (ts : List Bytes) :
    containsAnySubstrings s ts = true ↔ ∃ t ∈ ts, ∃ a b, s = a ++ t ++ b := by
  have hc : ∀ t, stringsContains s t = true ↔ ∃ a b, s = a ++ t ++ b := by
    intro t
    unfold stringsContains
    cases h : index t s with
    | none =>
      have := index_none h
      simp only [Option.isSome_none, Bool.false_eq_true, false_iff]
      rintro ⟨a, b, e⟩
      exact this a b e
    | some i =>
      obtain ⟨⟨r, hr⟩, _⟩ := index_some h
      simp only [Option.isSome_some, true_iff]
      exact ⟨_, _, hr⟩
  induction ts with
  | nil => simp [containsAnySubstrings]
  | cons t ts ih =>
    unfold containsAnySubstrings
    by_cases h : stringsContains s t = true
    · rw [if_pos h]
      simp only [true_iff]
      exact ⟨t, by simp, (hc t).mp h⟩
    · rw [if_neg h]
      refine ih.trans ?_
      constructor
      · rintro ⟨t', h1, h2⟩; exact ⟨t', by simp [h1], h2⟩
      · rintro ⟨t', h1, h2⟩
        rcases List.mem_cons.mp h1 with rfl | h1
        · exact absurd ((hc t').mpr h2) h
        · exact ⟨t', h1, h2⟩

example : containsAnySubstrings [97, 98, 99] [[120], [98, 99]] = true ∧ containsAnySubstrings [97, 98, 99] [[120]] = false := by decide

/-! ## C70 -/

theorem matches_star_cls {p : Int → Bool} {l : List Int} :
    (Re.star (.cls p)).Matches l ↔ ∀ c ∈ l, p c = true := by
  constructor
  · intro h
    generalize hr : Re.star (.cls p) = r at h
    induction h with
    | cls => simp at hr
    | starNil => simp
    | starCons h1 h2 _ ih2 =>
      cases hr
      have ih2 := ih2 rfl
      cases h1 with
      | cls hp => intro c hc; rcases List.mem_cons.mp hc with rfl | hc; exacts [hp, ih2 c hc]
    | optNone => simp at hr
    | optSome => simp at hr
    | seq => simp at hr
  · intro h
    induction l with
    | nil => exact .starNil
    | cons c l ih =>
      exact Re.Matches.starCons (a := [c]) (.cls (h c (by simp))) (ih (fun x hx => h x (by simp [hx])))

/-- C70: exactly which strings `IsNumerical` accepts: digits, then at most one character other than newline (any
character, the dot of the expression is not escaped), then digits. -/
theorem C70_language (s : Bytes) : IsNumerical s ↔
    ∃ d1 d2 x : List Int, d1 ≠ [] ∧ (∀ c ∈ d1, 48 ≤ c ∧ c ≤ 57) ∧ (∀ c ∈ d2, 48 ≤ c ∧ c ≤ 57) ∧
      (x = [] ∨ ∃ c, c ≠ 10 ∧ x = [c]) ∧ runes s = d1 ++ x ++ d2 := by
  unfold IsNumerical numericalRe
  generalize runes s = l
  constructor
  · intro h
    cases h with
    | @seq _ _ a b h1 h2 =>
      cases h1 with
      | @seq _ _ a1 a2 h3 h4 =>
        cases h3 with
        | @cls _ c hc =>
          rw [matches_star_cls] at h4
          cases h2 with
          | @seq _ _ b1 b2 h5 h6 =>
            rw [matches_star_cls] at h6
            refine ⟨[c] ++ a2, b2, b1, by simp, ?_, ?_, ?_, by simp⟩
            · intro x hx
              rcases List.mem_cons.mp hx with rfl | hx
              · simpa [reDigit] using hc
              · simpa [reDigit] using h4 x hx
            · intro x hx; simpa [reDigit] using h6 x hx
            · cases h5 with
              | optNone => exact Or.inl rfl
              | optSome h7 =>
                cases h7 with
                | @cls _ c' hc' => right; exact ⟨c', by simpa [reDot] using hc', rfl⟩
  · rintro ⟨d1, d2, x, hne, h1, h2, hx, rfl⟩
    cases d1 with
    | nil => exact absurd rfl hne
    | cons c d1 =>
      rw [List.append_assoc]
      refine Re.Matches.seq (a := c :: d1) (b := x ++ d2) ?_ ?_
      · exact Re.Matches.seq (a := [c]) (b := d1) (.cls (by simpa [reDigit] using h1 c (by simp)))
          (matches_star_cls.mpr (fun y hy => by simpa [reDigit] using h1 y (by simp [hy])))
      · refine Re.Matches.seq (a := x) (b := d2) ?_ ?_
        · rcases hx with rfl | ⟨c', hc', rfl⟩
          · exact .optNone
          · exact .optSome (.cls (by simpa [reDot] using hc'))
        · exact matches_star_cls.mpr (fun y hy => by simpa [reDigit] using h2 y hy)

/-- "1x2" is accepted, with d1 = "1", x = "x", d2 = "2". -/
example : IsNumerical [49, 120, 50] := (C70_language _).2 ⟨[49], [50], [120], by decide, by decide, by decide, .inr ⟨120, by decide, rfl⟩, rfl⟩

/-- C70 as stated is false: "1x5" is accepted. -/
theorem C70_isNumerical_refuted : IsNumerical [49, 120, 53] ∧ ¬ IsNumeral (runes [49, 120, 53]) := by
  constructor
  · rw [C70_language]
    exact ⟨[49], [53], [120], by simp, by decide, by decide, Or.inr ⟨120, by decide, rfl⟩, by decide⟩
  · rintro ⟨d1, d2, _, h1, h2, h3⟩
    have e : runes [49, 120, 53] = [49, 120, 53] := by decide
    rw [e] at h3
    rcases h3 with h3 | h3
    · have := h1 120 (by rw [← h3]; simp); omega
    · have : (120 : Int) ∈ d1 ++ [46] ++ d2 := by rw [← h3]; simp
      simp only [List.mem_append, List.mem_singleton] at this
      rcases this with (h | h) | h
      · have := h1 _ h; omega
      · omega
      · have := h2 _ h; omega

/-- C70, what holds: every numeral is accepted, and among strings made of digits and dots only numerals are. -/
theorem C70_isNumerical_partial (s : Bytes) :
    (IsNumeral (runes s) → IsNumerical s) ∧
    ((∀ c ∈ runes s, (48 ≤ c ∧ c ≤ 57) ∨ c = 46) → IsNumerical s → IsNumeral (runes s)) := by
  constructor
  · rintro ⟨d1, d2, hne, h1, h2, h3⟩
    rw [C70_language]
    rcases h3 with h3 | h3
    · exact ⟨d1, [], [], hne, h1, by simp, Or.inl rfl, by simp [h3]⟩
    · exact ⟨d1, d2, [46], hne, h1, h2, Or.inr ⟨46, by decide, rfl⟩, h3⟩
  · intro hc h
    rw [C70_language] at h
    obtain ⟨d1, d2, x, hne, h1, h2, hx, e⟩ := h
    rcases hx with rfl | ⟨c, _, rfl⟩
    · refine ⟨d1 ++ d2, [], by simp [hne], ?_, by simp, Or.inl (by simpa using e)⟩
      intro y hy
      rcases List.mem_append.mp hy with h | h
      exacts [h1 y h, h2 y h]
    · rcases hc c (by rw [e]; simp) with h | h
      · refine ⟨d1 ++ [c] ++ d2, [], by simp, ?_, by simp, Or.inl e⟩
        intro y hy
        simp only [List.mem_append, List.mem_singleton] at hy
        rcases hy with (hy | rfl) | hy
        exacts [h1 y hy, h, h2 y hy]
      · subst h; exact ⟨d1, d2, hne, h1, h2, Or.inr e⟩

example : IsNumeral (runes [49, 50, 46, 53]) :=
  ⟨[49, 50], [53], by simp, by decide, by decide, Or.inr (by decide)⟩

/-! ## C73 -/

theorem trimLeftLoop_eq (p : Int → Bool) : ∀ (f : Nat) (s : Bytes), s.length ≤ f →
    runes (trimLeftLoop p f s) = (runes s).dropWhile p ∧ (ValidUtf8 s → ValidUtf8 (trimLeftLoop p f s)) ∧
      trimLeftLoop p f s <:+ s := by
  intro f
  induction f with
  | zero =>
    intro s hs
    have : s = [] := List.eq_nil_of_length_eq_zero (by omega)
    subst this; simp [trimLeftLoop, runes_nil]
  | succ f ih =>
    intro s hs
    unfold trimLeftLoop
    by_cases h : s = []
    · subst h; simp [runes_nil]
    · simp only [h, if_false]
      have hw := decodeRune_width s h
      obtain ⟨h1, h2, h3⟩ := ih (s.drop (decodeRune s).2) (by simp; omega)
      rw [runes_cons h]
      by_cases hp : p (decodeRune s).1
      · simp only [hp, if_true]
        refine ⟨by rw [h1, List.dropWhile_cons_of_pos hp], ?_, h3.trans (List.drop_suffix _ _)⟩
        intro hv
        apply h2
        obtain ⟨rs, hrs, rfl⟩ := hv
        cases rs with
        | nil => simp [encodeAll] at h
        | cons r rs =>
          rw [encodeAll_cons, decodeRune_encodeRune (hrs r (by simp))]
          simp only [List.drop_left]
          exact ⟨rs, fun x hx => hrs x (by simp [hx]), rfl⟩
      · simp only [hp, Bool.false_eq_true, if_false]
        refine ⟨?_, fun h => h, List.suffix_refl _⟩
        rw [List.dropWhile_cons_of_neg (by simp [hp]), runes_cons h]

theorem trimRightLoop_eq (p : Int → Bool) : ∀ (f : Nat) (rs : List Int), (encodeAll rs).length ≤ f →
    (∀ r ∈ rs, IsScalar r) →
    trimRightLoop p f (encodeAll rs) = encodeAll (rs.reverse.dropWhile p).reverse := by
  intro f
  induction f with
  | zero =>
    intro rs h _
    have := encodeAll_length_ge rs
    have : rs = [] := List.eq_nil_of_length_eq_zero (by omega)
    subst this; simp [trimRightLoop]
  | succ f ih =>
    intro rs h hrs
    unfold trimRightLoop
    by_cases hne : rs = []
    · subst hne; simp [encodeAll]
    · obtain ⟨rs', x, rfl⟩ : ∃ rs' x, rs = rs' ++ [x] :=
        ⟨rs.dropLast, rs.getLast hne, (List.dropLast_concat_getLast hne).symm⟩
      have hx : IsScalar x := hrs x (by simp)
      have h1 : encodeAll [x] = encodeRune x := by simp [encodeAll]
      have hl := (encodeRune_length x).1
      rw [encodeAll_append, h1] at h ⊢
      have hn : encodeAll rs' ++ encodeRune x ≠ [] := by simp [encodeRune_ne_nil]
      simp only [hn, if_false, decodeLastRune_append hx]
      rw [List.reverse_append]
      by_cases hp : p x
      · simp only [hp, if_true]
        have : (encodeAll rs' ++ encodeRune x).take ((encodeAll rs' ++ encodeRune x).length - (encodeRune x).length)
            = encodeAll rs' := by
          rw [List.length_append, Nat.add_sub_cancel, List.take_left]
        rw [this, ih rs' (by simp at h; omega) (fun y hy => hrs y (by simp [hy]))]
        simp [hp]
      · simp [hp, encodeAll_append, h1]

theorem dropWhile_split (p : Int → Bool) (l : List Int) :
    ∃ pre, l = pre ++ l.dropWhile p ∧ (∀ c ∈ pre, p c = true) ∧ ∀ c, (l.dropWhile p).head? = some c → p c = false := by
  refine ⟨l.takeWhile p, (List.takeWhile_append_dropWhile).symm, ?_, ?_⟩
  · intro c hc
    induction l with
    | nil => simp at hc
    | cons x l ih =>
      by_cases hx : p x
      · rw [List.takeWhile_cons_of_pos hx] at hc
        rcases List.mem_cons.mp hc with rfl | hc
        exacts [hx, ih hc]
      · rw [List.takeWhile_cons_of_neg hx] at hc; simp at hc
  · intro c hc
    induction l with
    | nil => simp at hc
    | cons x l ih =>
      by_cases hx : p x
      · rw [List.dropWhile_cons_of_pos hx] at hc; exact ih hc
      · rw [List.dropWhile_cons_of_neg hx] at hc; simp at hc; rw [← hc]; simpa using hx

theorem trimLeftP_valid (p : Int → Bool) {s : Bytes} (hs : ValidUtf8 s) :
    ValidUtf8 (trimLeftP p s) ∧ runes (trimLeftP p s) = (runes s).dropWhile p := by
  obtain ⟨h1, h2, _⟩ := trimLeftLoop_eq p s.length s (Nat.le_refl _)
  exact ⟨h2 hs, h1⟩

theorem trimRightP_valid (p : Int → Bool) {s : Bytes} (hs : ValidUtf8 s) :
    ValidUtf8 (trimRightP p s) ∧ runes (trimRightP p s) = ((runes s).reverse.dropWhile p).reverse := by
  obtain ⟨rs, hrs, rfl⟩ := hs
  unfold trimRightP
  rw [trimRightLoop_eq p _ rs (Nat.le_refl _) hrs, runes_encodeAll hrs]
  have hsub : ∀ r ∈ (rs.reverse.dropWhile p).reverse, IsScalar r := by
    intro r hr
    exact hrs r (List.mem_reverse.mp ((List.dropWhile_sublist p).mem (List.mem_reverse.mp hr)))
  exact ⟨validUtf8_encodeAll _, runes_encodeAll hsub⟩

theorem trimmed_both (p : Int → Bool) (l : List Int) :
    Trimmed p true true l (((l.reverse.dropWhile p).reverse).dropWhile p) := by
  obtain ⟨post, e1, h1, h2⟩ := dropWhile_split p l.reverse
  generalize hm : (l.reverse.dropWhile p) = m at *
  obtain ⟨pre, e2, h3, h4⟩ := dropWhile_split p m.reverse
  refine ⟨pre, post.reverse, ?_, h3, by intro c hc; exact h1 c (by simpa using hc), by simp, by simp, fun _ => h4, ?_⟩
  · have : l = (post ++ m).reverse := by rw [← e1, List.reverse_reverse]
    rw [this, List.reverse_append, e2]; simp [← e2]
  · intro _ c hc
    apply h2
    have hne : (m.reverse.dropWhile p) ≠ [] := by intro h; rw [h] at hc; simp at hc
    have : m.reverse.getLast? = some c := by
      rw [e2, List.getLast?_append]; simp [hc]
    rw [List.getLast?_reverse] at this
    exact this

theorem trimmed_both' (p : Int → Bool) (l : List Int) :
    Trimmed p true true l (((l.dropWhile p).reverse.dropWhile p).reverse) := by
  obtain ⟨pre, e1, h1, h2⟩ := dropWhile_split p l
  generalize hm : l.dropWhile p = m at *
  obtain ⟨post, e2, h3, h4⟩ := dropWhile_split p m.reverse
  have em : m = (m.reverse.dropWhile p).reverse ++ post.reverse := by
    have := congrArg List.reverse e2
    simpa using this
  refine ⟨pre, post.reverse, ?_, h1, by intro c hc; exact h3 c (by simpa using hc), by simp, by simp, ?_, ?_⟩
  · rw [List.append_assoc, ← em]; exact e1
  · intro _ c hc
    apply h2
    rw [em, List.head?_append, hc]; rfl
  · intro _ c hc
    apply h4
    rwa [List.getLast?_reverse] at hc

/-- C73: on valid text `Trim`, `TrimLeft`, `TrimRight` and `TrimSpace` strip exactly the cutset characters from the
stated ends and leave none there; the result is valid text. -/
theorem C73_trim (u : Unicode) (s cutset : Bytes) (hs : ValidUtf8 s) :
    (ValidUtf8 (trim s cutset) ∧ Trimmed (inSet cutset) true true (runes s) (runes (trim s cutset))) ∧
    (ValidUtf8 (trimLeft s cutset) ∧ Trimmed (inSet cutset) true false (runes s) (runes (trimLeft s cutset))) ∧
    (ValidUtf8 (trimRight s cutset) ∧ Trimmed (inSet cutset) false true (runes s) (runes (trimRight s cutset))) ∧
    (ValidUtf8 (trimSpace u s) ∧ Trimmed u.isSpace true true (runes s) (runes (trimSpace u s))) := by
  refine ⟨?_, ?_, ?_, ?_⟩
  · unfold trim
    by_cases h : s = []
    · subst h
      simp only [isEmpty, decide_true, if_true]
      exact ⟨hs, [], [], by simp [runes_nil]⟩
    · simp only [isEmpty, h, decide_false, Bool.false_eq_true, if_false]
      obtain ⟨v1, e1⟩ := trimRightP_valid (inSet cutset) hs
      obtain ⟨v2, e2⟩ := trimLeftP_valid (inSet cutset) v1
      refine ⟨v2, ?_⟩
      rw [e2, e1]; exact trimmed_both _ _
  · obtain ⟨v2, e2⟩ := trimLeftP_valid (inSet cutset) hs
    refine ⟨v2, ?_⟩
    unfold trimLeft; rw [e2]
    obtain ⟨pre, h1, h2, h3⟩ := dropWhile_split (inSet cutset) (runes s)
    exact ⟨pre, [], by simpa using h1, h2, by simp, by simp, by simp, fun _ => h3, by simp⟩
  · obtain ⟨v2, e2⟩ := trimRightP_valid (inSet cutset) hs
    refine ⟨v2, ?_⟩
    unfold trimRight; rw [e2]
    obtain ⟨post, h1, h2, h3⟩ := dropWhile_split (inSet cutset) (runes s).reverse
    refine ⟨[], post.reverse, ?_, by simp, by intro c hc; exact h2 c (by simpa using hc), by simp, by simp, by simp, ?_⟩
    · have := congrArg List.reverse h1
      simpa using this
    · intro _ c hc
      rw [List.getLast?_reverse] at hc
      exact h3 c hc
  · unfold trimSpace
    obtain ⟨v1, e1⟩ := trimLeftP_valid u.isSpace hs
    obtain ⟨v2, e2⟩ := trimRightP_valid u.isSpace v1
    refine ⟨v2, ?_⟩
    rw [e2, e1]; exact trimmed_both' _ _

/-- `inSet` is membership among the characters of the cutset. -/
theorem inSet_iff (cutset : Bytes) (c : Int) : inSet cutset c = true ↔ c ∈ runes cutset := by
  unfold inSet; simp

example : trim [32, 97, 32, 98, 32, 32] [32] = [97, 32, 98] ∧ trimLeft (niHao ++ [97]) niHao = [97] := by decide

end Verif.XString
