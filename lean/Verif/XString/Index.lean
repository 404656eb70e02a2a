import Verif.XString.Lemmas
/-! # C109: Index and IndexAny -/
namespace Verif.XString
open Verif.Go

/-- xstring.go:598-600 `Index`: `strings.Index`, with -1 for "not present". -/
def indexOf (s substr : Bytes) : Int :=
  match index substr s with
  | some i => (i : Int)
  | none => -1

/-- Go's `strings.IndexAny`: `for i, c := range s { if IndexRune(chars, c) >= 0 { return i } }`. `pos` is the byte position of `s` in the whole
string; fuel: at least the number of characters. The special paths of the library for short or ASCII arguments compute the same. -/
def indexAnyLoop (chars : Bytes) : Nat → (pos : Nat) → Bytes → Int
  | 0, _, _ => -1
  | f + 1, pos, s =>
    if s = [] then -1
    else
      let (c, n) := decodeRune s
      if inSet chars c then (pos : Int) else indexAnyLoop chars f (pos + n) (s.drop n)

/-- xstring.go:604-606 `IndexAny` -/
def indexAny (s chars : Bytes) : Int := indexAnyLoop chars s.length 0 s

theorem decodeRune_take {s : Bytes} (hs : s ≠ []) {i : Nat} (hi : (decodeRune s).2 ≤ i) : decodeRune (s.take i) = decodeRune s := by
  have hw := decodeRune_width s hs
  rcases decodeRune_cases s hs with ⟨r, rest, hr, e, hd⟩ | hd
  · rw [hd] at hi
    rw [hd, e, List.take_append, List.take_of_length_le hi, decodeRune_encodeRune hr]
  · have hne : s.take i ≠ [] := by
      intro h
      rcases List.take_eq_nil_iff.1 h with h | h
      · omega
      · exact hs h
    rcases decodeRune_cases (s.take i) hne with ⟨r, rest, hr, e, hd'⟩ | hd'
    · have : decodeRune s = (r, (encodeRune r).length) := by
        rw [← List.take_append_drop i s, e, List.append_assoc, decodeRune_encodeRune hr]
      rw [hd', this]
    · rw [hd', hd]

/-- `i` is a character boundary of `s`. -/
def Boundary (s : Bytes) (i : Nat) : Prop := i ≤ s.length ∧ runes s = runes (s.take i) ++ runes (s.drop i)

theorem indexAnyLoop_eq (chars : Bytes) : ∀ (f : Nat) (s : Bytes) (pos : Nat), s.length ≤ f →
    (indexAnyLoop chars f pos s = -1 ∧ ∀ c ∈ runes s, c ∉ runes chars) ∨
    ∃ i : Nat, indexAnyLoop chars f pos s = (pos + i : Nat) ∧ i < s.length ∧ Boundary s i ∧
      (∀ c ∈ runes (s.take i), c ∉ runes chars) ∧ ∃ c ∈ (runes (s.drop i)).head?, c ∈ runes chars := by
  intro f
  induction f with
  | zero =>
    intro s pos h
    have : s = [] := List.length_eq_zero_iff.1 (by omega)
    subst this
    exact .inl ⟨rfl, by simp [runes_nil]⟩
  | succ f ih =>
    intro s pos h
    by_cases hs : s = []
    · subst hs
      exact .inl ⟨by simp [indexAnyLoop], by simp [runes_nil]⟩
    · have hw := decodeRune_width s hs
      have hpos : 0 < s.length := List.length_pos_iff.2 hs
      unfold indexAnyLoop
      rw [if_neg hs]
      by_cases hc : inSet chars (decodeRune s).1
      · refine .inr ⟨0, by simp [hc], hpos, ⟨Nat.zero_le _, by simp [runes_nil]⟩, by simp [runes_nil], (decodeRune s).1, ?_, ?_⟩
        · simp [runes_cons hs]
        · simpa [inSet] using hc
      · have hc' : (decodeRune s).1 ∉ runes chars := by simpa [inSet] using hc
        simp only [hc, Bool.false_eq_true, if_false]
        rcases ih (s.drop (decodeRune s).2) (pos + (decodeRune s).2) (by simp only [List.length_drop]; omega) with ⟨h1, h2⟩ | ⟨i, h1, h2, h3, h4, h5⟩
        · refine .inl ⟨h1, ?_⟩
          rw [runes_cons hs]
          intro c hm
          rcases List.mem_cons.1 hm with rfl | hm
          · exact hc'
          · exact h2 c hm
        · simp only [List.length_drop] at h2
          have htake : runes (s.take ((decodeRune s).2 + i)) = (decodeRune s).1 :: runes ((s.drop (decodeRune s).2).take i) := by
            rw [runes_cons (s := s.take _) (by simp [hs]; omega), decodeRune_take hs (by omega), List.drop_take, Nat.add_sub_cancel_left]
          have hdrop : (s.drop (decodeRune s).2).drop i = s.drop ((decodeRune s).2 + i) := by rw [List.drop_drop]
          refine .inr ⟨(decodeRune s).2 + i, by rw [h1, Nat.add_assoc], by omega, ⟨by omega, ?_⟩, ?_, by rw [← hdrop]; exact h5⟩
          · rw [htake, ← hdrop, runes_cons hs, h3.2]; rfl
          · rw [htake]
            intro c hm
            rcases List.mem_cons.1 hm with rfl | hm
            · exact hc'
            · exact h4 c hm

/-- C109: Index is -1 if the substring does not occur; otherwise it is the position of the first occurrence. -/
theorem C109_index (s t : Bytes) :
    (indexOf s t = -1 ∧ ∀ a b, s ≠ a ++ t ++ b) ∨
    ∃ a b, s = a ++ t ++ b ∧ indexOf s t = a.length ∧ ∀ a' b', s = a' ++ t ++ b' → a.length ≤ a'.length := by
  unfold indexOf
  cases h : index t s with
  | none => exact .inl ⟨rfl, index_none h⟩
  | some j =>
    obtain ⟨⟨r, hr⟩, hle, hmin⟩ := index_some h
    have hl : (s.take j).length = j := by rw [List.length_take]; omega
    exact .inr ⟨s.take j, r, hr, by rw [hl], by rw [hl]; exact hmin⟩

example : indexOf [97, 98, 97, 98] [98] = 1 ∧ indexOf [97] [98] = -1 ∧ indexOf [] [] = 0 := by decide

/-- C109: IndexAny is -1 if no character of s occurs in chars; otherwise it is the position of a character of s that does, and no
character of s before it does. For every byte string: an invalid byte is the character U+FFFD. -/
theorem C109_index_any (s chars : Bytes) :
    (indexAny s chars = -1 ∧ ∀ c ∈ runes s, c ∉ runes chars) ∨
    ∃ i : Nat, indexAny s chars = i ∧ Boundary s i ∧ (∀ c ∈ runes (s.take i), c ∉ runes chars) ∧
      ∃ c ∈ (runes (s.drop i)).head?, c ∈ runes chars := by
  unfold indexAny
  rcases indexAnyLoop_eq chars s.length s 0 (Nat.le_refl _) with h | ⟨i, h1, h2, h3, h4, h5⟩
  · exact .inl h
  · exact .inr ⟨i, by rw [h1, Nat.zero_add], h3, h4, h5⟩

/- "añb" and "xñ": the position of ñ is 1; nothing is found in "ab"; an invalid byte is found by another one. -/
example : indexAny [97, 0xC3, 0xB1, 98] [120, 0xC3, 0xB1] = 1 ∧ indexAny [97, 98] [120, 0xC3, 0xB1] = -1 ∧ indexAny [97, 0xFF] [0xFE] = 1 := by
  decide +kernel

end Verif.XString
