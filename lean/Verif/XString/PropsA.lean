import Verif.XString.Lemmas
/-! # Property theorems for xstring: selection, padding, removal, rotation (C55, C56, C58, C59, C68, C69, C72) -/
namespace Verif.XString
open Verif.Go Verif.XMath

/-- An ASCII-only instance of the Unicode tables, used in examples and counterexamples. -/
def asciiU : Unicode where
  isLetter c := decide ((65 ≤ c ∧ c ≤ 90) ∨ (97 ≤ c ∧ c ≤ 122))
  isDigit c := decide (48 ≤ c ∧ c ≤ 57)
  isSpace c := decide (c = 32 ∨ (9 ≤ c ∧ c ≤ 13))
  lower c := if 65 ≤ c ∧ c ≤ 90 then c + 32 else c
  upper c := if 97 ≤ c ∧ c ≤ 122 then c - 32 else c
  lower_scalar := by intro r h; unfold IsScalar at *; split <;> omega

/-- "é" and "你好" as bytes. -/
def eAcute : Bytes := [0xC3, 0xA9]
/-- For the concrete cases beside the theorems. -/
def niHao : Bytes := [0xE4, 0xBD, 0xA0, 0xE5, 0xA5, 0xBD]

/-! ## C55 -/

/-- C55: for every byte string and all ints, `Sub` does not panic and its characters are those of `s` at the positions
`lo ≤ i < hi`, where negative indices count from the end and out-of-range ones are clamped. -/
theorem C55_sub (s : Bytes) (start stop : Int) : ∃ out, Sub s start stop = some out ∧
    runes out = ((runes s).take (hiPos (runes s).length stop)).drop (loPos (runes s).length start) := by
  obtain ⟨out, h1, h2, _⟩ := sub_spec s start stop
  exact ⟨out, h1, h2⟩

example : Sub niHao (-1) 100 = some [0xE5, 0xA5, 0xBD] := by decide

/-- C55, character by character: the k-th character of the result is the (lo+k)-th of `s`. -/
theorem C55_sub_get (s : Bytes) (start stop : Int) (k : Nat) : ∃ out, Sub s start stop = some out ∧
    (runes out)[k]? = if loPos (runes s).length start + k < hiPos (runes s).length stop
      then (runes s)[loPos (runes s).length start + k]? else none := by
  obtain ⟨out, h1, h2⟩ := C55_sub s start stop
  refine ⟨out, h1, ?_⟩
  rw [h2, List.getElem?_drop, List.getElem?_take]

example : loPos 4 (-3) = 1 ∧ hiPos 4 (-1) = 3 ∧ Sub [97, 98, 99, 100] (-3) (-1) = some [98, 99] := by decide

/-- C55: `Left(s, n)` is the first `n` characters, `Right(s, -n)` the last `n` (for `0 ≤ n`, resp. `1 ≤ n`). -/
theorem C55_left_right (s : Bytes) (n : Nat) (hl : (runes s).length < 2 ^ 63) :
    (∃ out, left s n = some out ∧ runes out = (runes s).take n) ∧
    (∃ out, right s n = some out ∧ runes out = (runes s).drop n) ∧
    (1 ≤ n → ∃ out, right s (-(n : Int)) = some out ∧ runes out = (runes s).drop ((runes s).length - n)) ∧
    (1 ≤ n → ∃ out, left s (-(n : Int)) = some out ∧ runes out = (runes s).take ((runes s).length - n)) := by
  refine ⟨?_, ?_, ?_, ?_⟩
  · obtain ⟨out, h1, h2, _⟩ := sub_spec s 0 n
    refine ⟨out, h1, ?_⟩
    rw [h2]
    have : hiPos (len s) (n : Int) = min (runes s).length n := by
      unfold hiPos len; rw [if_neg (by omega)]; simp
    have h0 : loPos (len s) 0 = 0 := by simp [loPos]
    rw [this, h0, List.drop_zero, List.take_eq_take_iff]; omega
  · obtain ⟨out, h1, h2, _⟩ := sub_spec s n (2 ^ 63 - 1)
    refine ⟨out, h1, ?_⟩
    rw [h2]
    have : hiPos (len s) (2 ^ 63 - 1) = (runes s).length := by
      unfold hiPos len; rw [if_neg (by omega)]; omega
    have h0 : loPos (len s) n = n := by unfold loPos; rw [if_neg (by omega)]; simp
    rw [this, h0, List.take_length]
  · intro hn
    obtain ⟨out, h1, h2, _⟩ := sub_spec s (-(n : Int)) (2 ^ 63 - 1)
    refine ⟨out, h1, ?_⟩
    rw [h2]
    have : hiPos (len s) (2 ^ 63 - 1) = (runes s).length := by
      unfold hiPos len; rw [if_neg (by omega)]; omega
    have h0 : loPos (len s) (-(n : Int)) = (runes s).length - n := by
      unfold loPos len; rw [if_pos (by omega)]; omega
    rw [this, h0, List.take_length]
  · intro hn
    obtain ⟨out, h1, h2, _⟩ := sub_spec s 0 (-(n : Int))
    refine ⟨out, h1, ?_⟩
    rw [h2]
    have : hiPos (len s) (-(n : Int)) = (runes s).length - n := by
      unfold hiPos len; rw [if_pos (by omega)]; omega
    have h0 : loPos (len s) 0 = 0 := by simp [loPos]
    rw [this, h0, List.drop_zero]

example : left [97, 98, 99] 2 = some [97, 98] ∧ right [97, 98, 99] 2 = some [99] ∧ right [97, 98, 99] (-2) = some [98, 99] := by decide

/-- C55: on valid text the result is valid text. -/
theorem C55_sub_valid (s : Bytes) (hs : ValidUtf8 s) (start stop : Int) :
    ∃ out, Sub s start stop = some out ∧ ValidUtf8 out := by
  obtain ⟨out, h1, _, h3⟩ := sub_spec s start stop
  refine ⟨out, h1, ?_⟩
  rcases h3 with h3 | h3
  · rw [h3]; exact hs
  · exact h3.1

example : Sub niHao (-1) 100 = some [0xE5, 0xA5, 0xBD] := by decide
example : Sub [97, 98, 99, 100] 1 (-1) = some [98, 99] := by decide

/-! ## C56 -/

/-- C56: left padding: the result is `s` unchanged if wide enough, otherwise exactly `size` characters, pad characters
first. (`norm ch` is `ch`, or U+FFFD when `ch` is not a valid code point.) -/
theorem C56_padLeft (s : Bytes) (size ch : Int) :
    runes (padLeftChar s size ch) = List.replicate (size - (runes s).length).toNat (norm ch) ++ runes s ∧
    (size ≤ (runes s).length → padLeftChar s size ch = s) := by
  unfold padLeftChar padCharLeftOrRight
  have hl : len s = (runes s).length := rfl
  simp only [hl, if_true]
  constructor
  · split
    · rw [show (size - (runes s).length).toNat = 0 by omega]; simp
    · split
      · rw [show (size - (runes s).length).toNat = 0 by omega]; simp
      · exact runes_padRawLeft _ _ _
  · intro h
    split
    · rfl
    · rw [if_pos (by omega)]

theorem C56_padRight (s : Bytes) (size ch : Int) :
    runes (padRightChar s size ch) = runes s ++ List.replicate (size - (runes s).length).toNat (norm ch) ∧
    (size ≤ (runes s).length → padRightChar s size ch = s) := by
  unfold padRightChar padCharLeftOrRight
  have hl : len s = (runes s).length := rfl
  simp only [hl]
  constructor
  · split
    · rw [show (size - (runes s).length).toNat = 0 by omega]; simp
    · split
      · rw [show (size - (runes s).length).toNat = 0 by omega]; simp
      · simp only [Bool.false_eq_true, if_false]; exact runes_padRawRight _ _ _
  · intro h
    split
    · rfl
    · rw [if_pos (by omega)]

example : padRightChar niHao 4 42 = niHao ++ [42, 42] := by decide

/-- C56: centre padding puts ⌊missing/2⌋ pad characters on the left and the rest on the right. -/
theorem C56_padCenter (s : Bytes) (size ch : Int) :
    (∃ l r : Nat, runes (padCenterChar s size ch) =
        List.replicate l (norm ch) ++ runes s ++ List.replicate r (norm ch) ∧
      l + r = (size - (runes s).length).toNat ∧ l = (size - (runes s).length).toNat / 2) ∧
    (size ≤ (runes s).length → padCenterChar s size ch = s) := by
  unfold padCenterChar
  have hl : len s = (runes s).length := rfl
  simp only [hl]
  constructor
  · split
    · exact ⟨0, 0, by simp, by omega, by omega⟩
    · split
      · exact ⟨0, 0, by simp, by omega, by omega⟩
      · rename_i h1 h2
        generalize (runes s).length = n at *
        have hd : Int.tdiv (size - n) 2 = (((size - n).toNat / 2 : Nat) : Int) := by
          rw [Int.tdiv_eq_ediv_of_nonneg (by omega)]; omega
        rw [hd]
        generalize hL : (size - (n : Int)).toNat / 2 = L
        refine ⟨L, (size - L - n).toNat, ?_, by omega, rfl⟩
        have hs1 : runes (if ((L : Nat) : Int) > 0 then padRawLeftChar s ch L else s)
            = List.replicate L (norm ch) ++ runes s := by
          split
          · rw [runes_padRawLeft]; simp
          · rw [show L = 0 by omega]; simp
        split
        · rw [runes_padRawRight, hs1]
        · rw [hs1, show (size - L - n).toNat = 0 by omega]; simp
  · intro h
    split
    · rfl
    · rw [if_pos (by omega)]

example : padCenterChar niHao 5 42 = [42] ++ niHao ++ [42, 42] := by decide

/-- C56: the width of all three is `max size (Len s)`. -/
theorem C56_width (s : Bytes) (size ch : Int) :
    ((runes (padLeftChar s size ch)).length : Int) = max size (runes s).length ∧
    ((runes (padRightChar s size ch)).length : Int) = max size (runes s).length ∧
    ((runes (padCenterChar s size ch)).length : Int) = max size (runes s).length := by
  refine ⟨?_, ?_, ?_⟩
  · rw [(C56_padLeft s size ch).1]; simp; omega
  · rw [(C56_padRight s size ch).1]; simp; omega
  · obtain ⟨l, r, h1, h2, _⟩ := (C56_padCenter s size ch).1
    rw [h1]; simp; omega

example : (runes (padLeftChar niHao 5 42)).length = 5 ∧ (runes (padLeftChar niHao 1 42)).length = 2 := by decide

/-- C56 for the functions that pad with spaces (character 32). -/
theorem C56_space (s : Bytes) (size : Int) :
    runes (padLeftSpace s size) = List.replicate (size - (runes s).length).toNat 32 ++ runes s ∧
    runes (padRightSpace s size) = runes s ++ List.replicate (size - (runes s).length).toNat 32 ∧
    (∃ l r : Nat, runes (padCenterSpace s size) = List.replicate l 32 ++ runes s ++ List.replicate r 32 ∧
      l + r = (size - (runes s).length).toNat ∧ l = (size - (runes s).length).toNat / 2) ∧
    (size ≤ (runes s).length → padLeftSpace s size = s ∧ padRightSpace s size = s ∧ padCenterSpace s size = s) := by
  have hn : norm 32 = 32 := by decide
  have h1 := C56_padLeft s size 32
  have h2 := C56_padRight s size 32
  have h3 := C56_padCenter s size 32
  rw [hn] at h1 h2 h3
  exact ⟨h1.1, h2.1, h3.1, fun h => ⟨h1.2 h, h2.2 h, h3.2 h⟩⟩

example : padCenterChar niHao 5 42 = [42] ++ niHao ++ [42, 42] := by decide

/-! ## C58 -/

/-- What `Rotate` does in every case: with `m = shift tmod (number of bytes)`, the last `min m n` characters move to the
front (`m ≥ 0`), or the first `min (-m) n` characters move to the end (`m < 0`). -/
theorem rotate_char (s : Bytes) (shift : Int) (hl : (runes s).length < 2 ^ 63) : ∃ out, rotate s shift = some out ∧
    runes out =
      (let m := Int.tmod shift s.length
       let k := if 0 ≤ m then (runes s).length - m.toNat else min (-m).toNat (runes s).length
       (runes s).drop k ++ (runes s).take k) := by
  unfold rotate
  by_cases h0 : shift = 0
  · subst h0; simp
  · rw [if_neg h0]
    by_cases hs : (s.length : Int) = 0
    · rw [if_pos hs]
      have : s = [] := List.eq_nil_of_length_eq_zero (by omega)
      subst this; exact ⟨[], rfl, by simp [runes_nil]⟩
    · simp only [hs, if_false]
      generalize hm : Int.tmod shift s.length = m
      by_cases hm0 : m = 0
      · rw [if_pos hm0]; subst hm0; exact ⟨s, rfl, by simp⟩
      · rw [if_neg hm0]
        obtain ⟨r, r1, r2, r3⟩ := sub_spec s (-m) (2 ^ 63 - 1)
        obtain ⟨l, l1, l2, l3⟩ := sub_spec s 0 (-m)
        have hh : hiPos (len s) (2 ^ 63 - 1) = (runes s).length := by
          unfold hiPos len; rw [if_neg (by omega)]; omega
        rw [hh, List.take_length] at r2 r3
        have h0' : loPos (len s) 0 = 0 := by simp [loPos]
        rw [h0', List.drop_zero] at l2 l3
        refine ⟨r ++ l, by simp only [right, left, r1, l1]; rfl, ?_⟩
        have hcat : runes (r ++ l) = runes r ++ runes l := by
          rcases l3 with l3 | l3
          · -- left part is the whole string: right part is empty
            rcases r3 with r3 | r3
            · -- both whole: then s has no characters
              have e1 := congrArg List.length r2
              have e2 := congrArg List.length l2
              rw [r3] at e1
              rw [l3] at e2
              simp only [List.length_drop, List.length_take] at e1 e2
              have : (runes s).length = 0 := by
                unfold loPos hiPos len at *
                split at e1 <;> split at e2 <;> omega
              have : s = [] := runes_eq_nil.mp (List.eq_nil_of_length_eq_zero this)
              subst this; simp at hs
            · exact runes_append_valid r3.1 _
          · rw [l3.2]; exact runes_append_clean _ (startsClean_encodeAll _)
        rw [hcat, r2, l2]
        unfold loPos hiPos len
        by_cases hmp : 0 ≤ m
        · rw [if_pos (by omega), if_pos (by omega), if_pos hmp]
          have : (-m + ((runes s).length : Int)).toNat = (runes s).length - m.toNat := by omega
          rw [this]
        · rw [if_neg (by omega), if_neg (by omega), if_neg hmp, Nat.min_comm]
          congr 1
          rw [List.drop_eq_drop_iff]; omega

/-- C58: whatever the string and the shift, `Rotate` does not panic and its result is a circular rotation of the
characters: none is lost, added or reordered otherwise. -/
theorem C58_is_rotation (s : Bytes) (shift : Int) (hl : (runes s).length < 2 ^ 63) :
    ∃ out k, rotate s shift = some out ∧ k ≤ (runes s).length ∧
      runes out = (runes s).drop k ++ (runes s).take k := by
  obtain ⟨out, h1, h2⟩ := rotate_char s shift hl
  simp only at h2
  exact ⟨out, _, h1, by split <;> omega, h2⟩

example : rotate niHao (-1) = some [0xE5, 0xA5, 0xBD, 0xE4, 0xBD, 0xA0] := by decide

/-- C58 as stated is false for multi-byte text: rotating "你好" by 3 should move 3 mod 2 = 1 character, but the code
takes the remainder modulo the number of bytes and returns the string unchanged. -/
theorem C58_rotate_refuted : rotate niHao 3 = some niHao ∧ runes niHao ≠ rotateSpec (runes niHao) 3 := by
  decide

theorem rotate_eq_spec {n : Nat} {rs : List Int} (hn : rs.length = n) (hpos : 0 < n) (shift : Int) (m : Int)
    (hm : m = Int.tmod shift n) :
    (let k := if 0 ≤ m then n - m.toNat else min (-m).toNat n
     rs.drop k ++ rs.take k) = rotateSpec rs shift := by
  unfold rotateSpec
  simp only [hn]
  have h1 : Int.tmod shift n = shift % n ∨ (Int.tmod shift n = shift % n - n ∧ shift < 0) := by
    rw [Int.tmod_eq_emod]
    split
    · left; omega
    · right; rename_i h; simp at h; simp; omega
  have h2 := Int.emod_nonneg shift (b := n) (by omega)
  have h3 := Int.emod_lt_of_pos shift (b := n) (by omega)
  have e : (if 0 ≤ m then n - m.toNat else min (-m).toNat n) = n - (shift % n).toNat ∨
      (shift % n = 0 ∧ ((if 0 ≤ m then n - m.toNat else min (-m).toNat n) = n ∨
        (if 0 ≤ m then n - m.toNat else min (-m).toNat n) = 0)) := by
    split <;> omega
  rcases e with e | ⟨e0, e⟩
  · rw [e]
  · rw [e0]
    have hall : rs.take n = rs := by rw [← hn, List.take_length]
    have hnone : rs.drop n = [] := by rw [← hn, List.drop_length]
    rcases e with e | e <;> rw [e] <;> simp [hall, hnone]

/-- C58, what holds: exact for text in which every character is one byte. -/
theorem C58_rotate_single_byte_partial (s : Bytes) (hb : s.length = (runes s).length) (hl : s.length < 2 ^ 63)
    (shift : Int) : ∃ out, rotate s shift = some out ∧ runes out = rotateSpec (runes s) shift := by
  obtain ⟨out, h1, h2⟩ := rotate_char s shift (by omega)
  refine ⟨out, h1, ?_⟩
  rw [h2]
  by_cases hs : s = []
  · subst hs; simp [runes_nil, rotateSpec]
  · have hpos : 0 < (runes s).length := by
      have : s.length ≠ 0 := fun h => hs (List.eq_nil_of_length_eq_zero h)
      omega
    exact rotate_eq_spec rfl hpos shift _ (by rw [hb])

example : [97, 98, 99, 100].length = (runes [97, 98, 99, 100]).length ∧ rotate [97, 98, 99, 100] 5 = some [100, 97, 98, 99] := by decide

/-- C58, what holds for all text: exact for shifts of at most `Len(s)` characters in either direction. -/
theorem C58_rotate_small_shift_partial (s : Bytes) (hl : (runes s).length < 2 ^ 63) (shift : Int)
    (hsh : shift.natAbs ≤ (runes s).length) :
    ∃ out, rotate s shift = some out ∧ runes out = rotateSpec (runes s) shift := by
  obtain ⟨out, h1, h2⟩ := rotate_char s shift hl
  refine ⟨out, h1, ?_⟩
  rw [h2]
  have hle := runes_length_le s
  by_cases hs : s = []
  · subst hs; simp [runes_nil, rotateSpec]
  · have hpos : 0 < (runes s).length := by
      cases hr : runes s with
      | nil => exact absurd (runes_eq_nil.mp hr) hs
      | cons => simp
    generalize hrs : runes s = rs at *
    generalize hn : rs.length = n at *
    have key : ∀ m : Int, (m = shift ∨ (m = 0 ∧ shift.natAbs = n)) →
        (let k := if 0 ≤ m then n - m.toNat else min (-m).toNat n
         rs.drop k ++ rs.take k) = rotateSpec rs shift := by
      intro m hm
      unfold rotateSpec
      simp only [hn]
      have h3 : shift % n = shift ∨ shift % n = shift + n ∨ (shift % n = 0 ∧ shift.natAbs = n) := by
        by_cases hz : shift.natAbs = n
        · right; right
          refine ⟨?_, hz⟩
          apply Int.emod_eq_zero_of_dvd
          rcases Int.natAbs_eq shift with e | e
          · exact ⟨1, by omega⟩
          · exact ⟨-1, by omega⟩
        · rcases Int.lt_or_le shift 0 with h | h
          · right; left
            rw [← Int.add_emod_right, Int.emod_eq_of_lt (by omega) (by omega)]
          · left; exact Int.emod_eq_of_lt (by omega) (by omega)
      have hall : rs.take n = rs := by rw [← hn, List.take_length]
      have hnone : rs.drop n = [] := by rw [← hn, List.drop_length]
      have h2 := Int.emod_nonneg shift (b := n) (by omega)
      have h3' := Int.emod_lt_of_pos shift (b := n) (by omega)
      have e : (if 0 ≤ m then n - m.toNat else min (-m).toNat n) = n - (shift % n).toNat ∨
          (shift % n = 0 ∧ ((if 0 ≤ m then n - m.toNat else min (-m).toNat n) = n ∨
            (if 0 ≤ m then n - m.toNat else min (-m).toNat n) = 0)) := by
        split <;> omega
      rcases e with e | ⟨e0, e⟩
      · rw [e]
      · rw [e0]
        rcases e with e | e <;> rw [e] <;> simp [hall, hnone]
    apply key
    by_cases hz : shift.natAbs = s.length
    · right
      refine ⟨?_, by omega⟩
      apply Int.tmod_eq_zero_of_dvd
      rcases Int.natAbs_eq shift with e | e
      · exact ⟨1, by omega⟩
      · exact ⟨-1, by omega⟩
    · left
      rcases Int.lt_or_le shift 0 with h | h
      · obtain ⟨x, rfl⟩ : ∃ x : Nat, shift = -(x : Int) := ⟨shift.natAbs, by omega⟩
        rw [Int.neg_tmod, Int.tmod_eq_of_lt (by omega) (by omega)]
      · exact Int.tmod_eq_of_lt h (by omega)

example : rotate [97, 98, 99, 100] 5 = some [100, 97, 98, 99] := by decide

/-- C58, exactly: with `m` the remainder of the shift modulo the number of *bytes*, the text is rotated by `m` characters if it has that many, and
otherwise returned unchanged. -/
theorem C58_exact (s : Bytes) (shift : Int) (hl : (runes s).length < 2 ^ 63) :
    ∃ out, rotate s shift = some out ∧
      runes out = if (Int.tmod shift s.length).natAbs ≤ (runes s).length then rotateSpec (runes s) (Int.tmod shift s.length) else runes s := by
  obtain ⟨out, h1, h2⟩ := rotate_char s shift hl
  refine ⟨out, h1, ?_⟩
  split
  · rename_i hm
    obtain ⟨out', e1, e2⟩ := C58_rotate_small_shift_partial s hl (Int.tmod shift s.length) hm
    obtain ⟨out'', f1, f2⟩ := rotate_char s (Int.tmod shift s.length) hl
    rw [e1] at f1
    cases f1
    rw [Int.tmod_tmod] at f2
    rw [h2, ← f2, e2]
  · rename_i hm
    rw [h2]
    generalize Int.tmod shift s.length = m at hm
    by_cases h0 : 0 ≤ m
    · simp only [if_pos h0, show (runes s).length - m.toNat = 0 by omega]
      simp
    · simp only [if_neg h0, show min (-m).toNat (runes s).length = (runes s).length by omega]
      simp

/-- "你好" has 6 bytes and 2 characters: rotated by 7 it is rotated by 1, rotated by 3 it stays as it is. -/
example : rotate niHao 7 = some [0xE5, 0xA5, 0xBD, 0xE4, 0xBD, 0xA0] ∧ rotate niHao 3 = some niHao ∧
    (Int.tmod 7 niHao.length).natAbs ≤ (runes niHao).length ∧ ¬ (Int.tmod 3 niHao.length).natAbs ≤ (runes niHao).length := by decide

example : rotate niHao (-1) = some [0xE5, 0xA5, 0xBD, 0xE4, 0xBD, 0xA0] := by decide

/-! ## C59 -/

/-- C59: `RemoveChar` keeps exactly the characters different from the given one, in order. -/
theorem C59_removeChar (s : Bytes) (rm : Int) :
    runes (removeChar s rm) = (runes s).filter (fun c => decide (c ≠ rm)) := by
  unfold removeChar
  split
  · rename_i h; subst h; simp [runes_nil]
  · rw [removeCharLoop_eq, runes_encodeAll_filter]

/-- C59: what `DeleteWhitespace` does in every case: the filtered text, except that `s` itself is returned whenever the
number of *bytes* of the filtered text equals the number of *characters* of `s`. -/
theorem C59_deleteWhitespace_cases (u : Unicode) (s : Bytes) :
    deleteWhitespace u s = (let kept := encodeAll ((runes s).filter (fun c => !u.isSpace c))
      if kept.length = (runes s).length then s else kept) := by
  unfold deleteWhitespace
  simp only [deleteSpaceLoop_eq, len]
  by_cases hs : s = []
  · subst hs; simp [runes_nil, encodeAll]
  · rw [if_neg hs]
    split
    · rfl
    · split
      · rename_i h; exact (List.eq_nil_of_length_eq_zero h).symm
      · rfl

example : deleteWhitespace asciiU [32, 97, 9, 98, 32] = [97, 98] := by decide

/-- C59 for `DeleteWhitespace` is false: `DeleteWhitespace("é ")` returns "é " with the space still there. -/
theorem C59_deleteWhitespace_refuted :
    deleteWhitespace asciiU (eAcute ++ [32]) = eAcute ++ [32] ∧ asciiU.isSpace 32 = true := by decide

/-- C59, exactly: `DeleteWhitespace` is wrong iff there is white space in `s` and there are as many white space characters as the kept
characters have bytes beyond their first ones. -/
theorem C59_exact (u : Unicode) (s : Bytes) :
    runes (deleteWhitespace u s) = (runes s).filter (fun c => !u.isSpace c) ↔
      (∀ c ∈ runes s, u.isSpace c = false) ∨
      (runes s).countP u.isSpace ≠ (((runes s).filter (fun c => !u.isSpace c)).map fun c => (encodeRune c).length - 1).sum := by
  have hlen : ∀ rs : List Int, (∀ c ∈ rs, IsScalar c) → (encodeAll rs).length = rs.length + (rs.map fun c => (encodeRune c).length - 1).sum := by
    intro rs
    induction rs with
    | nil => intro _; rfl
    | cons r rs ih =>
      intro h1
      have hr : 1 ≤ (encodeRune r).length := by
        obtain ⟨n, rfl, hn⟩ := scalar_cases (h1 r (by simp))
        rcases hn with hn | hn | hn | hn
        · rw [enc1 hn]; simp
        · rw [enc2 hn.1 hn.2]; simp
        · rw [enc3 hn.1 hn.2.1 (h1 _ (by simp))]; simp
        · rw [enc4 hn.1 (h1 _ (by simp))]; simp
      rw [encodeAll_cons, List.length_append, ih (fun c hc => h1 c (by simp [hc]))]
      simp only [List.length_cons, List.map_cons, List.sum_cons]
      omega
  have hk := hlen ((runes s).filter (fun c => !u.isSpace c)) (fun c hc => runes_scalar s c (List.mem_filter.mp hc).1)
  have hsplit : (runes s).length = (runes s).countP u.isSpace + ((runes s).filter (fun c => !u.isSpace c)).length := by
    rw [← List.countP_eq_length_filter]
    rw [List.length_eq_countP_add_countP u.isSpace]
    congr 1
    exact List.countP_congr fun c _ => by cases u.isSpace c <;> simp
  rw [C59_deleteWhitespace_cases]
  simp only
  split
  · rename_i h
    constructor
    · intro heq
      left
      intro c hc
      rw [heq] at hc
      simpa using (List.mem_filter.mp hc).2
    · rintro (hall | hne)
      · rw [List.filter_eq_self.mpr]
        intro c hc
        simp [hall c hc]
      · omega
  · rename_i h
    exact ⟨fun _ => .inr (by omega), fun _ => runes_encodeAll_filter _ s⟩

example : ¬ runes (deleteWhitespace asciiU (eAcute ++ [32])) = (runes (eAcute ++ [32])).filter (fun c => !asciiU.isSpace c) :=
  fun h => by have := (C59_exact asciiU (eAcute ++ [32])).1 h; revert this; decide

/-- C59, what holds: correct whenever no kept character needs more than one byte (e.g. ASCII text). -/
theorem C59_deleteWhitespace_ascii_partial (u : Unicode) (s : Bytes) (hs : ∀ c ∈ runes s, c < 0x80) :
    runes (deleteWhitespace u s) = (runes s).filter (fun c => !u.isSpace c) := by
  rw [C59_deleteWhitespace_cases]
  simp only
  split
  · rename_i h
    have hlen : ∀ rs : List Int, (∀ c ∈ rs, IsScalar c) → (∀ c ∈ rs, c < 0x80) → (encodeAll rs).length = rs.length := by
      intro rs
      induction rs with
      | nil => intro _ _; rfl
      | cons r rs ih =>
        intro h1 h2
        rw [encodeAll_cons, List.length_append, ih (fun c hc => h1 c (by simp [hc])) (fun c hc => h2 c (by simp [hc]))]
        have hr := h1 r (by simp)
        have hr' := h2 r (by simp)
        obtain ⟨n, rfl, _⟩ := scalar_cases hr
        rw [enc1 (by omega)]; simp; omega
    rw [hlen _ (fun c hc => runes_scalar s c (List.mem_filter.mp hc).1) (fun c hc => hs c (List.mem_filter.mp hc).1)] at h
    rw [List.filter_eq_self.mpr]
    intro c hc
    exact List.length_filter_eq_length_iff.mp h c hc
  · exact runes_encodeAll_filter _ s

example : deleteWhitespace asciiU [32, 97, 9, 98, 32] = [97, 98] := by decide

/-! ## C68 -/

theorem shuffleLoop_perm (rnd : Nat → Nat) (hr : ∀ i, rnd i ≤ i) : ∀ (i : Nat) (rs : List Int), i < rs.length →
    ∃ out, shuffleLoop rnd i rs = some out ∧ out.Perm rs := by
  intro i
  induction i with
  | zero => intro rs _; exact ⟨rs, rfl, List.Perm.refl _⟩
  | succ i ih =>
    intro rs hi
    unfold shuffleLoop
    have hj : rnd (i + 1) < rs.length := Nat.lt_of_le_of_lt (hr _) hi
    simp only
    split
    · rw [List.getElem?_eq_getElem hi, List.getElem?_eq_getElem hj]
      simp only
      obtain ⟨out, h1, h2⟩ := ih ((rs.set (i + 1) rs[rnd (i + 1)]).set (rnd (i + 1)) rs[i + 1]) (by simp; omega)
      exact ⟨out, h1, h2.trans (List.set_set_perm hi hj)⟩
    · exact ih rs (by omega)

/-- C68: whatever the random generator returns (within its contract `0 ≤ Intn(i+1) ≤ i`), `Shuffle` does not panic and
its characters are a permutation of those of `s`. -/
theorem C68_shuffle_perm (rnd : Nat → Nat) (hr : ∀ i, rnd i ≤ i) (s : Bytes) :
    ∃ out, shuffle rnd s = some out ∧ (runes out).Perm (runes s) := by
  unfold shuffle
  by_cases hs : s = []
  · subst hs; exact ⟨[], rfl, List.Perm.refl _⟩
  · rw [if_neg hs]
    have hpos : 0 < (runes s).length := by
      cases h : runes s with
      | nil => exact absurd (runes_eq_nil.mp h) hs
      | cons => simp
    obtain ⟨out, h1, h2⟩ := shuffleLoop_perm rnd hr ((runes s).length - 1) (runes s) (by omega)
    refine ⟨encodeAll out, by rw [h1]; rfl, ?_⟩
    rw [runes_encodeAll (fun r hr => runes_scalar s r (h2.mem_iff.mp hr))]
    exact h2

example : shuffle (fun _ => 0) [97, 98, 99] = some [98, 99, 97] := by decide

/-! ## C69 -/

/-- C69: the character-class predicates hold iff the string is non-empty and all its characters are in the class. -/
theorem C69_classes (u : Unicode) (s : Bytes) :
    (isAlpha u s = true ↔ s ≠ [] ∧ ∀ c ∈ runes s, u.isLetter c = true) ∧
    (isNumeric u s = true ↔ s ≠ [] ∧ ∀ c ∈ runes s, u.isDigit c = true) ∧
    (isAlphanumeric u s = true ↔ s ≠ [] ∧ ∀ c ∈ runes s, u.isLetter c = true ∨ u.isDigit c = true) ∧
    (isBlank u s = true ↔ ∀ c ∈ runes s, u.isSpace c = true) ∧
    (isEmpty s = true ↔ s = []) := by
  unfold isAlpha isNumeric isAlphanumeric isBlank isEmpty
  refine ⟨?_, ?_, ?_, ?_, ?_⟩
  · split
    · simp [*]
    · rw [allLoop_eq]; simp [*]
  · split
    · simp [*]
    · rw [allLoop_eq]; simp [*]
  · split
    · simp [*]
    · rw [allLoop_eq]; simp [*, isAlphanumericChar, or_comm]
  · split
    · rename_i h; subst h; simp [runes_nil]
    · exact allLoop_eq _ _
  · simp

/-- C69: the variants over several strings; with no strings at all the "any" variants report true. -/
theorem C69_variants (u : Unicode) (s : Bytes) (ss : List Bytes) :
    (isAnyEmpty ss = true ↔ ss = [] ∨ ∃ t ∈ ss, t = []) ∧
    (isAnyBlank u ss = true ↔ ss = [] ∨ ∃ t ∈ ss, isBlank u t = true) ∧
    (isNoneEmpty ss = true ↔ ¬ isAnyEmpty ss = true) ∧
    (isNoneBlank u ss = true ↔ ¬ isAnyBlank u ss = true) ∧
    (isNotEmpty s = true ↔ ¬ isEmpty s = true) ∧
    (isNotBlank u s = true ↔ ¬ isBlank u s = true) := by
  refine ⟨?_, ?_, by simp [isNoneEmpty], by simp [isNoneBlank], by simp [isNotEmpty], by simp [isNotBlank]⟩
  · unfold isAnyEmpty
    split
    · rename_i h; simp [List.eq_nil_of_length_eq_zero h]
    · rename_i h
      rw [anyLoop_eq]
      have : ss ≠ [] := by rintro rfl; simp at h
      simp [this, isEmpty]
  · unfold isAnyBlank
    split
    · rename_i h; simp [List.eq_nil_of_length_eq_zero h]
    · rename_i h
      rw [anyLoop_eq]
      have : ss ≠ [] := by rintro rfl; simp at h
      simp [this]

example : isAnyEmpty [[97], []] = true ∧ isAnyEmpty [[97], [32]] = false ∧ isAnyBlank asciiU [[97], [32]] = true ∧ isNoneBlank asciiU [[97]] = true := by decide

/-- C69: `EqualsAny` is membership. -/
theorem C69_equalsAny (a : Bytes) (xs : List Bytes) : equalsAny a xs = true ↔ a ∈ xs := by
  unfold equalsAny; rw [anyLoop_eq]; simp

example : equalsAny [97] [[98], [97]] = true ∧ equalsAny [97] [[98]] = false := by decide

/-- C69: the defaults are used exactly for blank / empty strings. -/
theorem C69_defaults (u : Unicode) (s d : Bytes) :
    defaultIfBlank u s d = (if ∀ c ∈ runes s, u.isSpace c = true then d else s) ∧
    defaultIfEmpty s d = (if s = [] then d else s) := by
  have h := (C69_classes u s).2.2.2.1
  constructor
  · unfold defaultIfBlank
    by_cases hb : isBlank u s = true
    · rw [if_pos hb, if_pos (h.mp hb)]
    · rw [if_neg hb, if_neg (fun x => hb (h.mpr x))]
  · simp [defaultIfEmpty, isEmpty]

example : isAlpha asciiU [97, 66] = true ∧ isAlpha asciiU [97, 48] = false ∧ isBlank asciiU [32, 9] = true := by decide

/-! ## C72 -/

/-- C72: valid text survives decoding and encoding, and lists of valid characters survive encoding and decoding. -/
theorem C72_roundtrip (s : Bytes) (hs : ValidUtf8 s) (rs : List Int) (hrs : ∀ r ∈ rs, IsScalar r) :
    encodeAll (runes s) = s ∧ runes (encodeAll rs) = rs ∧ len (encodeAll rs) = rs.length := by
  refine ⟨(validUtf8_iff s).mp hs, runes_encodeAll hrs, ?_⟩
  unfold len; rw [runes_encodeAll hrs]

/-- C72: decoding any byte string gives valid characters only, and decoding is injective on valid text. -/
theorem C72_decode_total (s t : Bytes) : (∀ r ∈ runes s, IsScalar r) ∧ len s ≤ s.length ∧
    (ValidUtf8 s → ValidUtf8 t → runes s = runes t → s = t) :=
  ⟨runes_scalar s, runes_length_le s, fun hs ht h => runes_inj hs ht h⟩

example : runes [0xFF, 97] = [0xFFFD, 97] ∧ len niHao = 2 := by decide

/-- C72: the encoder agrees with the one of Lean's core library on every character. -/
theorem C72_encoder_agrees_with_core (c : Char) : encodeRune (c.toNat : Int) = String.utf8EncodeChar c :=
  encodeRune_eq_core c

example : runes niHao = [0x4F60, 0x597D] ∧ ValidUtf8 niHao :=
  ⟨by decide, [0x4F60, 0x597D], by decide, by decide⟩

end Verif.XString
