import Verif.XString.Model
import Verif.XString.Spec
import Verif.Go.Utf8Lemmas
/-! # Lemmas about the xstring model -/
namespace Verif.XString
open Verif.Go Verif.XMath

/-- A byte string that does not start in the middle of a character. -/
def StartsClean (b : Bytes) : Prop := ∀ c t, b = c :: t → ¬ IsCont c

theorem startsClean_encodeRune (r : Int) (t : Bytes) : StartsClean (encodeRune r ++ t) := by
  intro c t' h
  rw [← encodeRune_norm] at h
  rcases encodeRune_shape (norm_scalar r) with ⟨b, e, hb, _⟩ | ⟨b, cs, e, _, hb, _⟩
  · rw [e] at h; simp at h; rw [← h.1]; unfold IsCont; omega
  · rw [e] at h; simp at h; rw [← h.1]; exact hb

theorem startsClean_encodeAll (rs : List Int) : StartsClean (encodeAll rs) := by
  cases rs with
  | nil => intro c t h; simp [encodeAll] at h
  | cons r rs => rw [encodeAll_cons]; exact startsClean_encodeRune r _

theorem decodeRune_append_clean {a b : Bytes} (ha : a ≠ []) (hb : StartsClean b) :
    decodeRune (a ++ b) = decodeRune a := by
  rcases decodeRune_cases a ha with ⟨r, rest, hr, e, hd⟩ | hd
  · rw [hd, e, List.append_assoc, decodeRune_encodeRune hr]
  · rw [hd]
    rcases decodeRune_cases (a ++ b) (by simp [ha]) with ⟨r, rest, hr, e, hd'⟩ | hd'
    · rcases List.append_eq_append_iff.mp e with ⟨x, h1, h2⟩ | ⟨x, h1, h2⟩
      · -- encoding = a ++ x
        cases x with
        | nil =>
          rw [List.append_nil] at h1
          have := decodeRune_encodeRune hr []
          rw [List.append_nil] at this
          rw [hd', ← this, h1, hd]
        | cons c x =>
          exfalso
          have hc := hb c (x ++ rest) (by rw [h2]; rfl)
          rcases encodeRune_shape hr with ⟨y, e1, _, _⟩ | ⟨y, cs, e1, _, _, hcs⟩
          · rw [e1] at h1
            cases a with
            | nil => exact ha rfl
            | cons a0 a1 => simp at h1
          · rw [e1] at h1
            cases a with
            | nil => exact ha rfl
            | cons a0 a1 =>
              simp at h1
              exact hc (hcs c (by rw [h1.2]; simp))
      · -- a = encoding ++ x
        have := decodeRune_encodeRune hr x
        rw [← h1, hd] at this
        rw [hd', ← this]
    · exact hd'

/-- Characters of a concatenation whose second part starts at a character boundary. -/
theorem runes_append_clean (a : Bytes) {b : Bytes} (hb : StartsClean b) : runes (a ++ b) = runes a ++ runes b := by
  induction a using runes_induction with
  | nil => simp [runes_nil]
  | step a h ih =>
    have hw := decodeRune_width a h
    rw [runes_cons (s := a ++ b) (by simp [h]), runes_cons h, decodeRune_append_clean h hb,
      List.drop_append_of_le_length hw.2, ih]
    rfl

theorem repeatLoop_eq (ch : Int) (n : Nat) : repeatLoop ch n = encodeAll (List.replicate n ch) := by
  induction n with
  | zero => rfl
  | succ n ih => rw [repeatLoop, ih, List.replicate_succ, encodeAll_cons]

theorem repeatChar_eq (ch rep : Int) : repeatChar ch rep = encodeAll (List.replicate rep.toNat ch) := by
  unfold repeatChar
  split
  · rw [show rep.toNat = 0 by omega]; rfl
  · exact repeatLoop_eq ch _

theorem runes_repeatChar (ch rep : Int) : runes (repeatChar ch rep) = List.replicate rep.toNat (norm ch) := by
  rw [repeatChar_eq, runes_encodeAll_norm, List.map_replicate]

theorem runes_padRawLeft (s : Bytes) (ch n : Int) :
    runes (padRawLeftChar s ch n) = List.replicate n.toNat (norm ch) ++ runes s := by
  unfold padRawLeftChar
  rw [runes_append_valid (by rw [repeatChar_eq]; exact validUtf8_encodeAll _), runes_repeatChar]

theorem runes_padRawRight (s : Bytes) (ch n : Int) :
    runes (padRawRightChar s ch n) = runes s ++ List.replicate n.toNat (norm ch) := by
  unfold padRawRightChar
  rw [runes_append_clean s (by rw [repeatChar_eq]; exact startsClean_encodeAll _), runes_repeatChar]

theorem removeCharLoop_eq (rm : Int) (vs : List Int) :
    removeCharLoop rm vs = encodeAll (vs.filter (fun v => decide (v ≠ rm))) := by
  induction vs with
  | nil => rfl
  | cons v vs ih =>
    rw [removeCharLoop, ih]
    by_cases h : v = rm
    · simp [h]
    · simp [h, encodeAll_cons]

theorem deleteSpaceLoop_eq (u : Unicode) (vs : List Int) :
    deleteSpaceLoop u vs = encodeAll (vs.filter (fun v => !u.isSpace v)) := by
  induction vs with
  | nil => rfl
  | cons v vs ih =>
    rw [deleteSpaceLoop, ih]
    by_cases h : u.isSpace v
    · simp [h]
    · simp [h, encodeAll_cons]

theorem runes_encodeAll_filter (p : Int → Bool) (s : Bytes) :
    runes (encodeAll ((runes s).filter p)) = (runes s).filter p :=
  runes_encodeAll (fun r hr => runes_scalar s r (List.mem_filter.mp hr).1)

theorem subLoop_eq (vs : List Int) : ∀ (i st en : Int),
    subLoop vs i st en = encodeAll ((vs.take (en - i).toNat).drop (st - i).toNat) := by
  induction vs with
  | nil => intro i st en; simp [subLoop, encodeAll]
  | cons v vs ih =>
    intro i st en
    unfold subLoop
    by_cases h : i ≥ en
    · rw [if_pos h, show (en - i).toNat = 0 by omega]; simp [encodeAll]
    · rw [if_neg h, ih]
      obtain ⟨k, hk⟩ : ∃ k, (en - i).toNat = k + 1 := ⟨(en - i).toNat - 1, by omega⟩
      rw [hk, show (en - (i + 1)).toNat = k by omega, List.take_succ_cons]
      by_cases h' : i ≥ st
      · rw [if_pos h', show (st - i).toNat = 0 by omega, show (st - (i + 1)).toNat = 0 by omega]
        simp [encodeAll_cons]
      · obtain ⟨j, hj⟩ : ∃ j, (st - i).toNat = j + 1 := ⟨(st - i).toNat - 1, by omega⟩
        rw [if_neg h', hj, show (st - (i + 1)).toNat = j by omega]
        simp

/-- `Sub` selects positions `lo ≤ i < hi`. -/
theorem sub_spec (s : Bytes) (a b : Int) : ∃ out, sub s a b = some out ∧
    runes out = ((runes s).take (hiPos (len s) b)).drop (loPos (len s) a) ∧
    (out = s ∨ (ValidUtf8 out ∧ out = encodeAll (((runes s).take (hiPos (len s) b)).drop (loPos (len s) a)))) := by
  by_cases hs : s = []
  · subst hs
    exact ⟨[], by simp [sub], by simp [runes_nil], Or.inl rfl⟩
  · unfold sub
    simp only [hs, if_false]
    have hlen : (runes s).length = len s := rfl
    generalize hn : len s = n at *
    have emptycase : (((runes s).take (hiPos n b)).drop (loPos n a)).length = 0 →
        runes [] = ((runes s).take (hiPos n b)).drop (loPos n a) ∧
        (([] : Bytes) = s ∨ (ValidUtf8 [] ∧ [] = encodeAll (((runes s).take (hiPos n b)).drop (loPos n a)))) := by
      intro h
      have := List.eq_nil_of_length_eq_zero h
      rw [this]
      exact ⟨rfl, Or.inr ⟨⟨[], by simp, rfl⟩, rfl⟩⟩
    generalize hb1 : (if b < 0 then b + (n : Int) else b) = b1
    generalize hb2 : (if b1 > (n : Int) then (n : Int) else b1) = b2
    generalize ha1 : (if a < 0 then a + (n : Int) else a) = a1
    by_cases h1 : a1 > b2
    · rw [if_pos h1]
      refine ⟨[], rfl, emptycase ?_⟩
      rw [List.length_drop, List.length_take, hlen]
      unfold hiPos loPos
      split at hb1 <;> split at ha1 <;> split at hb2 <;> (repeat' split) <;> omega
    · rw [if_neg h1]
      generalize ha2 : (if a1 < 0 then 0 else a1) = a2
      generalize hb3 : (if b2 < 0 then 0 else b2) = b3
      have hlo : loPos n a = a2.toNat := by
        unfold loPos; split at ha1 <;> split at ha2 <;> (repeat' split) <;> omega
      have hhi : hiPos n b = b3.toNat := by
        unfold hiPos
        split at hb1 <;> split at hb2 <;> split at hb3 <;> (repeat' split) <;> omega
      rw [hlo, hhi]
      by_cases h2 : a2 = 0 ∧ b3 = n
      · rw [if_pos h2]
        refine ⟨s, rfl, ?_, Or.inl rfl⟩
        rw [h2.1, h2.2]; simp only [Int.toNat_natCast, Int.toNat_zero, List.drop_zero]
        rw [← hlen, List.take_length]
      · rw [if_neg h2]
        have h3 : ¬ (b3 - a2 < 0) := by split at ha2 <;> split at hb3 <;> omega
        rw [if_neg h3, subLoop_eq, Int.sub_zero, Int.sub_zero]
        refine ⟨_, rfl, ?_, Or.inr ⟨validUtf8_encodeAll _, rfl⟩⟩
        apply runes_encodeAll
        intro r hr
        exact runes_scalar s r (List.mem_of_mem_take (List.mem_of_mem_drop hr))

theorem allLoop_eq (p : Int → Bool) (l : List Int) : allLoop p l = true ↔ ∀ r ∈ l, p r = true := by
  induction l with
  | nil => simp [allLoop]
  | cons v vs ih =>
    unfold allLoop
    cases h : p v <;> simp [h, ih]

theorem anyLoop_eq (p : Bytes → Bool) (l : List Bytes) : anyLoop p l = true ↔ ∃ s ∈ l, p s = true := by
  induction l with
  | nil => simp [anyLoop]
  | cons v vs ih =>
    unfold anyLoop
    cases h : p v <;> simp [h, ih]

/-! ## strings.Index -/

theorem index_some {sub s : Bytes} {i : Nat} (h : index sub s = some i) :
    (∃ t, s = s.take i ++ sub ++ t) ∧ i + sub.length ≤ s.length ∧
    ∀ a b, s = a ++ sub ++ b → i ≤ a.length := by
  induction s generalizing i with
  | nil =>
    unfold index at h
    split at h
    · rename_i e; subst e; simp at h; subst h; simp
    · simp at h
  | cons x t ih =>
    unfold index at h
    split at h
    · rename_i hp
      simp at h; subst h
      obtain ⟨r, hr⟩ := List.isPrefixOf_iff_prefix.mp hp
      refine ⟨⟨r, by simp [hr]⟩, ?_, fun _ _ _ => Nat.zero_le _⟩
      have := congrArg List.length hr
      simp at this ⊢; omega
    · rename_i hp
      rw [Option.map_eq_some_iff] at h
      obtain ⟨j, hj, rfl⟩ := h
      obtain ⟨⟨r, hr⟩, hle, hmin⟩ := ih hj
      refine ⟨⟨r, ?_⟩, by simp; omega, ?_⟩
      · simp only [List.take_succ_cons, List.cons_append]; rw [← hr]
      · intro a b hab
        cases a with
        | nil => exact absurd (List.isPrefixOf_iff_prefix.mpr ⟨b, by simpa using hab.symm⟩) hp
        | cons a0 a1 =>
          simp at hab
          have := hmin a1 b (by simpa using hab.2)
          simp; omega

theorem index_none {sub s : Bytes} (h : index sub s = none) : ∀ a b, s ≠ a ++ sub ++ b := by
  induction s with
  | nil =>
    unfold index at h
    split at h
    · simp at h
    · rename_i hne
      intro a b e
      simp at e; exact hne e.2.1
  | cons x t ih =>
    unfold index at h
    split at h
    · simp at h
    · rename_i hp
      simp at h
      intro a b e
      cases a with
      | nil => exact hp (List.isPrefixOf_iff_prefix.mpr ⟨b, by simpa using e.symm⟩)
      | cons a0 a1 =>
        simp at e
        exact ih h a1 b (by simpa using e.2)

end Verif.XString
