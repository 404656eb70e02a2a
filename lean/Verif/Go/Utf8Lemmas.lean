import Verif.Go.Utf8
/-! # Lemmas about the UTF-8 model -/
namespace Verif.Go

theorem runeError_scalar : IsScalar runeError := by decide

theorem toNat_ofNat_lt {n : Nat} (h : n < 256) : (UInt8.ofNat n).toNat = n := by
  simp [UInt8.toNat_ofNat']; omega

theorem dec1 {p0 : UInt8} {t : Bytes} (h : p0.toNat < 0x80) : decodeRune (p0 :: t) = ((p0.toNat : Int), 1) := by
  unfold decodeRune; dsimp only; rw [if_pos h]

theorem dec2 {p0 p1 : UInt8} {t : Bytes} (h : 0xC2 ≤ p0.toNat) (h' : p0.toNat < 0xE0) (h1 : IsCont p1) :
    decodeRune (p0 :: p1 :: t) = ((((p0.toNat % 32) * 64 + p1.toNat % 64 : Nat) : Int), 2) := by
  unfold decodeRune; dsimp only
  rw [if_neg (by omega), if_neg (by omega), if_pos h', if_pos h1]

theorem dec3 {p0 p1 p2 : UInt8} {t : Bytes} (h : 0xE0 ≤ p0.toNat) (h' : p0.toNat < 0xF0) (h1 : IsCont p1)
    (hE0 : p0.toNat = 0xE0 → 0xA0 ≤ p1.toNat) (hED : p0.toNat = 0xED → p1.toNat ≤ 0x9F) (h2 : IsCont p2) :
    decodeRune (p0 :: p1 :: p2 :: t) =
      ((((p0.toNat % 16) * 4096 + (p1.toNat % 64) * 64 + p2.toNat % 64 : Nat) : Int), 3) := by
  unfold decodeRune; dsimp only
  rw [if_neg (by omega), if_neg (by omega), if_neg (by omega), if_pos h', if_pos ?_]
  unfold IsCont at h1
  refine ⟨?_, ?_, h2⟩ <;> split <;> omega

theorem dec4 {p0 p1 p2 p3 : UInt8} {t : Bytes} (h : 0xF0 ≤ p0.toNat) (h' : p0.toNat < 0xF5) (h1 : IsCont p1)
    (hF0 : p0.toNat = 0xF0 → 0x90 ≤ p1.toNat) (hF4 : p0.toNat = 0xF4 → p1.toNat ≤ 0x8F) (h2 : IsCont p2)
    (h3 : IsCont p3) :
    decodeRune (p0 :: p1 :: p2 :: p3 :: t) =
      ((((p0.toNat % 8) * 262144 + (p1.toNat % 64) * 4096 + (p2.toNat % 64) * 64 + p3.toNat % 64 : Nat) : Int), 4) := by
  unfold decodeRune; dsimp only
  rw [if_neg (by omega), if_neg (by omega), if_neg (by omega), if_neg (by omega), if_pos h', if_pos ?_]
  unfold IsCont at h1
  refine ⟨?_, ?_, h2, h3⟩ <;> split <;> omega

theorem enc1 {n : Nat} (h : n < 0x80) : encodeRune n = [UInt8.ofNat n] := by
  have hs : IsScalar (n : Int) := by unfold IsScalar; omega
  unfold encodeRune; simp only [hs, if_true, Int.toNat_natCast, h]

theorem enc2 {n : Nat} (h0 : 0x80 ≤ n) (h : n < 0x800) :
    encodeRune n = [UInt8.ofNat (0xC0 + n / 64), UInt8.ofNat (0x80 + n % 64)] := by
  have hs : IsScalar (n : Int) := by unfold IsScalar; omega
  unfold encodeRune; simp only [hs, if_true, Int.toNat_natCast]
  rw [if_neg (by omega), if_pos h]

theorem enc3 {n : Nat} (h0 : 0x800 ≤ n) (h : n < 0x10000) (hs : IsScalar (n : Int)) :
    encodeRune n = [UInt8.ofNat (0xE0 + n / 4096), UInt8.ofNat (0x80 + n / 64 % 64), UInt8.ofNat (0x80 + n % 64)] := by
  unfold encodeRune; simp only [hs, if_true, Int.toNat_natCast]
  rw [if_neg (by omega), if_neg (by omega), if_pos h]

theorem enc4 {n : Nat} (h0 : 0x10000 ≤ n) (hs : IsScalar (n : Int)) :
    encodeRune n = [UInt8.ofNat (0xF0 + n / 262144), UInt8.ofNat (0x80 + n / 4096 % 64),
      UInt8.ofNat (0x80 + n / 64 % 64), UInt8.ofNat (0x80 + n % 64)] := by
  unfold encodeRune; simp only [hs, if_true, Int.toNat_natCast]
  rw [if_neg (by omega), if_neg (by omega), if_neg (by omega)]

/-- Every scalar falls in exactly one of the four encoding lengths. -/
theorem scalar_cases {r : Int} (h : IsScalar r) : ∃ n : Nat, r = n ∧
    (n < 0x80 ∨ (0x80 ≤ n ∧ n < 0x800) ∨ (0x800 ≤ n ∧ n < 0x10000 ∧ (n < 0xD800 ∨ 0xE000 ≤ n)) ∨
      (0x10000 ≤ n ∧ n ≤ 0x10FFFF)) := by
  refine ⟨r.toNat, ?_, ?_⟩ <;> unfold IsScalar at h <;> omega

theorem decodeRune_encodeRune {r : Int} (h : IsScalar r) (rest : Bytes) :
    decodeRune (encodeRune r ++ rest) = (r, (encodeRune r).length) := by
  obtain ⟨n, rfl, hn⟩ := scalar_cases h
  rcases hn with h1 | ⟨h0, h1⟩ | ⟨h0, h1, h2⟩ | ⟨h0, h1⟩
  · rw [enc1 h1]
    have e := toNat_ofNat_lt (n := n) (by omega)
    rw [List.singleton_append, dec1 (by omega), e]; rfl
  · rw [enc2 h0 h1]
    have e0 := toNat_ofNat_lt (n := 0xC0 + n / 64) (by omega)
    have e1 := toNat_ofNat_lt (n := 0x80 + n % 64) (by omega)
    simp only [List.cons_append, List.nil_append]
    rw [dec2, e0, e1]
    · simp; omega
    · omega
    · omega
    · unfold IsCont; omega
  · rw [enc3 h0 h1 h]
    have e0 := toNat_ofNat_lt (n := 0xE0 + n / 4096) (by omega)
    have e1 := toNat_ofNat_lt (n := 0x80 + n / 64 % 64) (by omega)
    have e2 := toNat_ofNat_lt (n := 0x80 + n % 64) (by omega)
    simp only [List.cons_append, List.nil_append]
    rw [dec3, e0, e1, e2]
    · simp; omega
    · omega
    · omega
    · unfold IsCont; omega
    · omega
    · omega
    · unfold IsCont; omega
  · rw [enc4 h0 h]
    have e0 := toNat_ofNat_lt (n := 0xF0 + n / 262144) (by omega)
    have e1 := toNat_ofNat_lt (n := 0x80 + n / 4096 % 64) (by omega)
    have e2 := toNat_ofNat_lt (n := 0x80 + n / 64 % 64) (by omega)
    have e3 := toNat_ofNat_lt (n := 0x80 + n % 64) (by omega)
    simp only [List.cons_append, List.nil_append]
    rw [dec4, e0, e1, e2, e3]
    · simp; omega
    · omega
    · omega
    · unfold IsCont; omega
    · omega
    · omega
    · unfold IsCont; omega
    · unfold IsCont; omega

/-- What `encodeRune` does with non-scalars. -/
theorem encodeRune_not_scalar {r : Int} (h : ¬ IsScalar r) : encodeRune r = encodeRune runeError := by
  unfold encodeRune; simp only [h, if_false, runeError_scalar, if_true]; rfl

/-- The rune that is actually written by `encodeRune r`. -/
def norm (r : Int) : Int := if IsScalar r then r else runeError

theorem norm_scalar (r : Int) : IsScalar (norm r) := by
  unfold norm; split
  · assumption
  · exact runeError_scalar

theorem encodeRune_norm (r : Int) : encodeRune (norm r) = encodeRune r := by
  unfold norm; split
  · rfl
  · exact (encodeRune_not_scalar ‹_›).symm

theorem norm_of_scalar {r : Int} (h : IsScalar r) : norm r = r := by simp [norm, h]

theorem encodeRune_length (r : Int) : 1 ≤ (encodeRune r).length ∧ (encodeRune r).length ≤ 4 := by
  rw [← encodeRune_norm]
  obtain ⟨n, e, hn⟩ := scalar_cases (norm_scalar r)
  have hs := norm_scalar r
  rw [e] at hs ⊢
  rcases hn with h1 | ⟨h0, h1⟩ | ⟨h0, h1, h2⟩ | ⟨h0, h1⟩
  · rw [enc1 h1]; simp
  · rw [enc2 h0 h1]; simp
  · rw [enc3 h0 h1 hs]; simp
  · rw [enc4 h0 hs]; simp

theorem encodeRune_ne_nil (r : Int) : encodeRune r ≠ [] := by
  intro h; have := (encodeRune_length r).1; rw [h] at this; simp at this

theorem eq_ofNat {p : UInt8} {n : Nat} (h : p.toNat = n) : p = UInt8.ofNat n := by rw [← h]; simp

/-- Complete case analysis of the decoder on non-empty input: either it decodes a scalar value `r` whose encoding
is a prefix of the input, or it reports `(RuneError, 1)`. -/
theorem decodeRune_cases (s : Bytes) (hs : s ≠ []) :
    (∃ r rest, IsScalar r ∧ s = encodeRune r ++ rest ∧ decodeRune s = (r, (encodeRune r).length)) ∨
    decodeRune s = (runeError, 1) := by
  have key : ∀ (r : Int), IsScalar r → (∃ rest, s = encodeRune r ++ rest) →
      (∃ r rest, IsScalar r ∧ s = encodeRune r ++ rest ∧ decodeRune s = (r, (encodeRune r).length)) := by
    intro r hsc ⟨rest, he⟩
    exact ⟨r, rest, hsc, he, by rw [he]; exact decodeRune_encodeRune hsc rest⟩
  match s, hs with
  | p0 :: t, _ =>
    have hp0 := p0.toNat_lt
    by_cases c1 : p0.toNat < 0x80
    · left
      refine key (p0.toNat : Int) (by unfold IsScalar; omega) ⟨t, ?_⟩
      rw [enc1 c1]; simp
    by_cases c2 : p0.toNat < 0xC2
    · right; unfold decodeRune; dsimp only; rw [if_neg c1, if_pos c2]
    by_cases c3 : p0.toNat < 0xE0
    · match t with
      | [] => right; unfold decodeRune; dsimp only; rw [if_neg c1, if_neg c2, if_pos c3]
      | p1 :: t =>
        have hp1 := p1.toNat_lt
        by_cases d1 : IsCont p1
        · left
          unfold IsCont at d1
          refine key ((p0.toNat % 32 * 64 + p1.toNat % 64 : Nat) : Int) (by unfold IsScalar; omega) ⟨t, ?_⟩
          rw [enc2 (by omega) (by omega)]
          simp only [List.cons_append, List.nil_append, List.cons.injEq, and_true]
          exact ⟨eq_ofNat (by omega), eq_ofNat (by omega)⟩
        · right; unfold decodeRune; dsimp only; rw [if_neg c1, if_neg c2, if_pos c3, if_neg d1]
    by_cases c4 : p0.toNat < 0xF0
    · match t with
      | [] => right; unfold decodeRune; dsimp only; rw [if_neg c1, if_neg c2, if_neg c3, if_pos c4]
      | [p1] => right; unfold decodeRune; dsimp only; rw [if_neg c1, if_neg c2, if_neg c3, if_pos c4]
      | p1 :: p2 :: t =>
        have hp1 := p1.toNat_lt
        have hp2 := p2.toNat_lt
        by_cases d : (if p0.toNat = 0xE0 then 0xA0 else 0x80) ≤ p1.toNat ∧
            p1.toNat ≤ (if p0.toNat = 0xED then 0x9F else 0xBF) ∧ IsCont p2
        · left
          obtain ⟨d1, d2, d3⟩ := d
          unfold IsCont at d3
          have hb : 0x80 ≤ p1.toNat ∧ p1.toNat ≤ 0xBF ∧ (p0.toNat = 0xE0 → 0xA0 ≤ p1.toNat) ∧
              (p0.toNat = 0xED → p1.toNat ≤ 0x9F) := by
            split at d1 <;> split at d2 <;> omega
          have hsc : IsScalar ((p0.toNat % 16 * 4096 + p1.toNat % 64 * 64 + p2.toNat % 64 : Nat) : Int) := by
            unfold IsScalar; omega
          refine key _ hsc ⟨t, ?_⟩
          rw [enc3 (by omega) (by omega) hsc]
          simp only [List.cons_append, List.nil_append, List.cons.injEq, and_true]
          exact ⟨eq_ofNat (by omega), eq_ofNat (by omega), eq_ofNat (by omega)⟩
        · right; unfold decodeRune; dsimp only; rw [if_neg c1, if_neg c2, if_neg c3, if_pos c4, if_neg d]
    by_cases c5 : p0.toNat < 0xF5
    · match t with
      | [] => right; unfold decodeRune; dsimp only; rw [if_neg c1, if_neg c2, if_neg c3, if_neg c4, if_pos c5]
      | [p1] => right; unfold decodeRune; dsimp only; rw [if_neg c1, if_neg c2, if_neg c3, if_neg c4, if_pos c5]
      | [p1, p2] => right; unfold decodeRune; dsimp only; rw [if_neg c1, if_neg c2, if_neg c3, if_neg c4, if_pos c5]
      | p1 :: p2 :: p3 :: t =>
        have hp1 := p1.toNat_lt
        have hp2 := p2.toNat_lt
        have hp3 := p3.toNat_lt
        by_cases d : (if p0.toNat = 0xF0 then 0x90 else 0x80) ≤ p1.toNat ∧
            p1.toNat ≤ (if p0.toNat = 0xF4 then 0x8F else 0xBF) ∧ IsCont p2 ∧ IsCont p3
        · left
          obtain ⟨d1, d2, d3, d4⟩ := d
          unfold IsCont at d3 d4
          have hb : 0x80 ≤ p1.toNat ∧ p1.toNat ≤ 0xBF ∧ (p0.toNat = 0xF0 → 0x90 ≤ p1.toNat) ∧
              (p0.toNat = 0xF4 → p1.toNat ≤ 0x8F) := by
            split at d1 <;> split at d2 <;> omega
          have hsc : IsScalar ((p0.toNat % 8 * 262144 + p1.toNat % 64 * 4096 + p2.toNat % 64 * 64
              + p3.toNat % 64 : Nat) : Int) := by
            unfold IsScalar; omega
          refine key _ hsc ⟨t, ?_⟩
          rw [enc4 (by omega) hsc]
          simp only [List.cons_append, List.nil_append, List.cons.injEq, and_true]
          exact ⟨eq_ofNat (by omega), eq_ofNat (by omega), eq_ofNat (by omega), eq_ofNat (by omega)⟩
        · right; unfold decodeRune; dsimp only
          rw [if_neg c1, if_neg c2, if_neg c3, if_neg c4, if_pos c5, if_neg d]
    · right; unfold decodeRune; dsimp only
      rw [if_neg c1, if_neg c2, if_neg c3, if_neg c4, if_neg c5]

theorem decodeRune_scalar (s : Bytes) : IsScalar (decodeRune s).1 := by
  by_cases h : s = []
  · subst h; exact runeError_scalar
  · rcases decodeRune_cases s h with ⟨r, rest, hr, _, e⟩ | e
    · rw [e]; exact hr
    · rw [e]; exact runeError_scalar

theorem decodeRune_width (s : Bytes) (h : s ≠ []) : 1 ≤ (decodeRune s).2 ∧ (decodeRune s).2 ≤ s.length := by
  rcases decodeRune_cases s h with ⟨r, rest, hr, hs, e⟩ | e
  · rw [e]
    refine ⟨(encodeRune_length r).1, ?_⟩
    have := congrArg List.length hs
    simp at this; simp; omega
  · rw [e]; simp; exact List.length_pos_iff.mpr h

/-! ## The rune sequence of a string -/

theorem runesF_fuel : ∀ (f : Nat) (s : Bytes), s.length ≤ f → runesF f s = runesF s.length s := by
  intro f
  induction f using Nat.strongRecOn with
  | _ f ih =>
    intro s hs
    match f, s with
    | 0, [] => rfl
    | f + 1, [] => rfl
    | f + 1, b :: t =>
      simp only [List.length_cons, runesF]
      have hw := decodeRune_width (b :: t) (by simp)
      simp only [List.length_cons] at hw hs
      have hl : ((b :: t).drop (decodeRune (b :: t)).2).length ≤ t.length := by
        simp only [List.length_drop, List.length_cons]; omega
      rw [ih f (by omega) _ (by omega), ih t.length (by omega) _ hl]

theorem runes_nil : runes [] = [] := rfl

theorem runes_cons {s : Bytes} (h : s ≠ []) :
    runes s = (decodeRune s).1 :: runes (s.drop (decodeRune s).2) := by
  match s, h with
  | b :: t, _ =>
    have hw := decodeRune_width (b :: t) (by simp)
    unfold runes
    conv => lhs; simp only [List.length_cons]; unfold runesF
    rw [runesF_fuel]
    simp only [List.length_cons] at hw
    simp only [List.length_drop, List.length_cons]; omega

theorem runes_encodeRune_append (r : Int) (rest : Bytes) :
    runes (encodeRune r ++ rest) = norm r :: runes rest := by
  rw [← encodeRune_norm, runes_cons (by simp [encodeRune_ne_nil]), decodeRune_encodeRune (norm_scalar r)]
  simp

theorem runes_encodeAll_append (rs : List Int) (rest : Bytes) :
    runes (encodeAll rs ++ rest) = rs.map norm ++ runes rest := by
  induction rs with
  | nil => simp [encodeAll]
  | cons r rs ih =>
    have : encodeAll (r :: rs) = encodeRune r ++ encodeAll rs := by simp [encodeAll]
    rw [this, List.append_assoc, runes_encodeRune_append, ih]; simp

theorem runes_encodeAll_norm (rs : List Int) : runes (encodeAll rs) = rs.map norm := by
  have := runes_encodeAll_append rs []
  simpa [runes_nil] using this

theorem map_norm_of_scalar {rs : List Int} (h : ∀ r ∈ rs, IsScalar r) : rs.map norm = rs := by
  induction rs with
  | nil => rfl
  | cons r rs ih =>
    simp only [List.map_cons, List.cons.injEq]
    exact ⟨norm_of_scalar (h r (by simp)), ih (fun x hx => h x (by simp [hx]))⟩

theorem runes_encodeAll {rs : List Int} (h : ∀ r ∈ rs, IsScalar r) : runes (encodeAll rs) = rs := by
  rw [runes_encodeAll_norm, map_norm_of_scalar h]

/-- Induction along the decoder. -/
theorem runes_induction {P : Bytes → Prop} (nil : P [])
    (step : ∀ s, s ≠ [] → P (s.drop (decodeRune s).2) → P s) (s : Bytes) : P s := by
  generalize hn : s.length = n
  induction n using Nat.strongRecOn generalizing s with
  | _ n ih =>
    by_cases h : s = []
    · subst h; exact nil
    · have hw := decodeRune_width s h
      refine step s h (ih _ ?_ _ rfl)
      simp only [List.length_drop]; omega

theorem runes_scalar (s : Bytes) : ∀ r ∈ runes s, IsScalar r := by
  induction s using runes_induction with
  | nil => simp [runes_nil]
  | step s h ih =>
    rw [runes_cons h]
    intro r hr
    rcases List.mem_cons.mp hr with rfl | hr
    · exact decodeRune_scalar s
    · exact ih r hr

theorem runes_eq_nil {s : Bytes} : runes s = [] ↔ s = [] := by
  constructor
  · intro h
    by_cases hs : s = []
    · exact hs
    · rw [runes_cons hs] at h; simp at h
  · rintro rfl; rfl

theorem runes_length_le (s : Bytes) : (runes s).length ≤ s.length := by
  induction s using runes_induction with
  | nil => simp [runes_nil]
  | step s h ih =>
    rw [runes_cons h]
    have hw := decodeRune_width s h
    simp only [List.length_cons, List.length_drop] at ih ⊢
    omega

theorem validUtf8_iff (s : Bytes) : ValidUtf8 s ↔ encodeAll (runes s) = s := by
  constructor
  · rintro ⟨rs, h, rfl⟩
    rw [runes_encodeAll h]
  · intro h
    exact ⟨runes s, runes_scalar s, h.symm⟩

theorem encodeAll_nil : encodeAll [] = [] := rfl
theorem encodeAll_cons (r : Int) (rs : List Int) : encodeAll (r :: rs) = encodeRune r ++ encodeAll rs := by
  simp [encodeAll]
theorem encodeAll_append (a b : List Int) : encodeAll (a ++ b) = encodeAll a ++ encodeAll b := by
  simp [encodeAll]

theorem validUtf8_encodeAll (rs : List Int) : ValidUtf8 (encodeAll rs) := by
  refine ⟨rs.map norm, ?_, ?_⟩
  · intro r hr
    obtain ⟨x, _, rfl⟩ := List.mem_map.mp hr
    exact norm_scalar x
  · induction rs with
    | nil => rfl
    | cons r rs ih => rw [List.map_cons, encodeAll_cons, encodeAll_cons, encodeRune_norm, ih]

theorem validUtf8_append {a b : Bytes} (ha : ValidUtf8 a) (hb : ValidUtf8 b) : ValidUtf8 (a ++ b) := by
  obtain ⟨ra, h1, rfl⟩ := ha
  obtain ⟨rb, h2, rfl⟩ := hb
  refine ⟨ra ++ rb, ?_, by rw [encodeAll_append]⟩
  intro r hr
  rcases List.mem_append.mp hr with h | h
  · exact h1 r h
  · exact h2 r h

theorem runes_append_valid {a : Bytes} (ha : ValidUtf8 a) (b : Bytes) : runes (a ++ b) = runes a ++ runes b := by
  obtain ⟨ra, h1, rfl⟩ := ha
  rw [runes_encodeAll_append, runes_encodeAll h1, map_norm_of_scalar h1]

/-- Decoding is injective on valid strings. -/
theorem runes_inj {a b : Bytes} (ha : ValidUtf8 a) (hb : ValidUtf8 b) (h : runes a = runes b) : a = b := by
  rw [← (validUtf8_iff a).mp ha, ← (validUtf8_iff b).mp hb, h]

theorem encodeAll_length_ge (rs : List Int) : rs.length ≤ (encodeAll rs).length := by
  induction rs with
  | nil => simp [encodeAll]
  | cons r rs ih =>
    rw [encodeAll_cons]; have := (encodeRune_length r).1
    simp; omega


/-! ## Decoding from the end -/

theorem scanBack_stop (p : Bytes) (lim m : Nat) (hm : lim ≤ m) (hst : runeStart (p.getD m 0) = true) :
    ∀ s, m < s → (∀ j, m < j → j < s → runeStart (p.getD j 0) = false) → scanBack p lim s = m := by
  intro s
  induction s with
  | zero => intro h; omega
  | succ s ih =>
    intro h hc
    unfold scanBack
    rcases Nat.lt_or_eq_of_le (Nat.lt_succ_iff.mp h) with hlt | heq
    · rw [if_neg (by omega), hc s hlt (by omega)]
      simp only [Bool.false_eq_true, if_false]
      exact ih hlt (fun j h1 h2 => hc j h1 (by omega))
    · subst heq
      rw [if_neg (by omega), if_pos hst]

theorem cont_runeStart {b : UInt8} (h : IsCont b) : runeStart b = false := by simp [runeStart, h]

theorem getD_append_length (pre : Bytes) (l : Bytes) (i : Nat) :
    (pre ++ l).getD (pre.length + i) 0 = l.getD i 0 := by
  simp [List.getD_eq_getElem?_getD, List.getElem?_append_right]

/-- Shape of a multi-byte encoding: a start byte followed by continuation bytes; a one-byte encoding is ASCII. -/
theorem encodeRune_shape {r : Int} (h : IsScalar r) :
    (∃ b : UInt8, encodeRune r = [b] ∧ b.toNat < 0x80 ∧ (b.toNat : Int) = r) ∨
    (∃ (b : UInt8) (cs : Bytes), encodeRune r = b :: cs ∧ cs ≠ [] ∧ ¬ IsCont b ∧ ∀ c ∈ cs, IsCont c) := by
  obtain ⟨n, rfl, hn⟩ := scalar_cases h
  rcases hn with h1 | ⟨h0, h1⟩ | ⟨h0, h1, h2⟩ | ⟨h0, h1⟩
  · left; exact ⟨_, enc1 h1, by rw [toNat_ofNat_lt (by omega)]; exact h1, by rw [toNat_ofNat_lt (by omega)]⟩
  · right
    refine ⟨_, _, enc2 h0 h1, by simp, ?_, ?_⟩
    · unfold IsCont; rw [toNat_ofNat_lt (by omega)]; omega
    · intro c hc
      simp only [List.mem_singleton] at hc
      subst hc; unfold IsCont; rw [toNat_ofNat_lt (by omega)]; omega
  · right
    refine ⟨_, _, enc3 h0 h1 h, by simp, ?_, ?_⟩
    · unfold IsCont; rw [toNat_ofNat_lt (by omega)]; omega
    · intro c hc
      simp only [List.mem_cons, List.not_mem_nil, or_false] at hc
      rcases hc with rfl | rfl <;> unfold IsCont <;> rw [toNat_ofNat_lt (by omega)] <;> omega
  · right
    refine ⟨_, _, enc4 h0 h, by simp, ?_, ?_⟩
    · unfold IsCont; rw [toNat_ofNat_lt (by omega)]; omega
    · intro c hc
      simp only [List.mem_cons, List.not_mem_nil, or_false] at hc
      rcases hc with rfl | rfl | rfl <;> unfold IsCont <;> rw [toNat_ofNat_lt (by omega)] <;> omega

theorem decodeLastRune_append {r : Int} (h : IsScalar r) (pre : Bytes) :
    decodeLastRune (pre ++ encodeRune r) = (r, (encodeRune r).length) := by
  have hlen := encodeRune_length r
  have hdec := decodeRune_encodeRune h []
  rw [List.append_nil] at hdec
  rcases encodeRune_shape h with ⟨b, e, hb, hr⟩ | ⟨b, cs, e, hne, hb, hcs⟩
  · unfold decodeLastRune
    have hl : (pre ++ encodeRune r).length = pre.length + 1 := by simp [e]
    have hg : (pre ++ encodeRune r).getD (pre.length + 1 - 1) 0 = b := by
      have := getD_append_length pre (encodeRune r) 0
      rw [Nat.add_sub_cancel, ← Nat.add_zero pre.length, this, e]; rfl
    simp only [hl, hg, hb, if_true, hr]
    simp [e]
  · have hcl : 0 < cs.length := List.length_pos_iff.mpr hne
    have hl : (pre ++ encodeRune r).length = pre.length + (cs.length + 1) := by simp [e]
    have hget : ∀ i, i < cs.length → IsCont (cs.getD i 0) := by
      intro i hi
      apply hcs
      simp [List.getD_eq_getElem?_getD, hi]
    have hg : ∀ i, i < cs.length → IsCont ((pre ++ encodeRune r).getD (pre.length + (i + 1)) 0) := by
      intro i hi
      rw [getD_append_length, e]
      exact hget i hi
    have hs : scanBack (pre ++ encodeRune r) (pre.length + (cs.length + 1) - 4)
        (pre.length + (cs.length + 1) - 1) = pre.length := by
      apply scanBack_stop
      · rw [e] at hlen; simp at hlen; omega
      · have := getD_append_length pre (encodeRune r) 0
        rw [Nat.add_zero] at this
        rw [this, e]; simp [runeStart, hb]
      · omega
      · intro j h1 h2
        obtain ⟨i, rfl⟩ : ∃ i, j = pre.length + (i + 1) := ⟨j - pre.length - 1, by omega⟩
        exact cont_runeStart (hg i (by omega))
    have hlast : ¬ ((pre ++ encodeRune r).getD (pre.length + (cs.length + 1) - 1) 0).toNat < 0x80 := by
      have := hg (cs.length - 1) (by omega)
      rw [show pre.length + (cs.length + 1) - 1 = pre.length + (cs.length - 1 + 1) by omega]
      unfold IsCont at this; omega
    unfold decodeLastRune
    simp only [hl, hs, hlast, if_false, List.drop_left, hdec]
    rw [if_neg (by omega), if_neg]
    simp [e]

/-- If `DecodeLastRune` reports a rune other than U+FFFD, the input ends with that rune's encoding. -/
theorem decodeLastRune_sound {p : Bytes} (h : (decodeLastRune p).1 ≠ runeError) :
    ∃ pre, p = pre ++ encodeRune (decodeLastRune p).1 ∧ IsScalar (decodeLastRune p).1 ∧
      (decodeLastRune p).2 = (encodeRune (decodeLastRune p).1).length := by
  by_cases hp : p = []
  · subst hp; exact absurd rfl h
  have hpos := List.length_pos_iff.mpr hp
  unfold decodeLastRune at h ⊢
  dsimp only at h ⊢
  rw [if_neg (by omega)] at h ⊢
  split
  · next hlt =>
    refine ⟨p.dropLast, ?_, by unfold IsScalar; dsimp only; omega, ?_⟩
    · dsimp only
      rw [enc1 hlt]
      have : p.getD (p.length - 1) 0 = p.getLast hp := by
        rw [List.getLast_eq_getElem, List.getD_eq_getElem?_getD, List.getElem?_eq_getElem (by omega)]; rfl
      rw [this, ← eq_ofNat (p := p.getLast hp) rfl, List.dropLast_concat_getLast hp]
    · dsimp only; rw [enc1 hlt]; rfl
  · next hge =>
    rw [if_neg hge] at h
    generalize hst : scanBack p (p.length - 4) (p.length - 1) = start at h ⊢
    split at h
    · exact absurd rfl h
    · next hsz =>
      rw [if_neg hsz]
      have hsz : start + (decodeRune (p.drop start)).2 = p.length := by simpa using hsz
      have hne : p.drop start ≠ [] := by
        intro hn
        rw [hn] at h; exact h rfl
      rcases decodeRune_cases _ hne with ⟨r, rest, hr, he, hd⟩ | hd
      · rw [hd] at hsz h ⊢
        refine ⟨p.take start, ?_, hr, rfl⟩
        have hrest : rest = [] := by
          have h1 := congrArg List.length he
          simp only [List.length_drop, List.length_append] at h1
          simp only at hsz
          exact List.length_eq_zero_iff.mp (by omega)
        rw [hrest, List.append_nil] at he
        simp only
        rw [← he, List.take_append_drop]
      · rw [hd] at h; exact absurd rfl h

/-- The encoder agrees with Lean core's own UTF-8 encoder (an independent definition) on every character. -/
theorem encodeRune_eq_core (c : Char) : encodeRune (c.toNat : Int) = String.utf8EncodeChar c := by
  have hs : IsScalar (c.toNat : Int) := by
    have hv : c.toNat.isValidChar := c.valid
    unfold Nat.isValidChar at hv
    unfold IsScalar; omega
  have hn : c.toNat < 0x110000 := by unfold IsScalar at hs; omega
  unfold String.utf8EncodeChar
  change _ = (if c.toNat ≤ 127 then _ else _)
  have hcv : c.val.toNat = c.toNat := rfl
  rw [hcv]
  split
  · rw [enc1 (by omega)]
  split
  · rw [enc2 (by omega) (by omega)]
    change _ = [UInt8.ofNat (c.toNat / 64 % 32 + 192), UInt8.ofNat (c.toNat % 64 + 128)]
    rw [show c.toNat / 64 % 32 + 192 = 0xC0 + c.toNat / 64 by omega,
      show c.toNat % 64 + 128 = 0x80 + c.toNat % 64 by omega]
  split
  · rw [enc3 (by omega) (by omega) hs]
    change _ = [UInt8.ofNat (c.toNat / 4096 % 16 + 224), UInt8.ofNat (c.toNat / 64 % 64 + 128),
      UInt8.ofNat (c.toNat % 64 + 128)]
    rw [show c.toNat / 4096 % 16 + 224 = 0xE0 + c.toNat / 4096 by omega,
      show c.toNat / 64 % 64 + 128 = 0x80 + c.toNat / 64 % 64 by omega,
      show c.toNat % 64 + 128 = 0x80 + c.toNat % 64 by omega]
  · rw [enc4 (by omega) hs]
    change _ = [UInt8.ofNat (c.toNat / 262144 % 8 + 240), UInt8.ofNat (c.toNat / 4096 % 64 + 128),
      UInt8.ofNat (c.toNat / 64 % 64 + 128), UInt8.ofNat (c.toNat % 64 + 128)]
    rw [show c.toNat / 262144 % 8 + 240 = 0xF0 + c.toNat / 262144 by omega,
      show c.toNat / 4096 % 64 + 128 = 0x80 + c.toNat / 4096 % 64 by omega,
      show c.toNat / 64 % 64 + 128 = 0x80 + c.toNat / 64 % 64 by omega,
      show c.toNat % 64 + 128 = 0x80 + c.toNat % 64 by omega]

end Verif.Go
