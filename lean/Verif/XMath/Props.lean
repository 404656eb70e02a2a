import Verif.XMath.Lemmas
import Verif.XMath.Float
/-! # Property theorems for xmath (C35, C36) -/
namespace Verif.XMath
open Verif.Go

/-! ## C35 -/

/-- C35 as stated (true maximum for all 64-bit ints) is false: with `a = 2^53 + 1`, `b = 0` the result is `2^53`,
on every architecture. -/
theorem C35_maxInt_refuted (ovf : Int → Int) :
    IsInt64 (2 ^ 53 + 1) ∧ IsInt64 0 ∧ maxInt ovf (2 ^ 53 + 1) 0 ≠ max (2 ^ 53 + 1) 0 ∧
    minInt ovf (-(2 ^ 53 + 1)) 0 ≠ min (-(2 ^ 53 + 1)) 0 := by
  have h1 : toF64 (2 ^ 53 + 1) = 2 ^ 53 := by decide +kernel
  have h2 : toF64 (-(2 ^ 53 + 1)) = -2 ^ 53 := by decide +kernel
  have h3 : toF64 0 = 0 := by decide +kernel
  refine ⟨by unfold IsInt64; omega, by unfold IsInt64; omega, ?_, ?_⟩
  · unfold maxInt
    rw [h1, h3, show fmax (2 ^ 53) 0 = 2 ^ 53 by decide, ofF64, if_pos (by decide)]; decide
  · unfold minInt
    rw [h2, h3, show fmin (-2 ^ 53) 0 = -2 ^ 53 by decide, ofF64, if_pos (by decide)]; decide

/-- On amd64 the result can even have the wrong sign: `MaxInt(MaxInt64, 0) = MinInt64`. -/
theorem C35_maxInt_wrong_sign_refuted : maxInt ovfAmd64 (2 ^ 63 - 1) 0 = -2 ^ 63 := by decide +kernel

/-- C35, what holds: exact for all arguments between `-2^53` and `2^53`. Missing: larger magnitudes, where the
property is false (see `C35_maxInt_refuted`). -/
theorem C35_exact_partial (ovf : Int → Int) (a b : Int) (ha : -2 ^ 53 ≤ a ∧ a ≤ 2 ^ 53) (hb : -2 ^ 53 ≤ b ∧ b ≤ 2 ^ 53) :
    maxInt ovf a b = max a b ∧ minInt ovf a b = min a b ∧
    maxInt64 ovf a b = max a b ∧ minInt64 ovf a b = min a b := by
  have h1 : ofF64 ovf (fmax (toF64 a) (toF64 b)) = max a b := by
    rw [fmax_toF64, toF64_small (by omega) (by omega), ofF64, if_pos (by omega)]
  have h2 : ofF64 ovf (fmin (toF64 a) (toF64 b)) = min a b := by
    rw [fmin_toF64, toF64_small (by omega) (by omega), ofF64, if_pos (by omega)]
  exact ⟨h1, h2, h1, h2⟩

example : maxInt ovfAmd64 (-7) (2 ^ 53) = 2 ^ 53 ∧ minInt64 ovfAmd64 (-2 ^ 53) 12 = -2 ^ 53 := by decide +kernel

/-- C35, for all pairs of 64-bit ints whose rounded maximum is below `2^63`: the result is off from the true maximum
by at most one part in `2^53` (and likewise the minimum, with no side condition). -/
theorem C35_relative_error_partial (ovf : Int → Int) (a b : Int) (ha : IsInt64 a) (hb : IsInt64 b) :
    (toF64 (max a b) < 2 ^ 63 → 2 ^ 53 * (maxInt ovf a b - max a b).natAbs ≤ (max a b).natAbs) ∧
    (toF64 (min a b) < 2 ^ 63 → 2 ^ 53 * (minInt ovf a b - min a b).natAbs ≤ (min a b).natAbs) := by
  have err : ∀ x : Int, 2 ^ 53 * (toF64 x - x).natAbs ≤ x.natAbs := by
    intro x
    unfold toF64
    split
    · have := roundNat_error x.toNat
      omega
    · have := roundNat_error (-x).toNat
      omega
  have hmax : IsInt64 (max a b) := by unfold IsInt64 at *; omega
  have hmin : IsInt64 (min a b) := by unfold IsInt64 at *; omega
  constructor
  · intro h
    unfold maxInt
    rw [fmax_toF64, ofF64, if_pos ⟨(toF64_range hmax).1, h⟩]
    exact err _
  · intro h
    unfold minInt
    rw [fmin_toF64, ofF64, if_pos ⟨(toF64_range hmin).1, h⟩]
    exact err _

example : IsInt64 (2 ^ 60 + 1) := by unfold IsInt64; omega
example : toF64 (max (2 ^ 60 + 1) 3) < 2 ^ 63 ∧ maxInt ovfAmd64 (2 ^ 60 + 1) 3 = 2 ^ 60 := by decide +kernel

/-- C35, exactly: among 64-bit ints whose rounded maximum is below `2^63` the result is right if and only if the true maximum has at most 53
significant bits; the minimum likewise. -/
theorem C35_iff (ovf : Int → Int) (a b : Int) (ha : IsInt64 a) (hb : IsInt64 b) :
    (toF64 (max a b) < 2 ^ 63 → (maxInt ovf a b = max a b ↔ Representable (max a b))) ∧
    (toF64 (min a b) < 2 ^ 63 → (minInt ovf a b = min a b ↔ Representable (min a b))) := by
  have hmax : IsInt64 (max a b) := by unfold IsInt64 at *; omega
  have hmin : IsInt64 (min a b) := by unfold IsInt64 at *; omega
  constructor
  · intro h
    unfold maxInt
    rw [fmax_toF64, ofF64, if_pos ⟨(toF64_range hmax).1, h⟩, toF64_fix]
  · intro h
    unfold minInt
    rw [fmin_toF64, ofF64, if_pos ⟨(toF64_range hmin).1, h⟩, toF64_fix]

/-- C35 on amd64, with no condition on the arguments: all four functions are right if and only if the true answer has at most 53 significant
bits. -/
theorem C35_iff_amd64 (a b : Int) (ha : IsInt64 a) (hb : IsInt64 b) :
    (maxInt ovfAmd64 a b = max a b ↔ Representable (max a b)) ∧ (minInt ovfAmd64 a b = min a b ↔ Representable (min a b)) ∧
    (maxInt64 ovfAmd64 a b = max a b ↔ Representable (max a b)) ∧ (minInt64 ovfAmd64 a b = min a b ↔ Representable (min a b)) := by
  have key : ∀ x, IsInt64 x → (ofF64 ovfAmd64 (toF64 x) = x ↔ Representable x) := by
    intro x hx
    rw [← toF64_fix]
    unfold ofF64
    split
    · rfl
    · rename_i h
      have h1 : 2 ^ 63 ≤ toF64 x := by have := (toF64_range hx).1; omega
      have h2 : x ≠ -2 ^ 63 := by
        rintro rfl
        exact absurd h1 (by decide +kernel)
      unfold ovfAmd64 IsInt64 at *
      constructor
      · intro h3; omega
      · intro h3; omega
  have hmax : IsInt64 (max a b) := by unfold IsInt64 at *; omega
  have hmin : IsInt64 (min a b) := by unfold IsInt64 at *; omega
  unfold maxInt minInt maxInt64 minInt64
  rw [fmax_toF64, fmin_toF64]
  exact ⟨key _ hmax, key _ hmin, key _ hmax, key _ hmin⟩

/-- `2^62 + 2^20` has 43 significant bits, `2^53 + 1` has 54. -/
example : Representable (2 ^ 62 + 2 ^ 20) ∧ ¬ Representable (2 ^ 53 + 1) :=
  ⟨⟨2 ^ 42 + 1, 20, by decide +kernel, by decide +kernel⟩, fun h => absurd ((toF64_fix _).2 h) (by decide +kernel)⟩
/-- C35: the four functions are commutative for all arguments. -/
theorem C35_commutative (ovf : Int → Int) (a b : Int) :
    maxInt ovf a b = maxInt ovf b a ∧ minInt ovf a b = minInt ovf b a := by
  unfold maxInt minInt
  rw [fmax_toF64, fmax_toF64, fmin_toF64, fmin_toF64, Int.max_comm, Int.min_comm]
  exact ⟨rfl, rfl⟩

example : maxInt ovfAmd64 (-7) (2 ^ 53) = 2 ^ 53 ∧ minInt ovfAmd64 (-7) 12 = -7 := by decide +kernel
example : toF64 (max (2 ^ 60 + 1) 3) < 2 ^ 63 := by decide +kernel

/-! ## C36 -/

/-- What a correct `Max` on a float format must do (`p` mantissa bits, `inf` the key of infinity). -/
structure MaxSpec (p inf : Nat) (x y r : Flt) : Prop where
  /-- +Inf wins over everything, NaN included -/
  posInf : x = ⟨false, inf⟩ ∨ y = ⟨false, inf⟩ → r = ⟨false, inf⟩
  /-- otherwise NaN is contagious, and never appears from numbers -/
  nan : (x ≠ ⟨false, inf⟩ ∧ y ≠ ⟨false, inf⟩) → (IsNaN inf r ↔ IsNaN inf x ∨ IsNaN inf y)
  /-- on numbers the result is one of the arguments and at least both -/
  num : ¬ IsNaN inf x → ¬ IsNaN inf y → (r = x ∨ r = y) ∧ val p x ≤ val p r ∧ val p y ≤ val p r
  /-- of two zeros the positive one is chosen -/
  zero : x.key = 0 → y.key = 0 → r = ⟨x.sign && y.sign, 0⟩

/-- Specification of the minimum (xmath.go: Go's `math.Min`). -/
structure MinSpec (p inf : Nat) (x y r : Flt) : Prop where
  negInf : x = ⟨true, inf⟩ ∨ y = ⟨true, inf⟩ → r = ⟨true, inf⟩
  nan : (x ≠ ⟨true, inf⟩ ∧ y ≠ ⟨true, inf⟩) → (IsNaN inf r ↔ IsNaN inf x ∨ IsNaN inf y)
  num : ¬ IsNaN inf x → ¬ IsNaN inf y → (r = x ∨ r = y) ∧ val p r ≤ val p x ∧ val p r ≤ val p y
  zero : x.key = 0 → y.key = 0 → r = ⟨x.sign || y.sign, 0⟩

theorem val_le_posInf (p inf : Nat) (x : Flt) (h : ¬ IsNaN inf x) : val p x ≤ val p ⟨false, inf⟩ := by
  simp only [IsNaN] at h
  have : mag p x.key ≤ mag p inf := by
    rcases Nat.lt_or_ge x.key inf with h' | h'
    · exact Nat.le_of_lt (mag_strictMono h')
    · rw [show x.key = inf by omega]; exact Nat.le_refl _
  unfold val; cases x.sign <;> simp <;> omega

theorem negInf_le_val (p inf : Nat) (x : Flt) (h : ¬ IsNaN inf x) : val p ⟨true, inf⟩ ≤ val p x := by
  simp only [IsNaN] at h
  have : mag p x.key ≤ mag p inf := by
    rcases Nat.lt_or_ge x.key inf with h' | h'
    · exact Nat.le_of_lt (mag_strictMono h')
    · rw [show x.key = inf by omega]; exact Nat.le_refl _
  unfold val; cases x.sign <;> simp <;> omega

/-- C36: `MaxFloat64` meets the IEEE rules for all pairs of bit patterns. -/
theorem C36_maxFloat64 (x y : Flt) : MaxSpec 52 inf64 x y (maxFloat64 x y) := by
  have hn : IsNaN inf64 nan64 := by decide
  constructor
  · intro h; simp [maxFloat64, goMax, h]
  · rintro ⟨h1, h2⟩
    unfold maxFloat64 goMax
    rw [if_neg (by simp [h1, h2])]
    split
    · rename_i h; simp [h, hn]
    · rename_i h
      simp only [not_or] at h
      split
      · split <;> simp [h]
      · split <;> simp [h]
  · intro hx hy
    unfold maxFloat64 goMax
    split
    · rename_i h
      refine ⟨?_, val_le_posInf _ _ _ hx, val_le_posInf _ _ _ hy⟩
      rcases h with h | h
      · exact Or.inl h.symm
      · exact Or.inr h.symm
    · rw [if_neg (by simp [hx, hy])]
      split
      · rename_i h; split <;> simp <;> omega
      · split
        · rename_i h; unfold Gt64 at h; simp; omega
        · rename_i h; unfold Gt64 at h; simp [hx, hy] at h; simp; omega
  · intro hx hy
    cases x with | mk s k => cases y with | mk s' k' =>
    simp only at hx hy; subst hx; subst hy
    cases s <;> cases s' <;> decide +kernel

example : maxFloat64 ⟨false, 1023 * 2 ^ 52⟩ ⟨true, 1024 * 2 ^ 52⟩ = ⟨false, 1023 * 2 ^ 52⟩ ∧ maxFloat64 ⟨true, 0⟩ ⟨false, 0⟩ = ⟨false, 0⟩ := by decide +kernel

theorem C36_minFloat64 (x y : Flt) : MinSpec 52 inf64 x y (minFloat64 x y) := by
  have hn : IsNaN inf64 nan64 := by decide
  constructor
  · intro h; simp [minFloat64, goMin, h]
  · rintro ⟨h1, h2⟩
    unfold minFloat64 goMin
    rw [if_neg (by simp [h1, h2])]
    split
    · rename_i h; simp [h, hn]
    · rename_i h
      simp only [not_or] at h
      split
      · split <;> simp [h]
      · split <;> simp [h]
  · intro hx hy
    unfold minFloat64 goMin
    split
    · rename_i h
      refine ⟨?_, negInf_le_val _ _ _ hx, negInf_le_val _ _ _ hy⟩
      rcases h with h | h
      · exact Or.inl h.symm
      · exact Or.inr h.symm
    · rw [if_neg (by simp [hx, hy])]
      split
      · rename_i h; split <;> simp <;> omega
      · split
        · rename_i h; unfold Gt64 at h; simp; omega
        · rename_i h; unfold Gt64 at h; simp [hx, hy] at h; simp; omega
  · intro hx hy
    cases x with | mk s k => cases y with | mk s' k' =>
    simp only at hx hy; subst hx; subst hy
    cases s <;> cases s' <;> decide +kernel

example : minFloat64 ⟨false, 1023 * 2 ^ 52⟩ ⟨true, 1024 * 2 ^ 52⟩ = ⟨true, 1024 * 2 ^ 52⟩ ∧ minFloat64 ⟨false, 0⟩ ⟨true, 0⟩ = ⟨true, 0⟩ := by decide +kernel

/-- C36: commutative, bit for bit. -/
theorem C36_commutative64 (x y : Flt) :
    maxFloat64 x y = maxFloat64 y x ∧ minFloat64 x y = minFloat64 y x := by
  have hz : ∀ z : Flt, val 52 z = 0 → z.key = 0 := by
    intro z h; apply (mag_eq_zero (p := 52)).mp; unfold val at h; split at h <;> omega
  constructor
  · unfold maxFloat64 goMax
    by_cases hi : x = ⟨false, inf64⟩ ∨ y = ⟨false, inf64⟩
    · have hi' := hi.symm
      rw [if_pos hi, if_pos hi']
    · have hi' : ¬ (y = ⟨false, inf64⟩ ∨ x = ⟨false, inf64⟩) := fun h => hi h.symm
      rw [if_neg hi, if_neg hi']
      by_cases hn : IsNaN inf64 x ∨ IsNaN inf64 y
      · have hn' := hn.symm
        rw [if_pos hn, if_pos hn']
      · have hn' : ¬ (IsNaN inf64 y ∨ IsNaN inf64 x) := fun h => hn h.symm
        rw [if_neg hn, if_neg hn']
        simp only [not_or] at hn
        by_cases h0 : val 52 x = 0 ∧ val 52 x = val 52 y
        · have h0' : val 52 y = 0 ∧ val 52 y = val 52 x := by omega
          rw [if_pos h0, if_pos h0']
          have hx := hz x h0.1
          have hy := hz y (by omega)
          cases x with | mk s k => cases y with | mk s' k' =>
          simp only at hx hy; subst hx; subst hy
          cases s <;> cases s' <;> simp
        · have h0' : ¬ (val 52 y = 0 ∧ val 52 y = val 52 x) := by omega
          rw [if_neg h0, if_neg h0']
          unfold Gt64
          simp only [hn, not_false_eq_true, true_and]
          rcases Int.lt_trichotomy (val 52 x) (val 52 y) with h | h | h
          · have h' : ¬ val 52 y < val 52 x := by omega
            simp [h, h']
          · have : x = y := val_inj h (by omega)
            subst this; simp
          · have h' : ¬ val 52 x < val 52 y := by omega
            simp [h, h']
  · unfold minFloat64 goMin
    by_cases hi : x = ⟨true, inf64⟩ ∨ y = ⟨true, inf64⟩
    · have hi' := hi.symm
      rw [if_pos hi, if_pos hi']
    · have hi' : ¬ (y = ⟨true, inf64⟩ ∨ x = ⟨true, inf64⟩) := fun h => hi h.symm
      rw [if_neg hi, if_neg hi']
      by_cases hn : IsNaN inf64 x ∨ IsNaN inf64 y
      · have hn' := hn.symm
        rw [if_pos hn, if_pos hn']
      · have hn' : ¬ (IsNaN inf64 y ∨ IsNaN inf64 x) := fun h => hn h.symm
        rw [if_neg hn, if_neg hn']
        simp only [not_or] at hn
        by_cases h0 : val 52 x = 0 ∧ val 52 x = val 52 y
        · have h0' : val 52 y = 0 ∧ val 52 y = val 52 x := by omega
          rw [if_pos h0, if_pos h0']
          have hx := hz x h0.1
          have hy := hz y (by omega)
          cases x with | mk s k => cases y with | mk s' k' =>
          simp only at hx hy; subst hx; subst hy
          cases s <;> cases s' <;> simp
        · have h0' : ¬ (val 52 y = 0 ∧ val 52 y = val 52 x) := by omega
          rw [if_neg h0, if_neg h0']
          unfold Gt64
          simp only [hn, not_false_eq_true, true_and]
          rcases Int.lt_trichotomy (val 52 x) (val 52 y) with h | h | h
          · have h' : ¬ val 52 y < val 52 x := by omega
            simp [h, h']
          · have : x = y := val_inj h (by omega)
            subst this; simp
          · have h' : ¬ val 52 x < val 52 y := by omega
            simp [h, h']

example : maxFloat64 ⟨true, 0⟩ ⟨false, 0⟩ = maxFloat64 ⟨false, 0⟩ ⟨true, 0⟩ ∧ (⟨true, 0⟩ : Flt) ≠ ⟨false, 0⟩ := by decide +kernel

theorem widen_eq_inf {x : Flt} {s : Bool} : widen x = ⟨s, inf64⟩ ↔ x = ⟨s, inf32⟩ := by
  constructor
  · intro h
    by_cases hn : IsNaN inf32 x
    · have := (widen_isNaN x).mpr hn
      rw [h] at this; simp [IsNaN] at this
    · have h2 := narrow_widen hn
      rw [h] at h2
      rw [← h2]; simp [narrow, IsNaN]
  · rintro rfl; simp [widen]

theorem narrow_isNaN (z : Flt) : IsNaN inf32 (narrow z) ↔ IsNaN inf64 z := by
  unfold narrow
  split
  · rename_i h; simp [h]; decide
  · rename_i h
    split
    · simp [IsNaN]; simp only [IsNaN] at h; omega
    · simp only [IsNaN] at *
      constructor
      · intro h'; omega
      · intro h'; omega

/-- C36: `MaxFloat32` meets the same rules in `float32`: going through `float64` loses nothing. -/
theorem C36_maxFloat32 (x y : Flt) : MaxSpec 23 inf32 x y (maxFloat32 x y) := by
  have S := C36_maxFloat64 (widen x) (widen y)
  unfold maxFloat64 at S
  have hzero : ∀ s, widen ⟨s, 0⟩ = ⟨s, 0⟩ := by intro s; cases s <;> decide +kernel
  constructor
  · intro h
    unfold maxFloat32
    rw [S.posInf (by rw [widen_eq_inf, widen_eq_inf]; exact h)]
    simp [narrow, IsNaN]
  · rintro ⟨h1, h2⟩
    unfold maxFloat32
    rw [narrow_isNaN, S.nan (by simp [widen_eq_inf, h1, h2]), widen_isNaN, widen_isNaN]
  · intro hx hy
    obtain ⟨h1, h2, h3⟩ := S.num (by rw [widen_isNaN]; exact hx) (by rw [widen_isNaN]; exact hy)
    unfold maxFloat32
    rcases h1 with h1 | h1
    · rw [h1] at h2 h3 ⊢
      rw [narrow_widen hx]
      refine ⟨Or.inl rfl, by omega, ?_⟩
      have := widen_lt_iff hx hy; omega
    · rw [h1] at h2 h3 ⊢
      rw [narrow_widen hy]
      refine ⟨Or.inr rfl, ?_, by omega⟩
      have := widen_lt_iff hy hx; omega
  · intro hx hy
    cases x with | mk s k => cases y with | mk s' k' =>
    simp only at hx hy; subst hx; subst hy
    unfold maxFloat32
    have h := (C36_maxFloat64 ⟨s, 0⟩ ⟨s', 0⟩).zero rfl rfl
    unfold maxFloat64 at h
    have h2 : ∀ b, narrow ⟨b, 0⟩ = ⟨b, 0⟩ := by intro b; cases b <;> decide +kernel
    rw [hzero, hzero, h, h2]

example : maxFloat32 ⟨false, 127 * 2 ^ 23⟩ ⟨true, 128 * 2 ^ 23⟩ = ⟨false, 127 * 2 ^ 23⟩ ∧ maxFloat32 ⟨true, 1⟩ ⟨true, 0⟩ = ⟨true, 0⟩ := by decide +kernel

theorem C36_minFloat32 (x y : Flt) : MinSpec 23 inf32 x y (minFloat32 x y) := by
  have S := C36_minFloat64 (widen x) (widen y)
  unfold minFloat64 at S
  have hzero : ∀ s, widen ⟨s, 0⟩ = ⟨s, 0⟩ := by intro s; cases s <;> decide +kernel
  constructor
  · intro h
    unfold minFloat32
    rw [S.negInf (by rw [widen_eq_inf, widen_eq_inf]; exact h)]
    simp [narrow, IsNaN]
  · rintro ⟨h1, h2⟩
    unfold minFloat32
    rw [narrow_isNaN, S.nan (by simp [widen_eq_inf, h1, h2]), widen_isNaN, widen_isNaN]
  · intro hx hy
    obtain ⟨h1, h2, h3⟩ := S.num (by rw [widen_isNaN]; exact hx) (by rw [widen_isNaN]; exact hy)
    unfold minFloat32
    rcases h1 with h1 | h1
    · rw [h1] at h2 h3 ⊢
      rw [narrow_widen hx]
      refine ⟨Or.inl rfl, by omega, ?_⟩
      have := widen_lt_iff hy hx; omega
    · rw [h1] at h2 h3 ⊢
      rw [narrow_widen hy]
      refine ⟨Or.inr rfl, ?_, by omega⟩
      have := widen_lt_iff hx hy; omega
  · intro hx hy
    cases x with | mk s k => cases y with | mk s' k' =>
    simp only at hx hy; subst hx; subst hy
    unfold minFloat32
    have h := (C36_minFloat64 ⟨s, 0⟩ ⟨s', 0⟩).zero rfl rfl
    unfold minFloat64 at h
    have h2 : ∀ b, narrow ⟨b, 0⟩ = ⟨b, 0⟩ := by intro b; cases b <;> decide +kernel
    rw [hzero, hzero, h, h2]

example : minFloat32 ⟨false, 127 * 2 ^ 23⟩ ⟨true, 128 * 2 ^ 23⟩ = ⟨true, 128 * 2 ^ 23⟩ ∧ minFloat32 ⟨true, 1⟩ ⟨true, 0⟩ = ⟨true, 1⟩ := by decide +kernel

theorem C36_commutative32 (x y : Flt) :
    maxFloat32 x y = maxFloat32 y x ∧ minFloat32 x y = minFloat32 y x := by
  have h := C36_commutative64 (widen x) (widen y)
  unfold maxFloat64 minFloat64 at h
  exact ⟨congrArg narrow h.1, congrArg narrow h.2⟩

/-- Non-trivial instances: 1.0 vs 2.0, a subnormal float32 against zero, NaN against a number. -/
example : maxFloat64 ⟨false, 1023 * 2 ^ 52⟩ ⟨false, 1024 * 2 ^ 52⟩ = ⟨false, 1024 * 2 ^ 52⟩ := by decide +kernel
example : maxFloat32 ⟨false, 1⟩ ⟨true, 0⟩ = ⟨false, 1⟩ := by decide +kernel
example : IsNaN inf64 (maxFloat64 nan64 ⟨false, 1023 * 2 ^ 52⟩) := by decide +kernel

end Verif.XMath
