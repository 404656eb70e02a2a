import Verif.XMath.Model
/-!
# Model of the float functions of `xmath/xmath.go` and of `math.Max` / `math.Min`

A float is its bit pattern split into the sign bit and the remaining bits (`key`: exponent field and mantissa
together). `p` is the number of mantissa bits (52 for `float64`, 23 for `float32`).
-/
namespace Verif.XMath
set_option exponentiation.threshold 1000

/-- A float: sign bit and the other bits read as a number. -/
structure Flt where
  sign : Bool
  key : Nat
  deriving DecidableEq, Repr

/-- Magnitude of a finite float with `p` mantissa bits, in units of its smallest positive subnormal (IEEE-754
decoding: exponent field 0 is subnormal, otherwise an implicit leading one). For the key of infinity this is a number
above all finite magnitudes, so comparisons come out right for infinities too. -/
def mag (p key : Nat) : Nat :=
  if key / 2 ^ p = 0 then key % 2 ^ p else (2 ^ p + key % 2 ^ p) * 2 ^ (key / 2 ^ p - 1)

/-- The key of infinity in `float64` and `float32`. -/
def inf64 : Nat := 2047 * 2 ^ 52
/-- The key of the infinity of `float32`. -/
def inf32 : Nat := 255 * 2 ^ 23

/-- Signed value in units of the smallest subnormal. -/
def val (p : Nat) (x : Flt) : Int := if x.sign then -(mag p x.key : Int) else (mag p x.key : Int)

/-- `math.IsNaN` for a format whose infinity has key `inf`. -/
def IsNaN (inf : Nat) (x : Flt) : Prop := inf < x.key
instance (inf : Nat) (x : Flt) : Decidable (IsNaN inf x) := inferInstanceAs (Decidable (inf < x.key))

/-- `math.NaN()` = 0x7FF8000000000001. -/
def nan64 : Flt := ⟨false, 0x7FF8000000000001⟩

/-- Go's `x > y` on float64 values (false if one is NaN). -/
def Gt64 (x y : Flt) : Prop := ¬ IsNaN inf64 x ∧ ¬ IsNaN inf64 y ∧ val 52 x > val 52 y
instance (x y : Flt) : Decidable (Gt64 x y) := by unfold Gt64; infer_instance

/-- Go's `math.Max` (math/dim.go). -/
def goMax (x y : Flt) : Flt :=
  if x = ⟨false, inf64⟩ ∨ y = ⟨false, inf64⟩ then ⟨false, inf64⟩
  else if IsNaN inf64 x ∨ IsNaN inf64 y then nan64
  else if val 52 x = 0 ∧ val 52 x = val 52 y then (if x.sign then y else x)
  else if Gt64 x y then x else y

/-- Go's `math.Min` (math/dim.go). -/
def goMin (x y : Flt) : Flt :=
  if x = ⟨true, inf64⟩ ∨ y = ⟨true, inf64⟩ then ⟨true, inf64⟩
  else if IsNaN inf64 x ∨ IsNaN inf64 y then nan64
  else if val 52 x = 0 ∧ val 52 x = val 52 y then (if x.sign then x else y)
  else if Gt64 y x then x else y

/-- `v / 2^k` rounded to nearest, ties to even. -/
def roundShift (v k : Nat) : Nat :=
  let q := v / 2 ^ k
  let r := v % 2 ^ k
  if 2 * r > 2 ^ k ∨ (2 * r = 2 ^ k ∧ q % 2 = 1) then q + 1 else q

/-- Key of the float with `p` mantissa bits nearest to `v / 2^sh` units (IEEE rounding, gradual underflow; the result
can reach or pass the key of infinity on overflow). -/
def encode (p sh v : Nat) : Nat :=
  let k := Nat.log2 v - sh - p
  k * 2 ^ p + roundShift v (sh + k)

/-- `float64(x)` of a `float32`: one `float32` unit is `2^925` `float64` units. -/
def widen (x : Flt) : Flt :=
  if x.key = inf32 then ⟨x.sign, inf64⟩
  else if IsNaN inf32 x then nan64
  else ⟨x.sign, encode 52 0 (mag 23 x.key * 2 ^ 925)⟩

/-- `float32(x)` of a `float64`. -/
def narrow (x : Flt) : Flt :=
  if IsNaN inf64 x then ⟨false, 0x7FC00000⟩
  else if x.key = inf64 then ⟨x.sign, inf32⟩
  else ⟨x.sign, min inf32 (encode 23 925 (mag 52 x.key))⟩

/-- xmath.go:42-44 `MaxFloat64` -/
def maxFloat64 (a b : Flt) : Flt := goMax a b
/-- xmath.go:47-49 `MinFloat64` -/
def minFloat64 (a b : Flt) : Flt := goMin a b
/-- xmath.go:52-54 `MaxFloat32` -/
def maxFloat32 (a b : Flt) : Flt := narrow (goMax (widen a) (widen b))
/-- xmath.go:57-59 `MinFloat32` -/
def minFloat32 (a b : Flt) : Flt := narrow (goMin (widen a) (widen b))

/-! ## Lemmas -/

theorem mag_pos_form {p key : Nat} (h : key / 2 ^ p ≠ 0) :
    mag p key = (2 ^ p + key % 2 ^ p) * 2 ^ (key / 2 ^ p - 1) := by simp [mag, h]

theorem div_mod_add {P d m : Nat} (hm : m < P) : (P * d + m) / P = d ∧ (P * d + m) % P = m := by
  have hp : 0 < P := by omega
  rw [Nat.mul_add_div hp, Nat.div_eq_of_lt hm, Nat.mul_add_mod, Nat.mod_eq_of_lt hm]
  exact ⟨rfl, rfl⟩

theorem exists_div_mod (key p : Nat) : ∃ d m, key = 2 ^ p * d + m ∧ m < 2 ^ p :=
  ⟨key / 2 ^ p, key % 2 ^ p, (Nat.div_add_mod _ _).symm, Nat.mod_lt _ (Nat.pow_pos (by decide))⟩

theorem mag_form {p d m : Nat} (hm : m < 2 ^ p) :
    mag p (2 ^ p * d + m) = if d = 0 then m else (2 ^ p + m) * 2 ^ (d - 1) := by
  unfold mag
  rw [(div_mod_add hm).1, (div_mod_add hm).2]

/-- Magnitude grows strictly with the key. -/
theorem mag_succ (p key : Nat) : mag p key < mag p (key + 1) := by
  have hp : 0 < 2 ^ p := Nat.pow_pos (by decide)
  obtain ⟨d, m, rfl, hm⟩ := exists_div_mod key p
  rw [mag_form hm]
  by_cases hc : m + 1 = 2 ^ p
  · -- carry into the exponent
    have e : 2 ^ p * d + m + 1 = 2 ^ p * (d + 1) + 0 := by rw [Nat.mul_add]; omega
    rw [e, mag_form hp, if_neg (Nat.succ_ne_zero d)]
    by_cases h : d = 0
    · subst h; simp; omega
    · rw [if_neg h]
      have : 2 ^ (d + 1 - 1) = 2 * 2 ^ (d - 1) := by
        rw [← Nat.pow_succ', show d + 1 - 1 = (d - 1) + 1 by omega]
      rw [this, ← Nat.mul_assoc]
      exact Nat.mul_lt_mul_of_pos_right (by omega) (Nat.pow_pos (by decide))
  · rw [Nat.add_assoc, mag_form (m := m + 1) (by omega)]
    split
    · omega
    · exact Nat.mul_lt_mul_of_pos_right (by omega) (Nat.pow_pos (by decide))

theorem mag_strictMono {p a b : Nat} (h : a < b) : mag p a < mag p b := by
  induction h with
  | refl => exact mag_succ p a
  | step _ ih => exact Nat.lt_trans ih (mag_succ p _)

theorem mag_lt_iff {p a b : Nat} : mag p a < mag p b ↔ a < b := by
  constructor
  · intro h
    rcases Nat.lt_trichotomy a b with h' | h' | h'
    · exact h'
    · subst h'; omega
    · have := mag_strictMono (p := p) h'; omega
  · exact mag_strictMono

theorem mag_inj {p a b : Nat} (h : mag p a = mag p b) : a = b := by
  rcases Nat.lt_trichotomy a b with h' | h' | h'
  · have := mag_strictMono (p := p) h'; omega
  · exact h'
  · have := mag_strictMono (p := p) h'; omega

theorem mag_zero (p : Nat) : mag p 0 = 0 := by simp [mag]

theorem mag_eq_zero {p k : Nat} : mag p k = 0 ↔ k = 0 := by
  constructor
  · intro h; exact mag_inj (p := p) (by rw [h, mag_zero])
  · rintro rfl; exact mag_zero p

theorem val_inj {p : Nat} {x y : Flt} (h : val p x = val p y) (h0 : val p x ≠ 0) : x = y := by
  cases x with | mk s k => cases y with | mk s' k' =>
  unfold val at h h0
  simp only at h h0
  cases s <;> cases s' <;> simp at h h0
  · rw [mag_inj (Int.ofNat_inj.mp h)]
  · omega
  · omega
  · rw [mag_inj (Int.ofNat_inj.mp h)]

theorem roundShift_exact {v k : Nat} (w : Nat) (h : v = w * 2 ^ k) : roundShift v k = w := by
  have hp : 0 < 2 ^ k := Nat.pow_pos (by decide)
  subst h
  unfold roundShift
  rw [Nat.mul_mod_left, Nat.mul_div_cancel _ hp]
  simp only
  rw [if_neg (by omega)]

/-- Decomposition of a magnitude: significand and shift. -/
theorem mag_decomp (p key : Nat) : ∃ k q, key = k * 2 ^ p + q ∧ mag p key = q * 2 ^ k ∧
    (k ≠ 0 → 2 ^ p ≤ q) ∧ q < 2 ^ (p + 1) := by
  obtain ⟨d, m, rfl, hm⟩ := exists_div_mod key p
  have h2 : 2 ^ (p + 1) = 2 * 2 ^ p := Nat.pow_succ'
  rw [mag_form hm]
  by_cases h : d = 0
  · subst h
    exact ⟨0, m, by simp, by simp, by simp, by omega⟩
  · obtain ⟨c, rfl⟩ : ∃ c, d = c + 1 := ⟨d - 1, by omega⟩
    refine ⟨c, 2 ^ p + m, ?_, by simp, by omega, by omega⟩
    rw [Nat.mul_add, Nat.mul_comm]; omega

theorem log2_mul_pow {q k : Nat} (h : q ≠ 0) : Nat.log2 (q * 2 ^ k) = Nat.log2 q + k := by
  have h1 := Nat.log2_self_le h
  have h2 : q < 2 ^ (Nat.log2 q + 1) := Nat.lt_log2_self
  have hp : 0 < 2 ^ k := Nat.pow_pos (by decide)
  have hne : q * 2 ^ k ≠ 0 := by
    intro e; rcases Nat.mul_eq_zero.mp e with e | e <;> omega
  apply Nat.le_antisymm
  · have : q * 2 ^ k < 2 ^ (Nat.log2 q + k + 1) := by
      rw [show Nat.log2 q + k + 1 = (Nat.log2 q + 1) + k by omega, Nat.pow_add _ _ k]
      exact Nat.mul_lt_mul_of_pos_right h2 hp
    have := (Nat.log2_lt hne).mpr this
    omega
  · rw [Nat.le_log2 hne, Nat.pow_add]
    exact Nat.mul_le_mul_right _ h1

/-- Encoding an exactly representable value gives back its key. -/
theorem encode_mag (p sh key : Nat) : encode p sh (mag p key * 2 ^ sh) = key := by
  obtain ⟨k, q, hk, hm, hq1, hq2⟩ := mag_decomp p key
  rw [hm]
  by_cases h0 : q = 0
  · have hk0 : k = 0 := by
      by_cases hk0 : k = 0
      · exact hk0
      · have := hq1 hk0; have : 0 < 2 ^ p := Nat.pow_pos (by decide); omega
    subst h0; subst hk0
    simp [encode, roundShift] at *
    omega
  · have hl : Nat.log2 (q * 2 ^ k * 2 ^ sh) = Nat.log2 q + k + sh := by
      rw [Nat.mul_assoc, ← Nat.pow_add, log2_mul_pow h0]; omega
    have hlq : Nat.log2 q ≤ p := by
      have := (Nat.log2_lt h0).mpr hq2; omega
    have hkk : Nat.log2 (q * 2 ^ k * 2 ^ sh) - sh - p = k := by
      rw [hl]
      by_cases hk0 : k = 0
      · omega
      · have := hq1 hk0
        have : p ≤ Nat.log2 q := (Nat.le_log2 h0).mpr this
        omega
    unfold encode
    simp only [hkk]
    rw [roundShift_exact q (by rw [Nat.mul_assoc, ← Nat.pow_add, Nat.add_comm])]
    exact hk.symm

/-- Every value `q·2^k` with a short enough significand is representable. -/
theorem mag_encode_exact {p q k : Nat} (hq2 : q < 2 ^ (p + 1)) :
    mag p (encode p 0 (q * 2 ^ k)) = q * 2 ^ k := by
  by_cases h0 : q = 0
  · subst h0; simp [encode, roundShift, mag]
  · have hlq : Nat.log2 q ≤ p := by
      have := (Nat.log2_lt h0).mpr hq2; omega
    have hself := Nat.log2_self_le h0
    have hlt : q < 2 ^ (Nat.log2 q + 1) := Nat.lt_log2_self
    -- normalise the significand
    obtain ⟨key, hkey⟩ : ∃ key, mag p key = q * 2 ^ k := by
      have hp : 0 < 2 ^ p := Nat.pow_pos (by decide)
      by_cases hs : k ≤ p - Nat.log2 q
      · by_cases hd : k = p - Nat.log2 q
        · -- significand fills exactly p+1 bits
          refine ⟨2 ^ p + (q * 2 ^ k - 2 ^ p), ?_⟩
          have h1 : 2 ^ p ≤ q * 2 ^ k := by
            rw [show p = Nat.log2 q + k by omega, Nat.pow_add]; exact Nat.mul_le_mul_right _ hself
          have h2 : q * 2 ^ k < 2 ^ p + 2 ^ p := by
            have : q * 2 ^ k < 2 ^ (Nat.log2 q + 1) * 2 ^ k :=
              Nat.mul_lt_mul_of_pos_right hlt (Nat.pow_pos (by decide))
            rw [← Nat.pow_add, show Nat.log2 q + 1 + k = p + 1 by omega, Nat.pow_succ] at this
            omega
          have e : 2 ^ p + (q * 2 ^ k - 2 ^ p) = 2 ^ p * 1 + (q * 2 ^ k - 2 ^ p) := by omega
          have hdiv : (2 ^ p + (q * 2 ^ k - 2 ^ p)) / 2 ^ p = 1 := by
            rw [e, Nat.mul_add_div hp, Nat.div_eq_of_lt (by omega)]
          have hmod : (2 ^ p + (q * 2 ^ k - 2 ^ p)) % 2 ^ p = q * 2 ^ k - 2 ^ p := by
            rw [e, Nat.mul_add_mod, Nat.mod_eq_of_lt (by omega)]
          rw [mag_pos_form (by omega), hdiv, hmod]
          simp; omega
        · refine ⟨q * 2 ^ k, ?_⟩
          have h2 : q * 2 ^ k < 2 ^ p := by
            have : q * 2 ^ k < 2 ^ (Nat.log2 q + 1) * 2 ^ k :=
              Nat.mul_lt_mul_of_pos_right hlt (Nat.pow_pos (by decide))
            rw [← Nat.pow_add] at this
            have : 2 ^ (Nat.log2 q + 1 + k) ≤ 2 ^ p := Nat.pow_le_pow_right (by decide) (by omega)
            omega
          simp [mag, Nat.div_eq_of_lt h2, Nat.mod_eq_of_lt h2]
      · generalize hd : p - Nat.log2 q = d at *
        generalize hj : k - d = j
        have hk : k = d + j := by omega
        have h1 : 2 ^ p ≤ q * 2 ^ d := by
          rw [show p = Nat.log2 q + d by omega, Nat.pow_add]; exact Nat.mul_le_mul_right _ hself
        have h2 : q * 2 ^ d < 2 ^ p + 2 ^ p := by
          have : q * 2 ^ d < 2 ^ (Nat.log2 q + 1) * 2 ^ d :=
            Nat.mul_lt_mul_of_pos_right hlt (Nat.pow_pos (by decide))
          rw [← Nat.pow_add, show Nat.log2 q + 1 + d = p + 1 by omega, Nat.pow_succ] at this
          omega
        refine ⟨2 ^ p * (j + 1) + (q * 2 ^ d - 2 ^ p), ?_⟩
        have hdiv : (2 ^ p * (j + 1) + (q * 2 ^ d - 2 ^ p)) / 2 ^ p = j + 1 := by
          rw [Nat.mul_add_div hp, Nat.div_eq_of_lt (by omega)]
        have hmod : (2 ^ p * (j + 1) + (q * 2 ^ d - 2 ^ p)) % 2 ^ p = q * 2 ^ d - 2 ^ p := by
          rw [Nat.mul_add_mod, Nat.mod_eq_of_lt (by omega)]
        rw [mag_pos_form (by omega), hdiv, hmod, hk, Nat.pow_add, ← Nat.mul_assoc]
        congr 1; omega
    have := encode_mag p 0 key
    rw [hkey] at this
    simp only [Nat.pow_zero, Nat.mul_one] at this
    rw [this, hkey]

/-- The number of `float64` units in a `float32` unit. -/
theorem unit_pos : 0 < 2 ^ 925 := Nat.pow_pos (by decide)

theorem mag_widen (key : Nat) : mag 52 (encode 52 0 (mag 23 key * 2 ^ 925)) = mag 23 key * 2 ^ 925 := by
  obtain ⟨k, q, hk, hm, hq1, hq2⟩ := mag_decomp 23 key
  rw [hm, Nat.mul_assoc, ← Nat.pow_add]
  exact mag_encode_exact (Nat.lt_of_lt_of_le hq2 (by decide))

theorem widen_key_lt {key : Nat} (h : key < inf32) : encode 52 0 (mag 23 key * 2 ^ 925) < inf64 := by
  rw [← mag_lt_iff (p := 52), mag_widen]
  have h1 : mag 23 key < mag 23 inf32 := mag_strictMono h
  have h2 : mag 23 inf32 * 2 ^ 925 ≤ mag 52 inf64 := by decide +kernel
  exact Nat.lt_of_lt_of_le (Nat.mul_lt_mul_of_pos_right h1 unit_pos) h2

theorem widen_isNaN (x : Flt) : IsNaN inf64 (widen x) ↔ IsNaN inf32 x := by
  unfold widen
  split
  · rename_i h; simp [IsNaN, h]
  · split
    · rename_i h; simp [h]; decide
    · rename_i h1 h2
      have : x.key < inf32 := by unfold IsNaN at h2; omega
      have := widen_key_lt this
      simp only [IsNaN] at *
      omega

theorem narrow_widen {x : Flt} (h : ¬ IsNaN inf32 x) : narrow (widen x) = x := by
  cases x with | mk s key =>
  have hw := widen_isNaN ⟨s, key⟩
  unfold narrow
  rw [if_neg (by rw [hw]; exact h)]
  unfold widen
  by_cases hk : key = inf32
  · subst hk; simp
  · have hlt : key < inf32 := by simp only [IsNaN] at h; omega
    have hl := widen_key_lt hlt
    simp only [hk, if_false, h]
    rw [if_neg (by omega), mag_widen, encode_mag]
    congr 1; omega

theorem widen_sign {x : Flt} (h : ¬ IsNaN inf32 x) : (widen x).sign = x.sign := by
  unfold widen; split
  · rfl
  · rfl

/-- Value of a widened finite float: the same number in finer units. -/
theorem val_widen {x : Flt} (h : x.key < inf32) : val 52 (widen x) = val 23 x * 2 ^ 925 := by
  have h1 : x.key ≠ inf32 := by omega
  have h2 : ¬ IsNaN inf32 x := by simp only [IsNaN]; omega
  unfold widen
  rw [if_neg h1, if_neg h2]
  simp only [val, mag_widen]
  split
  · rw [Int.natCast_mul, Int.neg_mul]; simp
  · rw [Int.natCast_mul]; simp

/-- Widening keeps the order. -/
theorem widen_lt_iff {x y : Flt} (hx : ¬ IsNaN inf32 x) (hy : ¬ IsNaN inf32 y) :
    val 52 (widen x) < val 52 (widen y) ↔ val 23 x < val 23 y := by
  -- magnitudes, as an order embedding on keys up to infinity
  have key : ∀ x : Flt, ¬ IsNaN inf32 x → ∃ k, (widen x) = ⟨x.sign, k⟩ ∧
      (x.key = inf32 ∧ k = inf64 ∨ x.key < inf32 ∧ k < inf64 ∧ mag 52 k = mag 23 x.key * 2 ^ 925) := by
    intro x h
    by_cases hk : x.key = inf32
    · exact ⟨inf64, by simp [widen, hk], Or.inl ⟨hk, rfl⟩⟩
    · have hlt : x.key < inf32 := by simp only [IsNaN] at h; omega
      exact ⟨_, by simp [widen, hk, h], Or.inr ⟨hlt, widen_key_lt hlt, mag_widen _⟩⟩
  obtain ⟨kx, ex, hx'⟩ := key x hx
  obtain ⟨ky, ey, hy'⟩ := key y hy
  have hz : ∀ x k, (x = inf32 ∧ k = inf64 ∨ x < inf32 ∧ k < inf64 ∧ mag 52 k = mag 23 x * 2 ^ 925) →
      (mag 52 k = 0 ↔ mag 23 x = 0) := by
    intro x k h
    rcases h with ⟨rfl, rfl⟩ | ⟨_, _, h⟩
    · rw [mag_eq_zero, mag_eq_zero]; decide
    · rw [h]; constructor
      · intro h
        rcases Nat.mul_eq_zero.mp h with h | h
        · exact h
        · exact absurd h (Nat.ne_of_gt (Nat.pow_pos (by decide)))
      · intro h; rw [h, Nat.zero_mul]
  have hlt : ∀ x y k l, (x = inf32 ∧ k = inf64 ∨ x < inf32 ∧ k < inf64 ∧ mag 52 k = mag 23 x * 2 ^ 925) →
      (y = inf32 ∧ l = inf64 ∨ y < inf32 ∧ l < inf64 ∧ mag 52 l = mag 23 y * 2 ^ 925) →
      (mag 52 k < mag 52 l ↔ mag 23 x < mag 23 y) := by
    intro x y k l h h'
    rcases h with ⟨rfl, rfl⟩ | ⟨h1, h2, h⟩ <;> rcases h' with ⟨rfl, rfl⟩ | ⟨h1', h2', h'⟩
    · simp
    · rw [mag_lt_iff, mag_lt_iff]; omega
    · rw [mag_lt_iff, mag_lt_iff]; omega
    · rw [h, h']; exact Nat.mul_lt_mul_right (Nat.pow_pos (by decide))
  have zx := hz _ _ hx'
  have zy := hz _ _ hy'
  have lxy := hlt _ _ _ _ hx' hy'
  have lyx := hlt _ _ _ _ hy' hx'
  rw [ex, ey]
  simp only [val]
  cases x.sign <;> cases y.sign <;> simp <;> omega

end Verif.XMath
