import Verif.XMath.Model
/-! # Lemmas about rounding -/
namespace Verif.XMath
open Verif.Go

theorem roundNat_small {m : Nat} (h : m < 2 ^ 53) : roundNat m = m := by simp [roundNat, h]

/-- For large `m`: with `e` the number of dropped bits and `q` the kept ones. -/
theorem roundNat_large {m : Nat} (h : ¬ m < 2 ^ 53) :
    ∃ e q, 1 ≤ e ∧ q * 2 ^ e ≤ m ∧ m < (q + 1) * 2 ^ e ∧ 2 ^ 52 ≤ q ∧ q < 2 ^ 53 ∧ e = Nat.log2 m - 52 ∧
      q = m / 2 ^ e ∧ (roundNat m = q * 2 ^ e ∨ roundNat m = (q + 1) * 2 ^ e) ∧
      (roundNat m = if 2 * (m - q * 2 ^ e) > 2 ^ e ∨ (2 * (m - q * 2 ^ e) = 2 ^ e ∧ q % 2 = 1)
        then (q + 1) * 2 ^ e else q * 2 ^ e) := by
  have hne : m ≠ 0 := by rintro rfl; simp at h
  have h1 : 53 ≤ Nat.log2 m := by
    rcases Nat.lt_or_ge (Nat.log2 m) 53 with hlt | hge
    · exact absurd ((Nat.log2_lt hne).mp hlt) h
    · exact hge
  have hself : 2 ^ Nat.log2 m ≤ m := Nat.log2_self_le hne
  have hlt : m < 2 ^ (Nat.log2 m + 1) := Nat.lt_log2_self
  generalize hL : Nat.log2 m = L at *
  have hpow : 0 < 2 ^ (L - 52) := Nat.pow_pos (by decide)
  have hdm := Nat.div_add_mod m (2 ^ (L - 52))
  have hmod := Nat.mod_lt m hpow
  have hq : m / 2 ^ (L - 52) * 2 ^ (L - 52) ≤ m := by rw [Nat.mul_comm]; omega
  have hr : m - m / 2 ^ (L - 52) * 2 ^ (L - 52) = m % 2 ^ (L - 52) := by rw [Nat.mul_comm]; omega
  have hrn : roundNat m = if 2 * (m % 2 ^ (L - 52)) > 2 ^ (L - 52) ∨
      (2 * (m % 2 ^ (L - 52)) = 2 ^ (L - 52) ∧ m / 2 ^ (L - 52) % 2 = 1)
      then (m / 2 ^ (L - 52) + 1) * 2 ^ (L - 52) else m / 2 ^ (L - 52) * 2 ^ (L - 52) := by
    unfold roundNat; rw [if_neg h, hL]
  refine ⟨L - 52, m / 2 ^ (L - 52), by omega, hq, ?_, ?_, ?_, rfl, rfl, ?_, ?_⟩
  · rw [Nat.add_mul, Nat.one_mul, Nat.mul_comm]; omega
  · rw [Nat.le_div_iff_mul_le hpow, ← Nat.pow_add, show 52 + (L - 52) = L by omega]; exact hself
  · rw [Nat.div_lt_iff_lt_mul hpow, ← Nat.pow_add, show 53 + (L - 52) = L + 1 by omega]; exact hlt
  · rw [hrn]; split
    · right; rfl
    · left; rfl
  · rw [hr]; exact hrn

theorem roundNat_le_pow {m : Nat} (h : ¬ m < 2 ^ 53) :
    2 ^ Nat.log2 m ≤ roundNat m ∧ roundNat m ≤ 2 ^ (Nat.log2 m + 1) := by
  obtain ⟨e, q, he, h1, h2, h3, h4, h5, _, h6, _⟩ := roundNat_large h
  have hL : Nat.log2 m = 52 + e := by omega
  rw [hL]
  have a : 2 ^ 52 * 2 ^ e ≤ q * 2 ^ e := Nat.mul_le_mul_right _ h3
  have b : (q + 1) * 2 ^ e ≤ 2 ^ 53 * 2 ^ e := Nat.mul_le_mul_right _ h4
  rw [← Nat.pow_add] at a b
  have c : q * 2 ^ e ≤ (q + 1) * 2 ^ e := Nat.mul_le_mul_right _ (by omega)
  rw [show 52 + e + 1 = 53 + e by omega]
  rcases h6 with h | h <;> rw [h] <;> omega

theorem roundNat_mono {a b : Nat} (h : a ≤ b) : roundNat a ≤ roundNat b := by
  by_cases ha : a < 2 ^ 53
  · rw [roundNat_small ha]
    by_cases hb : b < 2 ^ 53
    · rw [roundNat_small hb]; exact h
    · have := (roundNat_le_pow hb).1
      have h53 : 53 ≤ Nat.log2 b := by
        rcases Nat.lt_or_ge (Nat.log2 b) 53 with hlt | hge
        · exact absurd ((Nat.log2_lt (by omega)).mp hlt) hb
        · exact hge
      have : 2 ^ 53 ≤ 2 ^ Nat.log2 b := Nat.pow_le_pow_right (by decide) h53
      omega
  · have hb : ¬ b < 2 ^ 53 := by omega
    obtain ⟨e, q, he, h1, h2, h3, h4, h5, hq, h6, h7⟩ := roundNat_large ha
    obtain ⟨e', q', he', h1', h2', h3', h4', h5', hq', h6', h7'⟩ := roundNat_large hb
    have hlog : Nat.log2 a ≤ Nat.log2 b := by
      have h0 : a ≠ 0 := by omega
      have := Nat.log2_self_le h0
      rw [Nat.le_log2 (by omega)]; omega
    rcases Nat.lt_or_ge (Nat.log2 a) (Nat.log2 b) with hlt | hge
    · have p1 := (roundNat_le_pow ha).2
      have p2 := (roundNat_le_pow hb).1
      have p3 : 2 ^ (Nat.log2 a + 1) ≤ 2 ^ Nat.log2 b := Nat.pow_le_pow_right (by decide) hlt
      omega
    · have : e = e' := by omega
      subst this
      have hqq : q ≤ q' := by rw [hq, hq']; exact Nat.div_le_div_right h
      rcases Nat.lt_or_ge q q' with hl | hg
      · have : (q + 1) * 2 ^ e ≤ q' * 2 ^ e := Nat.mul_le_mul_right _ hl
        have c : q * 2 ^ e ≤ (q + 1) * 2 ^ e := Nat.mul_le_mul_right _ (by omega)
        have c' : q' * 2 ^ e ≤ (q' + 1) * 2 ^ e := Nat.mul_le_mul_right _ (by omega)
        rcases h6 with h | h <;> rcases h6' with h' | h' <;> rw [h, h'] <;> omega
      · have : q = q' := by omega
        subst this
        have c : q * 2 ^ e ≤ (q + 1) * 2 ^ e := Nat.mul_le_mul_right _ (by omega)
        rw [h7, h7']
        split <;> split <;> omega

theorem roundNat_pow63 {m : Nat} (h : m ≤ 2 ^ 63) : roundNat m ≤ 2 ^ 63 := by
  have h1 := roundNat_mono h
  have : roundNat (2 ^ 63) = 2 ^ 63 := by decide +kernel
  omega

/-- Rounding keeps the relative error within one part in 2^53. -/
theorem roundNat_error (m : Nat) : 2 ^ 53 * roundNat m ≤ 2 ^ 53 * m + m ∧ 2 ^ 53 * m ≤ 2 ^ 53 * roundNat m + m := by
  by_cases h : m < 2 ^ 53
  · rw [roundNat_small h]; omega
  · obtain ⟨e, q, he, h1, h2, h3, h4, h5, hq, h6, h7⟩ := roundNat_large h
    have hm : 2 ^ 52 * 2 ^ e ≤ m := Nat.le_trans (Nat.mul_le_mul_right _ h3) h1
    have hx : (q + 1) * 2 ^ e = q * 2 ^ e + 2 ^ e := by rw [Nat.add_mul, Nat.one_mul]
    rw [hx] at h7 h2
    generalize q * 2 ^ e = Q at *
    generalize 2 ^ e = E at *
    rw [h7]
    split <;> omega

theorem toF64_small {x : Int} (h1 : -2 ^ 53 ≤ x) (h2 : x ≤ 2 ^ 53) : toF64 x = x := by
  have hr : ∀ m : Nat, m ≤ 2 ^ 53 → roundNat m = m := by
    intro m hm
    by_cases h : m < 2 ^ 53
    · exact roundNat_small h
    · have : m = 2 ^ 53 := by omega
      subst this; decide +kernel
  unfold toF64
  split
  · rw [hr _ (by omega)]; omega
  · rw [hr _ (by omega)]; omega

theorem toF64_mono {a b : Int} (h : a ≤ b) : toF64 a ≤ toF64 b := by
  unfold toF64
  split <;> split
  · have := roundNat_mono (a := a.toNat) (b := b.toNat) (by omega); omega
  · omega
  · omega
  · have := roundNat_mono (a := (-b).toNat) (b := (-a).toNat) (by omega); omega

theorem fmax_toF64 (a b : Int) : fmax (toF64 a) (toF64 b) = toF64 (max a b) := by
  unfold fmax
  rcases Int.le_total a b with h | h
  · have := toF64_mono h
    rw [Int.max_eq_right h, if_neg (by omega)]
  · have := toF64_mono h
    rw [Int.max_eq_left h]; split <;> omega

theorem fmin_toF64 (a b : Int) : fmin (toF64 a) (toF64 b) = toF64 (min a b) := by
  unfold fmin
  rcases Int.le_total a b with h | h
  · have := toF64_mono h
    rw [Int.min_eq_left h]; split <;> omega
  · have := toF64_mono h
    rw [Int.min_eq_right h, if_neg (by omega)]

theorem toF64_range {x : Int} (h : IsInt64 x) : -2 ^ 63 ≤ toF64 x ∧ toF64 x ≤ 2 ^ 63 := by
  unfold IsInt64 at h
  unfold toF64
  split
  · have := roundNat_pow63 (m := x.toNat) (by omega); omega
  · have := roundNat_pow63 (m := (-x).toNat) (by omega); omega

/-- A number that a float64 can hold: at most 53 significant bits. -/
def Representable (x : Int) : Prop := ∃ (k : Int) (e : Nat), x = k * 2 ^ e ∧ k.natAbs ≤ 2 ^ 53

theorem roundNat_repr (m : Nat) : ∃ k e, roundNat m = k * 2 ^ e ∧ k ≤ 2 ^ 53 := by
  by_cases h : m < 2 ^ 53
  · exact ⟨m, 0, by simp [roundNat_small h], by omega⟩
  · have hm : m ≠ 0 := by omega
    have h1 : m < 2 ^ (Nat.log2 m + 1) := Nat.lt_log2_self
    have h52 : 53 ≤ Nat.log2 m := (Nat.le_log2 hm).2 (by omega)
    have hq : m / 2 ^ (Nat.log2 m - 52) < 2 ^ 53 := by
      rw [Nat.div_lt_iff_lt_mul (Nat.pow_pos (by omega)), ← Nat.pow_add, show 53 + (Nat.log2 m - 52) = Nat.log2 m + 1 by omega]
      exact h1
    unfold roundNat
    rw [if_neg h]
    simp only
    split
    · exact ⟨_, _, rfl, by omega⟩
    · exact ⟨_, _, rfl, by omega⟩

theorem roundNat_fix (k e : Nat) (hk : k ≤ 2 ^ 53) : roundNat (k * 2 ^ e) = k * 2 ^ e := by
  by_cases h : k * 2 ^ e < 2 ^ 53
  · exact roundNat_small h
  · generalize hm : k * 2 ^ e = m at h
    have hm0 : m ≠ 0 := by omega
    have h52 : 53 ≤ Nat.log2 m := (Nat.le_log2 hm0).2 (by omega)
    have hd : 2 ^ (Nat.log2 m - 52) ∣ m := by
      by_cases hk' : k = 2 ^ 53
      · have e1 : m = 2 ^ (53 + e) := by rw [← hm, hk', Nat.pow_add]
        have e2 : Nat.log2 m = 53 + e := by rw [e1]; exact Nat.log2_two_pow
        rw [e2]
        rw [e1]; exact Nat.pow_dvd_pow 2 (by omega)
      · have h1 : m < 2 ^ (53 + e) := by
          rw [← hm, Nat.pow_add]; exact Nat.mul_lt_mul_of_pos_right (by omega) (Nat.pow_pos (by omega))
        have h2 : Nat.log2 m < 53 + e := (Nat.log2_lt hm0).2 h1
        rw [← hm]
        exact Nat.dvd_mul_left_of_dvd (Nat.pow_dvd_pow 2 (by rw [hm]; omega)) k
    unfold roundNat
    rw [if_neg h]
    have hr : m % 2 ^ (Nat.log2 m - 52) = 0 := Nat.mod_eq_zero_of_dvd hd
    have hp : 0 < 2 ^ (Nat.log2 m - 52) := Nat.pow_pos (by omega)
    simp only [hr]
    rw [if_neg (by omega)]
    exact Nat.div_mul_cancel hd

theorem toF64_fix (x : Int) : toF64 x = x ↔ Representable x := by
  constructor
  · intro h
    unfold toF64 at h
    split at h
    · obtain ⟨k, e, h1, h2⟩ := roundNat_repr x.toNat
      refine ⟨k, e, ?_, by omega⟩
      rw [← h, h1]; push_cast; rfl
    · obtain ⟨k, e, h1, h2⟩ := roundNat_repr (-x).toNat
      refine ⟨-k, e, ?_, by omega⟩
      rw [← h, h1]; push_cast; simp [Int.neg_mul]
  · rintro ⟨k, e, rfl, hk⟩
    have hp : (0 : Int) < 2 ^ e := Int.pow_pos (by omega)
    unfold toF64
    split
    · rename_i h
      have hk0 : 0 ≤ k := by
        refine Classical.byContradiction fun hc => ?_
        have := Int.mul_neg_of_neg_of_pos (show k < 0 by omega) hp
        omega
      obtain ⟨n, rfl⟩ := Int.eq_ofNat_of_zero_le hk0
      have : ((n : Int) * 2 ^ e) = ((n * 2 ^ e : Nat) : Int) := by push_cast; rfl
      rw [this, Int.toNat_natCast, roundNat_fix n e (by simpa using hk)]
    · rename_i h
      have hk0 : k < 0 := by
        refine Classical.byContradiction fun hc => ?_
        have := Int.mul_nonneg (show 0 ≤ k by omega) (Int.le_of_lt hp)
        omega
      obtain ⟨n, hn⟩ := Int.eq_ofNat_of_zero_le (show 0 ≤ -k by omega)
      have e1 : k = -(n : Int) := by omega
      subst e1
      have : (-(-(n : Int) * 2 ^ e)) = ((n * 2 ^ e : Nat) : Int) := by push_cast; simp [Int.neg_mul]
      rw [this, Int.toNat_natCast, roundNat_fix n e (by simpa using hk)]
      push_cast; simp [Int.neg_mul]

end Verif.XMath
