import Verif.Model.Rounding
import Mathlib.Tactic.Linarith
import Mathlib.Tactic.FieldSimp
import Mathlib.Tactic.NormNum
import Mathlib.Tactic.Positivity

/-! Lemmas about rounding. -/

namespace Verif.Rounding

theorem rhe_err (x : ℝ) : |(roundHalfEven x : ℝ) - x| ≤ 1 / 2 := by
  have h1 := Int.floor_le x
  have h2 := Int.lt_floor_add_one x
  have h : (roundHalfEven x = ⌊x⌋ ∧ x - ⌊x⌋ ≤ 1 / 2) ∨ (roundHalfEven x = ⌊x⌋ + 1 ∧ 1 / 2 ≤ x - ⌊x⌋) := by
    unfold roundHalfEven
    dsimp only
    split_ifs with h1 h2 h3
    · left; exact ⟨rfl, h1.le⟩
    · right; exact ⟨rfl, h2.le⟩
    · left; exact ⟨rfl, by linarith⟩
    · right; exact ⟨rfl, by linarith⟩
  rcases h with ⟨h, h3⟩ | ⟨h, h3⟩ <;> rw [h, abs_le] <;> push_cast <;> constructor <;> linarith

/-- IEEE rounding to nearest has relative error at most `2 ^ -p`, and absolute error at most `2 ^ (emin - 1)` in the
subnormal range. -/
theorem ieee_accurate (p : ℕ) (emin : ℤ) : Accurate (ieee p emin) (1 / 2 ^ p) ((2 : ℝ) ^ emin / 2) := by
  intro x
  by_cases hx : x = 0
  · subst hx
    have h0 : ieee p emin 0 = 0 := by simp [ieee, roundHalfEven]
    have : (0 : ℝ) < 2 ^ emin := zpow_pos (by norm_num) _
    rw [h0]; simp; linarith
  unfold ieee
  dsimp only
  have hu : (0 : ℝ) < 2 ^ max (Int.log 2 |x| + 1 - p) emin := zpow_pos (by norm_num) _
  have key : (2 : ℝ) ^ max (Int.log 2 |x| + 1 - p) emin ≤ 2 * (1 / 2 ^ p * |x|) + 2 ^ emin := by
    rcases le_total (Int.log 2 |x| + 1 - p) emin with h | h
    · rw [max_eq_right h]
      have : 0 ≤ 2 * (1 / 2 ^ p * |x|) := by positivity
      linarith
    · rw [max_eq_left h]
      have h2 : (0 : ℝ) < 2 ^ emin := zpow_pos (by norm_num) _
      have hq : 0 < |x| := abs_pos.2 hx
      have hlog := Int.zpow_log_le_self (b := 2) (by norm_num) hq
      rw [show ((2 : ℕ) : ℝ) = 2 by norm_num] at hlog
      have : (2 : ℝ) ^ (Int.log 2 |x| + 1 - p) = 2 * (1 / 2 ^ p * 2 ^ Int.log 2 |x|) := by
        rw [zpow_sub₀ (by norm_num), zpow_add₀ (by norm_num), zpow_natCast, zpow_one]; ring
      rw [this]
      have h3 : 0 ≤ (1 : ℝ) / 2 ^ p := by positivity
      have := mul_le_mul_of_nonneg_left hlog h3
      linarith
  generalize (2 : ℝ) ^ max (Int.log 2 |x| + 1 - p) emin = v at hu key
  have e := rhe_err (x / v)
  have : (roundHalfEven (x / v) : ℝ) * v - x = ((roundHalfEven (x / v) : ℝ) - x / v) * v := by field_simp
  rw [this, abs_mul, abs_of_pos hu]
  have := mul_le_mul_of_nonneg_right e hu.le
  linarith

theorem binary32_accurate : Accurate binary32 (1 / 2 ^ 24) (1 / 2 ^ 150) := by
  have h := ieee_accurate 24 (-149)
  have : (2 : ℝ) ^ (-149 : ℤ) / 2 = 1 / 2 ^ 150 := by
    rw [zpow_neg, show (149 : ℤ) = ((149 : ℕ) : ℤ) by norm_num, zpow_natCast, pow_succ _ 149]
    field_simp
  rwa [this] at h

theorem binary64_accurate : Accurate binary64 (1 / 2 ^ 53) (1 / 2 ^ 1075) := by
  have h := ieee_accurate 53 (-1074)
  have : (2 : ℝ) ^ (-1074 : ℤ) / 2 = 1 / 2 ^ 1075 := by
    rw [zpow_neg, show (1074 : ℤ) = ((1074 : ℕ) : ℤ) by norm_num, zpow_natCast, pow_succ _ 1074]
    field_simp
  rwa [this] at h

section
variable {rnd : ℝ → ℝ} {u η : ℝ}

theorem Accurate.eta_nonneg (h : Accurate rnd u η) : 0 ≤ η := by
  have h0 := h 0
  simp only [sub_zero, abs_zero, mul_zero, zero_add] at h0
  exact (abs_nonneg _).trans h0

theorem Accurate.abs_le (h : Accurate rnd u η) (x : ℝ) : |rnd x| ≤ (1 + u) * |x| + η := by
  have := h x
  have h2 := abs_add_le (rnd x - x) x
  rw [sub_add_cancel] at h2
  linarith

/-- Error of a sum of two products, with or without contraction. -/
theorem IsSumOfProducts.error (h : Accurate rnd u η) (hu : 0 ≤ u) {a b c d r : ℝ} (hr : IsSumOfProducts rnd a b c d r) :
    |r - (a * b + c * d)| ≤ (2 * u + u ^ 2) * (|a * b| + |c * d|) + (3 + 2 * u) * η := by
  have hη := h.eta_nonneg
  have e1 := h (a * b)
  have e2 := h (c * d)
  have n1 := abs_nonneg (a * b)
  have n2 := abs_nonneg (c * d)
  have k : ∀ p q : ℝ, |p - a * b| ≤ u * |a * b| + η → |q - c * d| ≤ u * |c * d| + η →
      |rnd (p + q) - (a * b + c * d)| ≤ (2 * u + u ^ 2) * (|a * b| + |c * d|) + (3 + 2 * u) * η := by
    intro p q hp hq
    have e3 := h (p + q)
    have t1 : |(p + q) - (a * b + c * d)| ≤ u * (|a * b| + |c * d|) + 2 * η := by
      have := abs_add_le (p - a * b) (q - c * d)
      rw [show p - a * b + (q - c * d) = p + q - (a * b + c * d) by ring] at this
      linarith
    have t2 : |p + q| ≤ (1 + u) * (|a * b| + |c * d|) + 2 * η := by
      have h1 := abs_add_le (p + q - (a * b + c * d)) (a * b + c * d)
      rw [sub_add_cancel] at h1
      have h2 := abs_add_le (a * b) (c * d)
      linarith
    have t3 := abs_add_le (rnd (p + q) - (p + q)) (p + q - (a * b + c * d))
    rw [sub_add_sub_cancel] at t3
    have t4 := mul_le_mul_of_nonneg_left t2 hu
    nlinarith
  have z1 : |a * b - a * b| ≤ u * |a * b| + η := by
    rw [sub_self, abs_zero]; positivity
  have z2 : |c * d - c * d| ≤ u * |c * d| + η := by
    rw [sub_self, abs_zero]; positivity
  rcases hr with rfl | rfl | rfl
  · exact k _ _ e1 e2
  · exact k _ _ z1 e2
  · exact k _ _ e1 z2

/-- Error of a product plus a number, with or without contraction. -/
theorem IsMulAdd.error (h : Accurate rnd u η) (hu : 0 ≤ u) {a b c r : ℝ} (hr : IsMulAdd rnd a b c r) :
    |r - (a * b + c)| ≤ (2 * u + u ^ 2) * |a * b| + u * |c| + (2 + u) * η := by
  have hη := h.eta_nonneg
  have n1 := abs_nonneg (a * b)
  have n2 := abs_nonneg c
  have k : ∀ p : ℝ, |p - a * b| ≤ u * |a * b| + η →
      |rnd (p + c) - (a * b + c)| ≤ (2 * u + u ^ 2) * |a * b| + u * |c| + (2 + u) * η := by
    intro p hp
    have e3 := h (p + c)
    have t2 : |p + c| ≤ (1 + u) * |a * b| + |c| + η := by
      have h1 := abs_add_le (p - a * b) (a * b + c)
      rw [show p - a * b + (a * b + c) = p + c by ring] at h1
      have h2 := abs_add_le (a * b) c
      linarith
    have t3 := abs_add_le (rnd (p + c) - (p + c)) (p - a * b)
    rw [show rnd (p + c) - (p + c) + (p - a * b) = rnd (p + c) - (a * b + c) by ring] at t3
    have t4 := mul_le_mul_of_nonneg_left t2 hu
    nlinarith
  rcases hr with rfl | rfl
  · exact k _ (h _)
  · exact k _ (by rw [sub_self, abs_zero]; positivity)

end

end Verif.Rounding
