import Verif.Model.Windows
import Verif.Spec.Windows
import Mathlib.Analysis.SpecialFunctions.Integrals.Basic
import Mathlib.Analysis.Calculus.Deriv.Comp
import Mathlib.Tactic.LinearCombination
import Mathlib.Analysis.Real.Pi.Bounds

/-!
# Fourier integrals of the window functions: lemmas for C62
-/

namespace Verif.Windows
open Verif.WindowSpec

/-- `∫ cos (a y)` over `[-1, 1]`. -/
noncomputable def S (a : ℝ) : ℝ := ∫ y in (-1 : ℝ)..1, Real.cos (a * y)

theorem S_zero : S 0 = 2 := by
  unfold S; simp; norm_num

theorem S_ne {a : ℝ} (ha : a ≠ 0) : S a = 2 * Real.sin a / a := by
  unfold S
  rw [intervalIntegral.integral_comp_mul_left (fun y => Real.cos y) ha, integral_cos]
  simp only [mul_one, mul_neg, Real.sin_neg, smul_eq_mul]
  field_simp
  ring

theorem integral_cos_cos (a g : ℝ) :
    ∫ y in (-1 : ℝ)..1, Real.cos (a * y) * Real.cos (g * y) = (S (a - g) + S (a + g)) / 2 := by
  have : ∀ y : ℝ, Real.cos (a * y) * Real.cos (g * y) =
      (1 / 2) * (Real.cos ((a - g) * y) + Real.cos ((a + g) * y)) := by
    intro y
    rw [sub_mul, add_mul, Real.cos_sub, Real.cos_add]; ring
  simp only [this]
  rw [intervalIntegral.integral_const_mul, intervalIntegral.integral_add]
  · unfold S; ring
  · exact Continuous.intervalIntegrable (by fun_prop) _ _
  · exact Continuous.intervalIntegrable (by fun_prop) _ _

/-- Scaling to radius 1. -/
theorem fourier_scale {r : ℝ} (hr : 0 < r) (w p : ℝ → ℝ) (f : ℝ)
    (h : ∀ x, |x| ≤ r → w x = p (x / r)) :
    fourier r w f = r * ∫ y in (-1 : ℝ)..1, p y * Real.cos (2 * Real.pi * f * r * y) := by
  unfold fourier
  have h1 : (∫ x in (-r)..r, w x * Real.cos (2 * Real.pi * f * x)) =
      ∫ x in (-r)..r, (fun y => p y * Real.cos (2 * Real.pi * f * r * y)) (x / r) := by
    apply intervalIntegral.integral_congr
    intro x hx
    rw [Set.uIcc_of_le (by linarith)] at hx
    dsimp only
    rw [h x (abs_le.2 ⟨hx.1, hx.2⟩)]
    congr 2
    field_simp
  rw [h1, intervalIntegral.integral_comp_div (fun y => p y * Real.cos (2 * Real.pi * f * r * y)) hr.ne',
    neg_div, div_self hr.ne', smul_eq_mul]

/-- The transform of `cos (n pi y)`. -/
noncomputable def C (n : ℕ) (G : ℝ) : ℝ := ∫ y in (-1 : ℝ)..1, Real.cos (n * Real.pi * y) * Real.cos (G * y)

theorem sin_nat_pi_sub (n : ℕ) (G : ℝ) :
    Real.sin (n * Real.pi - G) = -((-1) ^ n * Real.sin G) := Real.sin_nat_mul_pi_sub G n

theorem C_ne (n : ℕ) (G : ℝ) (h1 : n * Real.pi - G ≠ 0) (h2 : n * Real.pi + G ≠ 0) :
    C n G = -((-1) ^ n) * (2 * G * Real.sin G) / ((n * Real.pi) ^ 2 - G ^ 2) := by
  unfold C
  have h3 : (n * Real.pi) ^ 2 - G ^ 2 ≠ 0 := by
    rw [sq_sub_sq]; exact mul_ne_zero h2 h1
  rw [integral_cos_cos, S_ne h1, S_ne h2, sin_nat_pi_sub, add_comm (n * Real.pi) G,
    Real.sin_add_nat_mul_pi]
  rw [add_comm] at h2
  rw [div_add_div _ _ h1 h2, div_div, div_eq_div_iff (by
    refine mul_ne_zero (mul_ne_zero h1 h2) two_ne_zero) h3]
  ring

theorem S_nat_pi {n : ℕ} (hn : n ≠ 0) : S (n * Real.pi) = 0 := by
  have : (n : ℝ) * Real.pi ≠ 0 := mul_ne_zero (by exact_mod_cast hn) Real.pi_ne_zero
  rw [S_ne this, Real.sin_nat_mul_pi]; simp

theorem S_neg (a : ℝ) : S (-a) = S a := by
  unfold S; simp only [neg_mul, Real.cos_neg]

theorem S_int_pi {n : ℤ} (hn : n ≠ 0) : S (n * Real.pi) = 0 := by
  have : (n : ℝ) * Real.pi ≠ 0 := mul_ne_zero (by exact_mod_cast hn) Real.pi_ne_zero
  rw [S_ne this, Real.sin_int_mul_pi]; simp

theorem C_neg (n : ℕ) (G : ℝ) : C n (-G) = C n G := by
  unfold C; simp only [neg_mul, Real.cos_neg]

/-- Orthogonality of the cosines on `[-1, 1]`. -/
theorem C_pi (n m : ℕ) (hm : m ≠ 0) : C n (m * Real.pi) = if n = m then 1 else 0 := by
  unfold C
  rw [integral_cos_cos]
  have e1 : (n : ℝ) * Real.pi - m * Real.pi = ((n - m : ℤ) : ℝ) * Real.pi := by push_cast; ring
  have e2 : (n : ℝ) * Real.pi + m * Real.pi = ((n + m : ℤ) : ℝ) * Real.pi := by push_cast; ring
  rw [e1, e2, S_int_pi (show ((n : ℤ) + m) ≠ 0 by omega)]
  split_ifs with h
  · subst h; simp [S_zero]
  · rw [S_int_pi (show ((n : ℤ) - m) ≠ 0 by omega)]; simp

/-- The transform of a sum of four cosines. -/
theorem cos_sum_transform (a0 a1 a2 a3 G : ℝ) :
    ∫ y in (-1 : ℝ)..1, (a0 + a1 * Real.cos (Real.pi * y) + a2 * Real.cos (2 * (Real.pi * y)) +
      a3 * Real.cos (3 * (Real.pi * y))) * Real.cos (G * y) =
    a0 * S G + a1 * C 1 G + a2 * C 2 G + a3 * C 3 G := by
  have : ∀ y : ℝ, (a0 + a1 * Real.cos (Real.pi * y) + a2 * Real.cos (2 * (Real.pi * y)) +
      a3 * Real.cos (3 * (Real.pi * y))) * Real.cos (G * y) =
      a0 * Real.cos (G * y) + a1 * (Real.cos ((1 : ℕ) * Real.pi * y) * Real.cos (G * y)) +
      a2 * (Real.cos ((2 : ℕ) * Real.pi * y) * Real.cos (G * y)) +
      a3 * (Real.cos ((3 : ℕ) * Real.pi * y) * Real.cos (G * y)) := by
    intro y; push_cast; simp only [one_mul, ← mul_assoc]; ring
  simp only [this]
  rw [intervalIntegral.integral_add, intervalIntegral.integral_add, intervalIntegral.integral_add,
    intervalIntegral.integral_const_mul, intervalIntegral.integral_const_mul,
    intervalIntegral.integral_const_mul, intervalIntegral.integral_const_mul]
  · rfl
  all_goals exact Continuous.intervalIntegrable (by fun_prop) _ _

theorem sinc_eq {x : ℝ} (h : x = 0 ∨ 1 / 10 ^ 8 ≤ |x|) : 2 * sinc x = S x := by
  unfold sinc
  rcases h with h | h
  · subst h; rw [if_pos (by simp), S_zero, mul_one]
  · have : x ≠ 0 := by rintro rfl; norm_num at h
    rw [if_neg (not_lt.2 h), S_ne this]; ring

theorem S_lip (a b : ℝ) : |S a - S b| ≤ 2 * |a - b| := by
  unfold S
  rw [← intervalIntegral.integral_sub (Continuous.intervalIntegrable (by fun_prop) _ _)
    (Continuous.intervalIntegrable (by fun_prop) _ _)]
  have := intervalIntegral.norm_integral_le_of_norm_le_const (a := -1) (b := 1) (C := |a - b|)
    (f := fun y => Real.cos (a * y) - Real.cos (b * y)) (by
      intro y hy
      rw [Set.uIoc_of_le (by norm_num)] at hy
      rw [Real.norm_eq_abs]
      refine (Real.abs_cos_sub_cos_le _ _).trans ?_
      rw [← sub_mul, abs_mul]
      exact mul_le_of_le_one_right (abs_nonneg _) (abs_le.2 ⟨hy.1.le, hy.2⟩))
  rw [Real.norm_eq_abs] at this
  refine this.trans ?_
  norm_num
  linarith

theorem C_lip (n : ℕ) (a b : ℝ) : |C n a - C n b| ≤ 2 * |a - b| := by
  unfold C
  rw [integral_cos_cos, integral_cos_cos]
  have h1 := S_lip (n * Real.pi - a) (n * Real.pi - b)
  have h2 := S_lip (n * Real.pi + a) (n * Real.pi + b)
  rw [show (n : ℝ) * Real.pi - a - (n * Real.pi - b) = -(a - b) by ring, abs_neg] at h1
  rw [show (n : ℝ) * Real.pi + a - (n * Real.pi + b) = a - b by ring] at h2
  rw [abs_le] at *
  constructor <;> linarith

theorem sinc_err (x : ℝ) : |2 * sinc x - S x| ≤ 2 / 10 ^ 8 := by
  by_cases h : 1 / 10 ^ 8 ≤ |x|
  · rw [sinc_eq (Or.inr h), sub_self, abs_zero]; norm_num
  · push Not at h
    unfold sinc
    have := S_lip 0 x
    rw [S_zero, zero_sub, abs_neg] at this
    rw [if_pos h, mul_one]
    refine this.trans ?_
    norm_num at h ⊢
    linarith

theorem C_S (n : ℕ) (g : ℝ) (h : (n : ℝ) ^ 2 - g ^ 2 ≠ 0) :
    C n (Real.pi * g) = -((-1) ^ n) * (S (Real.pi * g) * (g ^ 2 / ((n : ℝ) ^ 2 - g ^ 2))) := by
  have hpi := Real.pi_ne_zero
  rw [sq_sub_sq] at h
  have h1 : n * Real.pi - Real.pi * g ≠ 0 := by
    rw [mul_comm, ← mul_sub]; exact mul_ne_zero hpi (right_ne_zero_of_mul h)
  have h2 : n * Real.pi + Real.pi * g ≠ 0 := by
    rw [mul_comm, ← mul_add]; exact mul_ne_zero hpi (left_ne_zero_of_mul h)
  rw [C_ne n _ h1 h2]
  rw [← sq_sub_sq] at h
  have e : ((n : ℝ) * Real.pi) ^ 2 - (Real.pi * g) ^ 2 = Real.pi ^ 2 * ((n : ℝ) ^ 2 - g ^ 2) := by
    ring
  rw [e]
  rcases eq_or_ne g 0 with rfl | hg
  · simp
  · rw [S_ne (mul_ne_zero hpi hg)]
    field_simp

theorem near_abs (m : ℕ) (hm : 1 ≤ m) (g : ℝ) (h : |(m : ℝ) ^ 2 - g ^ 2| < 1 / 10 ^ 8) :
    |Real.pi * |g| - m * Real.pi| ≤ 35 / 10 ^ 9 := by
  have hm' : (1 : ℝ) ≤ m := by exact_mod_cast hm
  have h0 := abs_nonneg g
  rw [← sq_abs g, sq_sub_sq, abs_mul, abs_of_nonneg (by positivity : 0 ≤ (m : ℝ) + |g|)] at h
  have h1 : |(m : ℝ) - (|g|)| ≤ 1 / 10 ^ 8 := by
    refine le_trans ?_ h.le
    exact le_mul_of_one_le_left (abs_nonneg _) (by linarith)
  rw [show Real.pi * |g| - m * Real.pi = -(Real.pi * (m - |g|)) by ring, abs_neg, abs_mul,
    abs_of_pos Real.pi_pos]
  have hpi : Real.pi ≤ 35 / 10 := by linarith [Real.pi_lt_d2]
  calc Real.pi * |(m : ℝ) - (|g|)| ≤ 35 / 10 * (1 / 10 ^ 8) :=
        mul_le_mul hpi h1 (abs_nonneg _) (by norm_num)
    _ = _ := by norm_num

theorem even_abs {F : ℝ → ℝ} (hF : ∀ x, F (-x) = F x) (g : ℝ) :
    F (Real.pi * |g|) = F (Real.pi * g) := by
  rcases abs_choice g with h | h <;> rw [h]
  rw [mul_neg, hF]

theorem C_near (n m : ℕ) (hm : 1 ≤ m) (g : ℝ) (h : |(m : ℝ) ^ 2 - g ^ 2| < 1 / 10 ^ 8) :
    |(if n = m then 1 else 0) - C n (Real.pi * g)| ≤ 7 / 10 ^ 8 := by
  rw [← C_pi n m (by omega), ← even_abs (C_neg n) g, abs_sub_comm]
  refine (C_lip _ _ _).trans ?_
  have := near_abs m hm g h
  norm_num at this ⊢
  linarith

theorem S_near (m : ℕ) (hm : 1 ≤ m) (g : ℝ) (h : |(m : ℝ) ^ 2 - g ^ 2| < 1 / 10 ^ 8) :
    |S (Real.pi * g)| ≤ 7 / 10 ^ 8 := by
  have := S_lip (Real.pi * |g|) (m * Real.pi)
  rw [S_nat_pi (by omega), sub_zero, even_abs S_neg g] at this
  refine this.trans ?_
  have := near_abs m hm g h
  norm_num at this ⊢
  linarith

/-- The moments of the cosine. -/
theorem quartic_transform (c2 c4 g : ℝ) (hg : g ≠ 0) :
    ∫ y in (-1 : ℝ)..1, (1 + c2 * y ^ 2 + c4 * y ^ 4) * Real.cos (g * y) =
    2 * ((2 * c2 + 4 * c4 - 24 * c4 / (g * g)) * Real.cos g / (g * g) +
       (1 + c2 + c4 + (-2 * c2 - 12 * c4 + 24 * c4 / (g * g)) / (g * g)) * (Real.sin g / g)) := by
  have hderiv : ∀ y : ℝ, HasDerivAt (fun y : ℝ =>
      (2 * c2 * y + 4 * c4 * y ^ 3 - 24 * c4 / (g * g) * y) * Real.cos (g * y) / (g * g) +
       (1 + c2 * y ^ 2 + c4 * y ^ 4 + (-2 * c2 - 12 * c4 * y ^ 2 + 24 * c4 / (g * g)) / (g * g)) *
        (Real.sin (g * y) / g))
      ((1 + c2 * y ^ 2 + c4 * y ^ 4) * Real.cos (g * y)) y := by
    intro y
    have hid : HasDerivAt (fun y : ℝ => y) 1 y := hasDerivAt_id y
    have hgy : HasDerivAt (fun y : ℝ => g * y) g y := by simpa using hid.const_mul g
    have hcos := (Real.hasDerivAt_cos (g * y)).comp y hgy
    have hsin := (Real.hasDerivAt_sin (g * y)).comp y hgy
    have h2 : HasDerivAt (fun y : ℝ => y ^ 2) (2 * y) y := by simpa using hasDerivAt_pow 2 y
    have h3 : HasDerivAt (fun y : ℝ => y ^ 3) (3 * y ^ 2) y := by simpa using hasDerivAt_pow 3 y
    have h4 : HasDerivAt (fun y : ℝ => y ^ 4) (4 * y ^ 3) y := by simpa using hasDerivAt_pow 4 y
    have p1 := ((hid.const_mul (2 * c2)).add (h3.const_mul (4 * c4))).sub
      (hid.const_mul (24 * c4 / (g * g)))
    have p2 := (((h2.const_mul c2).const_add 1).add (h4.const_mul c4)).add
      ((((h2.const_mul (12 * c4)).const_sub (-2 * c2)).add_const (24 * c4 / (g * g))).div_const (g * g))
    have := ((p1.mul hcos).div_const (g * g)).add (p2.mul (hsin.div_const g))
    refine this.congr_deriv ?_
    simp only [Function.comp, Pi.add_apply, Pi.sub_apply]
    field_simp
    ring
  rw [intervalIntegral.integral_eq_sub_of_hasDerivAt (fun y _ => hderiv y)
    (Continuous.intervalIntegrable (by fun_prop) _ _)]
  simp only [mul_neg, mul_one, Real.cos_neg, Real.sin_neg]
  ring

theorem quartic_transform_zero (c2 c4 : ℝ) :
    ∫ y in (-1 : ℝ)..1, (1 + c2 * y ^ 2 + c4 * y ^ 4) * Real.cos (0 * y) =
    2 * (1 + c2 / 3 + c4 / 5) := by
  have hderiv : ∀ y : ℝ, HasDerivAt (fun y : ℝ => y + c2 * (y ^ 3 / 3) + c4 * (y ^ 5 / 5))
      ((1 + c2 * y ^ 2 + c4 * y ^ 4) * Real.cos (0 * y)) y := by
    intro y
    have h3 : HasDerivAt (fun y : ℝ => y ^ 3) (3 * y ^ 2) y := by simpa using hasDerivAt_pow 3 y
    have h5 : HasDerivAt (fun y : ℝ => y ^ 5) (5 * y ^ 4) y := by simpa using hasDerivAt_pow 5 y
    have := ((hasDerivAt_id y).add ((h3.div_const 3).const_mul c2)).add
      ((h5.div_const 5).const_mul c4)
    refine this.congr_deriv ?_
    rw [zero_mul, Real.cos_zero]; ring
  rw [intervalIntegral.integral_eq_sub_of_hasDerivAt (fun y _ => hderiv y)
    (Continuous.intervalIntegrable (by fun_prop) _ _)]
  ring

end Verif.Windows
