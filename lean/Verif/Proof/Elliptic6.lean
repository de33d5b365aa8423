import Verif.Proof.Elliptic4
import Mathlib.Analysis.Complex.Exponential

/-! # Lemmas for C88: small amplitudes; the complex integral on the real line -/

namespace Verif.Elliptic
open Verif.Elliptic.Spec Verif.PoleZero Verif.PortableComplex

theorem exp_three {x : ℂ} (hx : ‖x‖ ≤ 1) : ‖Complex.exp x - (1 + x + x ^ 2 / 2)‖ ≤ 2 / 9 * ‖x‖ ^ 3 := by
  have h := Complex.exp_bound hx (n := 3) (by norm_num)
  have e : (∑ m ∈ Finset.range 3, x ^ m / (m.factorial : ℂ)) = 1 + x + x ^ 2 / 2 := by
    simp [Finset.sum_range_succ, Nat.factorial]
  rw [e] at h
  refine h.trans (le_of_eq ?_)
  norm_num [Nat.factorial]
  ring

theorem sin_sub_id {z : ℂ} (hz : ‖z‖ ≤ 1) : ‖Complex.sin z - z‖ ≤ 2 / 9 * ‖z‖ ^ 3 := by
  have h1 := exp_three (x := -z * Complex.I) (by simpa using hz)
  have h2 := exp_three (x := z * Complex.I) (by simpa using hz)
  have n1 : ‖-z * Complex.I‖ = ‖z‖ := by simp
  have n2 : ‖z * Complex.I‖ = ‖z‖ := by simp
  rw [n1] at h1
  rw [n2] at h2
  have e : Complex.sin z - z = ((Complex.exp (-z * Complex.I) - (1 + -z * Complex.I + (-z * Complex.I) ^ 2 / 2))
      - (Complex.exp (z * Complex.I) - (1 + z * Complex.I + (z * Complex.I) ^ 2 / 2))) * (Complex.I / 2) := by
    rw [Complex.sin]
    linear_combination (-z) * Complex.I_sq
  rw [e, norm_mul, show ‖Complex.I / 2‖ = 1 / 2 by simp]
  have := norm_sub_le (Complex.exp (-z * Complex.I) - (1 + -z * Complex.I + (-z * Complex.I) ^ 2 / 2))
    (Complex.exp (z * Complex.I) - (1 + z * Complex.I + (z * Complex.I) ^ 2 / 2))
  linarith

theorem integrand_small {m : ℝ} (h0 : 0 ≤ m) (h1 : m < 1) {z : ℂ} (hz : ‖z‖ < 1 / 10 ^ 3) :
    ‖integrand m z - (1 + m / 2 * z ^ 2)‖ ≤ 5 * ‖z‖ ^ 4 := by
  have n0 := norm_nonneg z
  have hs := sin_sub_id (z := z) (hz.le.trans (by norm_num))
  have hz1 : ‖z‖ ^ 3 ≤ 1 / 100 * ‖z‖ := by
    have : ‖z‖ ^ 2 ≤ 1 / 100 := by nlinarith
    nlinarith
  have hsin : ‖Complex.sin z‖ ≤ 101 / 100 * ‖z‖ := by
    have := norm_le_norm_add_norm_sub' (Complex.sin z) z
    linarith
  have hm : ‖(m : ℂ)‖ = m := by rw [Complex.norm_real, Real.norm_of_nonneg h0]
  have hsq : ‖Complex.sin z ^ 2 - z ^ 2‖ ≤ ‖z‖ ^ 4 := by
    rw [show Complex.sin z ^ 2 - z ^ 2 = (Complex.sin z - z) * (Complex.sin z + z) by ring, norm_mul]
    have h3 : ‖Complex.sin z + z‖ ≤ 3 * ‖z‖ := (norm_add_le _ _).trans (by linarith)
    calc ‖Complex.sin z - z‖ * ‖Complex.sin z + z‖ ≤ 2 / 9 * ‖z‖ ^ 3 * (3 * ‖z‖) :=
          mul_le_mul hs h3 (norm_nonneg _) (by positivity)
      _ ≤ ‖z‖ ^ 4 := by nlinarith [pow_nonneg n0 4]
  have hx : ‖(m : ℂ) * Complex.sin z ^ 2‖ ≤ 11 / 10 * ‖z‖ ^ 2 := by
    rw [norm_mul, norm_pow, hm]
    have := pow_le_pow_left₀ (norm_nonneg _) hsin 2
    nlinarith [sq_nonneg ‖Complex.sin z‖]
  have hx2 : ‖(m : ℂ) * Complex.sin z ^ 2‖ ≤ 1 / 100 := by
    have : ‖z‖ ^ 2 ≤ 1 / 10 ^ 6 := by nlinarith
    linarith
  have e : integrand m z = 1 / csqrt (1 - m * Complex.sin z ^ 2) := rfl
  have hq := csqrt_sq (1 - m * Complex.sin z ^ 2)
  have h1s := one_sub_csqrt (m * Complex.sin z ^ 2)
  rw [e]
  generalize hX : (m : ℂ) * Complex.sin z ^ 2 = x at *
  generalize csqrt (1 - x) = s at *
  have hs1 : 99 / 100 ≤ ‖s‖ := by
    have := norm_le_norm_add_norm_sub' (1 : ℂ) s
    rw [norm_one] at this
    linarith
  have hs2 : ‖s + 2‖ ≤ 31 / 10 := by
    have : s + 2 = 3 - (1 - s) := by ring
    rw [this]
    refine (norm_sub_le _ _).trans ?_
    rw [show ‖(3 : ℂ)‖ = 3 by simp]
    linarith
  have hs0 : s ≠ 0 := fun h => by rw [h, norm_zero] at hs1; norm_num at hs1
  have e1 : 1 / s - (1 + x / 2) = (1 - s) ^ 2 * (s + 2) / (2 * s) := by
    have : x = 1 - s ^ 2 := by rw [hq]; ring
    rw [this]
    field_simp
    ring
  have b1 : ‖1 / s - (1 + x / 2)‖ ≤ 2 * ‖x‖ ^ 2 := by
    rw [e1, norm_div, norm_mul, norm_mul, norm_pow, show ‖(2 : ℂ)‖ = 2 by simp, div_le_iff₀ (by positivity)]
    have p := pow_le_pow_left₀ (norm_nonneg _) h1s 2
    have : ‖1 - s‖ ^ 2 * ‖s + 2‖ ≤ ‖x‖ ^ 2 * (31 / 10) := mul_le_mul p hs2 (norm_nonneg _) (by positivity)
    nlinarith [sq_nonneg ‖x‖]
  have b2 : ‖x‖ ^ 2 ≤ 13 / 10 * ‖z‖ ^ 4 := by
    have := pow_le_pow_left₀ (norm_nonneg _) hx 2
    nlinarith [pow_nonneg n0 4]
  have b3 : ‖(x - m * z ^ 2) / 2‖ ≤ ‖z‖ ^ 4 := by
    rw [← hX, ← mul_sub, norm_div, norm_mul, hm, show ‖(2 : ℂ)‖ = 2 by simp]
    nlinarith [norm_nonneg (Complex.sin z ^ 2 - z ^ 2)]
  have e2 : 1 / s - (1 + m / 2 * z ^ 2) = (1 / s - (1 + x / 2)) + (x - m * z ^ 2) / 2 := by ring
  rw [e2]
  refine (norm_add_le _ _).trans ?_
  nlinarith [pow_nonneg n0 4]

/-- The Taylor polynomial used for small amplitudes. -/
theorem F_taylor {k : ℝ} (h0 : 0 ≤ k) (h1 : k < 1) {φ : ℂ} (hφ : ‖φ‖ < 1 / 10 ^ 3) :
    ‖φ * (1 + φ ^ 2 * ((k ^ 2 / 6 : ℝ) : ℂ)) - Fc φ (k ^ 2)‖ ≤ ‖φ‖ ^ 5 := by
  have hre : |φ.re| < Real.pi / 2 := by
    have := Complex.abs_re_le_norm φ
    have := Real.pi_gt_three
    have h3 : (1 / 10 ^ 3 : ℝ) < 1 := by norm_num
    linarith
  have hm0 : 0 ≤ k ^ 2 := sq_nonneg k
  have hm1 : k ^ 2 < 1 := by nlinarith
  have hic : ContinuousOn (fun t : ℝ => φ * integrand (k ^ 2) (t * φ)) (Set.uIcc 0 1) :=
    (integrand_contOn h0 h1).mono (inner_unit hre)
  have hpc : Continuous (fun t : ℝ => φ * (1 + ((k ^ 2 : ℝ) : ℂ) / 2 * (t * φ) ^ 2)) := by fun_prop
  have hp : φ * (1 + φ ^ 2 * ((k ^ 2 / 6 : ℝ) : ℂ))
      = ∫ t in (0 : ℝ)..1, φ * (1 + ((k ^ 2 : ℝ) : ℂ) / 2 * (t * φ) ^ 2) := by
    have hder : ∀ t ∈ Set.uIcc (0 : ℝ) 1,
        HasDerivAt (fun t : ℝ => φ * (t + ((k ^ 2 : ℝ) : ℂ) / 6 * φ ^ 2 * t ^ 3))
          (φ * (1 + ((k ^ 2 : ℝ) : ℂ) / 2 * (t * φ) ^ 2)) t := by
      intro t _
      have h1 : HasDerivAt (fun t : ℝ => (t : ℂ)) 1 t := Complex.ofRealCLM.hasDerivAt
      have h2 := (h1.pow 3).const_mul (((k ^ 2 : ℝ) : ℂ) / 6 * φ ^ 2)
      refine ((h1.add h2).const_mul φ).congr_deriv ?_
      push_cast
      ring
    rw [intervalIntegral.integral_eq_sub_of_hasDerivAt hder (hpc.intervalIntegrable _ _)]
    push_cast
    ring
  rw [hp, Fc, ← intervalIntegral.integral_sub (hpc.intervalIntegrable _ _) hic.intervalIntegrable]
  have hb : ‖φ‖ ^ 5 = ∫ t in (0 : ℝ)..1, 5 * ‖φ‖ ^ 5 * t ^ 4 := by
    rw [intervalIntegral.integral_const_mul, integral_pow]
    norm_num
    ring
  rw [hb]
  refine intervalIntegral.norm_integral_le_of_norm_le zero_le_one ?_
    ((by fun_prop : Continuous fun t : ℝ => 5 * ‖φ‖ ^ 5 * t ^ 4).intervalIntegrable _ _)
  refine Filter.Eventually.of_forall fun t ht => ?_
  have hn : ‖(t : ℂ) * φ‖ = t * ‖φ‖ := by rw [norm_mul, Complex.norm_real, Real.norm_of_nonneg ht.1.le]
  have hz : ‖(t : ℂ) * φ‖ < 1 / 10 ^ 3 := by
    rw [hn]
    have := mul_le_mul_of_nonneg_right ht.2 (norm_nonneg φ)
    linarith
  have h := integrand_small hm0 hm1 hz
  rw [← mul_sub, norm_mul, norm_sub_rev]
  rw [hn] at h
  calc ‖φ‖ * _ ≤ ‖φ‖ * (5 * (t * ‖φ‖) ^ 4) := mul_le_mul_of_nonneg_left h (norm_nonneg φ)
    _ = 5 * ‖φ‖ ^ 5 * t ^ 4 := by ring

/-- The two specifications agree on the real line. -/
theorem Fc_real {m : ℝ} (h0 : 0 ≤ m) (h1 : m < 1) (φ : ℝ) : Fc φ m = ((F φ m : ℝ) : ℂ) := by
  have hpt : ∀ t : ℝ, (φ : ℂ) * integrand m (t * φ) = ((φ * (1 / √(1 - m * Real.sin (t * φ) ^ 2)) : ℝ) : ℂ) := by
    intro t
    have hp := integrand_pos h0 h1 (t * φ)
    have e : integrand m (t * φ) = 1 / csqrt (1 - m * Complex.sin (t * φ) ^ 2) := rfl
    have e2 : (1 - m * Complex.sin (t * φ) ^ 2 : ℂ) = ((1 - m * Real.sin (t * φ) ^ 2 : ℝ) : ℂ) := by
      push_cast; rfl
    rw [e, e2, prims_cpp.sqrt_real hp.le]
    push_cast
    rfl
  rw [Fc]
  simp only [hpt]
  rw [intervalIntegral.integral_ofReal, intervalIntegral.integral_const_mul]
  congr 1
  have h := intervalIntegral.smul_integral_comp_mul_right (a := 0) (b := 1)
    (fun t => 1 / √(1 - m * Real.sin t ^ 2)) φ
  rw [zero_mul, one_mul, smul_eq_mul] at h
  exact h

end Verif.Elliptic
