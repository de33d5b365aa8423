import Verif.Proof.Bessel
import Mathlib.Analysis.SpecialFunctions.Trigonometric.Series
import Mathlib.Analysis.SpecialFunctions.Integrals.Basic
import Mathlib.MeasureTheory.Integral.DominatedConvergence
import Mathlib.MeasureTheory.Integral.IntervalIntegral.Periodic

/-! # Integral representation of the Bessel functions -/

namespace Verif.Bessel
open Spec Finset MeasureTheory

/-- The mean of `sin ^ (2 k)`: `(2k)! / (4^k k!^2)`. -/
noncomputable def wal (k : ℕ) : ℝ := ∏ i ∈ range k, (2 * (i : ℝ) + 1) / (2 * i + 2)

theorem wal_zero : wal 0 = 1 := rfl
theorem wal_succ (k : ℕ) : wal (k + 1) = wal k * ((2 * (k : ℝ) + 1) / (2 * k + 2)) := by
  rw [wal, prod_range_succ, wal]
theorem wal_pos (k : ℕ) : 0 < wal k := prod_pos fun i _ => by positivity
theorem wal_le (k : ℕ) : wal (k + 1) ≤ wal k := by
  rw [wal_succ]
  refine mul_le_of_le_one_right (wal_pos k).le ((div_le_one (by positivity)).2 (by linarith))
theorem wal_le_one (k : ℕ) : wal k ≤ 1 := by
  induction k with
  | zero => exact wal_zero.le
  | succ k ih => exact (wal_le k).trans ih

theorem wal_fact (k : ℕ) : wal k / ((2 * k).factorial : ℝ) = 1 / (4 ^ k * (k.factorial * k.factorial)) := by
  induction k with
  | zero => simp [wal_zero]
  | succ k ih =>
    have h1 : ((k.factorial : ℕ) : ℝ) ≠ 0 := by exact_mod_cast k.factorial_ne_zero
    have h2 : (((2 * k).factorial : ℕ) : ℝ) ≠ 0 := by exact_mod_cast (2 * k).factorial_ne_zero
    have h3 : (2 * k + 1 : ℝ) ≠ 0 := by positivity
    have h4 : (k + 1 : ℝ) ≠ 0 := by positivity
    have h5 : (2 * k + 2 : ℝ) ≠ 0 := by positivity
    have h6 : (2 * k + 1 + 1 : ℝ) ≠ 0 := by positivity
    rw [wal_succ, show 2 * (k + 1) = 2 * k + 1 + 1 by ring, Nat.factorial_succ, Nat.factorial_succ, Nat.factorial_succ]
    rw [div_eq_iff h2] at ih
    rw [ih]
    push_cast
    field_simp
    ring

theorem int_sin (k : ℕ) : ∫ t in (0 : ℝ)..Real.pi, Real.sin t ^ (2 * k) = Real.pi * wal k := integral_sin_pow_even k

theorem hasSum_cosh {w : ℝ → ℝ} (hw : Continuous w) (h1 : ∀ t, |w t| ≤ 1) (x : ℝ) :
    HasSum (fun k : ℕ => ∫ t in (0 : ℝ)..Real.pi, x ^ (2 * k) / ((2 * k).factorial : ℝ) * (Real.sin t ^ (2 * k) * w t))
      (∫ t in (0 : ℝ)..Real.pi, Real.cosh (x * Real.sin t) * w t) := by
  refine intervalIntegral.hasSum_integral_of_dominated_convergence
    (fun k _ => |x| ^ (2 * k) / ((2 * k).factorial : ℝ)) ?_ ?_ ?_ ?_ ?_
  · intro k
    have : Continuous fun t => x ^ (2 * k) / ((2 * k).factorial : ℝ) * (Real.sin t ^ (2 * k) * w t) := by fun_prop
    exact this.aestronglyMeasurable
  · intro k
    refine ae_of_all _ fun t _ => ?_
    have h2 : |Real.sin t| ^ (2 * k) ≤ 1 := pow_le_one₀ (abs_nonneg _) (Real.abs_sin_le_one t)
    rw [Real.norm_eq_abs, abs_mul, abs_div, abs_mul, abs_pow, abs_pow, Nat.abs_cast]
    refine mul_le_of_le_one_right (by positivity) ?_
    exact mul_le_one₀ h2 (abs_nonneg _) (h1 t)
  · exact ae_of_all _ fun t _ => (Real.hasSum_cosh |x|).summable
  · exact intervalIntegrable_const
  · refine ae_of_all _ fun t _ => ?_
    have := (Real.hasSum_cosh (x * Real.sin t)).mul_right (w t)
    refine this.congr_fun fun k => ?_
    rw [mul_pow]
    ring

theorem term_zero_eq (x : ℝ) (k : ℕ) : term 0 x k = x ^ (2 * k) / ((2 * k).factorial : ℝ) * wal k := by
  have h := wal_fact k
  have h1 : ((k.factorial : ℕ) : ℝ) ≠ 0 := by exact_mod_cast k.factorial_ne_zero
  rw [term, add_zero, add_zero, div_pow, pow_mul (2 : ℝ), show (2 : ℝ) ^ 2 = 4 by norm_num,
    show x ^ (2 * k) / ((2 * k).factorial : ℝ) * wal k = x ^ (2 * k) * (wal k / ((2 * k).factorial : ℝ)) by ring, h]
  field_simp

theorem term_one_eq (x : ℝ) (k : ℕ) :
    term 1 x k = x * (x ^ (2 * k) / ((2 * k).factorial : ℝ) * (wal k - wal (k + 1))) := by
  have h := term_zero_eq x k
  have h1 : ((k.factorial : ℕ) : ℝ) ≠ 0 := by exact_mod_cast k.factorial_ne_zero
  have h5 : (2 * k + 2 : ℝ) ≠ 0 := by positivity
  have h4 : (k + 1 : ℝ) ≠ 0 := by positivity
  have e1 : term 1 x k = term 0 x k * (x / 2 / (k + 1)) := by
    rw [term, term, Nat.factorial_succ]
    push_cast
    rw [add_zero]
    field_simp
    ring
  rw [e1, h, wal_succ]
  field_simp
  ring

theorem I_zero (x : ℝ) : Real.pi * I 0 x = ∫ t in (0 : ℝ)..Real.pi, Real.cosh (x * Real.sin t) * 1 := by
  have h := hasSum_cosh (w := fun _ => 1) continuous_const (by simp) x
  have h2 : HasSum (fun k => Real.pi * term 0 x k) (Real.pi * I 0 x) := (term_summable 0 x).hasSum.mul_left _
  refine h2.unique (h.congr_fun fun k => ?_)
  rw [intervalIntegral.integral_const_mul, term_zero_eq]
  simp only [mul_one]
  rw [int_sin]
  ring

theorem I_one (x : ℝ) :
    Real.pi * I 1 x = x * ∫ t in (0 : ℝ)..Real.pi, Real.cosh (x * Real.sin t) * Real.cos t ^ 2 := by
  have h := (hasSum_cosh (w := fun t => Real.cos t ^ 2) (by fun_prop)
    (fun t => by rw [abs_of_nonneg (sq_nonneg _)]; exact Real.cos_sq_le_one t) x).mul_left x
  have h2 : HasSum (fun k => Real.pi * term 1 x k) (Real.pi * I 1 x) := (term_summable 1 x).hasSum.mul_left _
  refine h2.unique (h.congr_fun fun k => ?_)
  rw [intervalIntegral.integral_const_mul, term_one_eq]
  have e : ∀ t, Real.sin t ^ (2 * k) * Real.cos t ^ 2 = Real.sin t ^ (2 * k) - Real.sin t ^ (2 * (k + 1)) := by
    intro t
    rw [Real.cos_sq', mul_add 2 k 1, pow_add]
    ring
  simp only [e]
  rw [intervalIntegral.integral_sub (Continuous.intervalIntegrable (by fun_prop) _ _)
    (Continuous.intervalIntegrable (by fun_prop) _ _), int_sin, int_sin]
  ring

/-- From `cosh (x sin)` to `exp (-2 x sin²)` on the quarter period. -/
theorem quarter {v w : ℝ → ℝ} (hv : Continuous v) (hr : ∀ t, v (Real.pi - t) = v t)
    (hs : ∀ t, v t = w (t + Real.pi / 2)) (hp : ∀ t, w (t + Real.pi) = w t) (x : ℝ) :
    ∫ t in (0 : ℝ)..Real.pi, Real.cosh (x * Real.sin t) * w t
      = 2 * Real.exp x * ∫ t in (0 : ℝ)..(Real.pi / 2), Real.exp (-(2 * x) * Real.sin t ^ 2) * v (2 * t) := by
  have hper : Function.Periodic (fun t => Real.cosh (x * Real.sin t) * w t) Real.pi := by
    intro t
    simp only [Real.sin_add_pi, mul_neg, Real.cosh_neg, hp]
  have e1 : ∫ t in (0 : ℝ)..Real.pi, Real.cosh (x * Real.sin t) * w t
      = ∫ t in (0 : ℝ)..Real.pi, Real.cosh (x * Real.cos t) * v t := by
    have h := hper.intervalIntegral_add_eq 0 (Real.pi / 2)
    rw [zero_add] at h
    rw [h]
    have h2 := intervalIntegral.integral_comp_add_right (a := 0) (b := Real.pi)
      (fun t => Real.cosh (x * Real.sin t) * w t) (Real.pi / 2)
    rw [zero_add, add_comm Real.pi] at h2
    rw [← h2]
    simp only [Real.sin_add_pi_div_two, ← hs]
  have hc1 : IntervalIntegrable (fun t => Real.exp (x * Real.cos t) * v t) volume 0 Real.pi :=
    Continuous.intervalIntegrable (by fun_prop) _ _
  have hc2 : IntervalIntegrable (fun t => Real.exp (-(x * Real.cos t)) * v t) volume 0 Real.pi :=
    Continuous.intervalIntegrable (by fun_prop) _ _
  have e2 : ∫ t in (0 : ℝ)..Real.pi, Real.exp (-(x * Real.cos t)) * v t
      = ∫ t in (0 : ℝ)..Real.pi, Real.exp (x * Real.cos t) * v t := by
    have h := intervalIntegral.integral_comp_sub_left (a := 0) (b := Real.pi)
      (fun t => Real.exp (x * Real.cos t) * v t) Real.pi
    rw [sub_self, sub_zero] at h
    rw [← h]
    simp only [Real.cos_pi_sub, hr, mul_neg]
  have e3 : ∫ t in (0 : ℝ)..Real.pi, Real.cosh (x * Real.cos t) * v t
      = ∫ t in (0 : ℝ)..Real.pi, Real.exp (x * Real.cos t) * v t := by
    have : ∀ t, Real.cosh (x * Real.cos t) * v t
        = 1 / 2 * (Real.exp (x * Real.cos t) * v t + Real.exp (-(x * Real.cos t)) * v t) := by
      intro t; rw [Real.cosh_eq]; ring
    simp only [this]
    rw [intervalIntegral.integral_const_mul, intervalIntegral.integral_add hc1 hc2, e2]
    ring
  have e4 : ∫ t in (0 : ℝ)..Real.pi, Real.exp (x * Real.cos t) * v t
      = 2 * ∫ t in (0 : ℝ)..(Real.pi / 2), Real.exp (x * Real.cos (2 * t)) * v (2 * t) := by
    have h := intervalIntegral.integral_comp_mul_left (a := 0) (b := Real.pi / 2)
      (fun t => Real.exp (x * Real.cos t) * v t) (c := 2) two_ne_zero
    rw [mul_zero, mul_div_cancel₀ _ two_ne_zero] at h
    rw [h, smul_eq_mul]
    ring
  rw [e1, e3, e4, mul_assoc]
  congr 1
  rw [← intervalIntegral.integral_const_mul]
  refine intervalIntegral.integral_congr fun t _ => ?_
  rw [← mul_assoc, ← Real.exp_add, Real.cos_two_mul, Real.cos_sq']
  congr 2
  ring

theorem I_zero_quarter (x : ℝ) :
    Real.pi * I 0 x = 2 * Real.exp x * ∫ t in (0 : ℝ)..(Real.pi / 2), Real.exp (-(2 * x) * Real.sin t ^ 2) := by
  rw [I_zero, quarter (v := fun _ => 1) (w := fun _ => 1) continuous_const (by simp) (by simp) (by simp)]
  simp only [mul_one]

theorem I_one_quarter (x : ℝ) :
    Real.pi * I 1 x = 8 * x * Real.exp x *
      ∫ t in (0 : ℝ)..(Real.pi / 2), Real.exp (-(2 * x) * Real.sin t ^ 2) * (Real.sin t ^ 2 * Real.cos t ^ 2) := by
  rw [I_one, quarter (v := fun t => Real.sin t ^ 2) (w := fun t => Real.cos t ^ 2) (by fun_prop)
    (fun t => by rw [Real.sin_pi_sub]) (fun t => by rw [Real.cos_add_pi_div_two, neg_sq])
    (fun t => by rw [Real.cos_add_pi, neg_sq])]
  have : ∀ t, Real.exp (-(2 * x) * Real.sin t ^ 2) * Real.sin (2 * t) ^ 2
      = 4 * (Real.exp (-(2 * x) * Real.sin t ^ 2) * (Real.sin t ^ 2 * Real.cos t ^ 2)) := by
    intro t; rw [Real.sin_two_mul]; ring
  simp only [this]
  rw [intervalIntegral.integral_const_mul]
  ring

end Verif.Bessel
