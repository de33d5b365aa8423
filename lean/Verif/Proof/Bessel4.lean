import Verif.Proof.Bessel3
import Mathlib.Analysis.Real.Pi.Bounds
import Mathlib.Analysis.Complex.ExponentialBounds

/-! # The asymptotic expansion of the Bessel functions -/

namespace Verif.Bessel
open Spec Finset MeasureTheory

/-- The terms of the expansion, relative to the factor `exp x / √(2πx)`. -/
noncomputable def T (n : ℕ) (x : ℝ) (j : ℕ) : ℝ :=
  ∏ i ∈ range j, ((2 * (i : ℝ) + 1) ^ 2 - 4 * (n * n)) / (8 * (i + 1) * x)

theorem T_zero (n : ℕ) (x : ℝ) : T n x 0 = 1 := rfl
theorem T_succ (n : ℕ) (x : ℝ) (j : ℕ) :
    T n x (j + 1) = T n x j * (((2 * (j : ℝ) + 1) ^ 2 - 4 * (n * n)) / (8 * (j + 1) * x)) := prod_range_succ _ _

theorem T0_eq {x : ℝ} (hx : 0 < x) (j : ℕ) : T 0 x j = √(2 * Real.pi * x) * (2 / Real.pi) * (wal j * G x j) := by
  have hp := Real.pi_ne_zero
  induction j with
  | zero =>
    rw [T_zero, wal_zero, one_mul, mul_right_comm, mul_comm (√_), G_zero hx]
    field_simp
  | succ j ih =>
    rw [T_succ, ih, wal_succ, G_succ hx]
    have h5 : (2 * j + 2 : ℝ) ≠ 0 := by positivity
    have h4 : (j + 1 : ℝ) ≠ 0 := by positivity
    have h6 : x ≠ 0 := hx.ne'
    push_cast
    field_simp
    ring

theorem T1_eq {x : ℝ} (hx : 0 < x) (j : ℕ) :
    T 1 x j = √(2 * Real.pi * x) * (8 * x / Real.pi) * (dc j * G x (j + 1)) := by
  have hp := Real.pi_ne_zero
  have h6 : x ≠ 0 := hx.ne'
  induction j with
  | zero =>
    rw [T_zero, dc, one_mul, G_succ hx, Nat.cast_zero, mul_zero, zero_add, mul_right_comm, ← mul_assoc,
      mul_comm (√_), G_zero hx]
    field_simp
    norm_num
  | succ j ih =>
    have hdc : dc (j + 1) = dc j * ((2 * j - 1) / (2 * j + 2)) := by
      cases j with
      | zero => rw [dc, dc, wal_succ, wal_zero]; norm_num
      | succ j =>
        rw [dc, dc, wal_succ (j + 1), wal_succ j]
        push_cast
        have h5 : (2 * j + 2 : ℝ) ≠ 0 := by positivity
        have h4 : (2 * (j + 1) + 2 : ℝ) ≠ 0 := by positivity
        field_simp
        ring
    rw [T_succ, ih, hdc, G_succ hx (j + 1)]
    have h5 : (2 * j + 2 : ℝ) ≠ 0 := by positivity
    have h4 : (j + 1 : ℝ) ≠ 0 := by positivity
    push_cast
    field_simp
    ring

/-! ## Numbers -/

theorem exp_le {x : ℝ} (hx : 21 ≤ x) : x ^ 2 * Real.exp (-(2 * x)) ≤ 441 * (1 / 27182 * 10000) ^ 42 := by
  have h1 : x / 21 ≤ Real.exp (x / 21 - 1) := by linarith [Real.add_one_le_exp (x / 21 - 1)]
  have h2 : (x / 21) ^ 2 ≤ Real.exp (2 * x - 42) := by
    calc (x / 21) ^ 2 ≤ Real.exp (x / 21 - 1) ^ 2 := pow_le_pow_left₀ (by positivity) h1 2
      _ = Real.exp (2 * (x / 21 - 1)) := by rw [← Real.exp_nat_mul]; norm_num
      _ ≤ _ := Real.exp_le_exp.2 (by linarith)
  have h3 : Real.exp (2 * x - 42) = Real.exp (2 * x) * Real.exp (-42) := by rw [← Real.exp_add]; ring_nf
  have h4 : Real.exp (-42) ≤ (1 / 27182 * 10000) ^ 42 := by
    rw [show (-42 : ℝ) = (42 : ℕ) * (-1 : ℝ) by norm_num, Real.exp_nat_mul]
    refine pow_le_pow_left₀ (Real.exp_pos _).le ?_ 42
    rw [Real.exp_neg]
    have := Real.exp_one_gt_d9
    calc (Real.exp 1)⁻¹ ≤ (2.7182)⁻¹ := inv_anti₀ (by norm_num) (by linarith)
      _ = _ := by norm_num
  have h5 : Real.exp (2 * x) * Real.exp (-(2 * x)) = 1 := by rw [← Real.exp_add]; simp
  have h6 := Real.exp_pos (-(2 * x))
  rw [h3] at h2
  have h7 := mul_le_mul_of_nonneg_right h2 h6.le
  have h8 : Real.exp (2 * x) * Real.exp (-42) * Real.exp (-(2 * x)) = Real.exp (-42) := by
    rw [mul_right_comm, h5, one_mul]
  rw [h8] at h7
  have h9 : x ^ 2 * Real.exp (-(2 * x)) = 441 * ((x / 21) ^ 2 * Real.exp (-(2 * x))) := by ring
  rw [h9]
  linarith

/-- The maximum of `exp(-2 x u) u^40`. -/
theorem sup_le {x u : ℝ} (hx : 21 ≤ x) (hu : 0 ≤ u) :
    x ^ 2 * (Real.exp (-(2 * x) * u) * u ^ 40) ≤ 441 * (20 / 21 / 27182 * 10000) ^ 40 := by
  have hx0 : 0 < x := by linarith
  have h1 : x * u / 20 * Real.exp (-(x * u / 20)) ≤ 1 / 27182 * 10000 := by
    have h2 : x * u / 20 ≤ Real.exp (x * u / 20 - 1) := by linarith [Real.add_one_le_exp (x * u / 20 - 1)]
    have h3 : Real.exp (x * u / 20 - 1) * Real.exp (-(x * u / 20)) = Real.exp (-1) := by
      rw [← Real.exp_add]; ring_nf
    have h4 : Real.exp (-1) ≤ 1 / 27182 * 10000 := by
      rw [Real.exp_neg]
      have := Real.exp_one_gt_d9
      calc (Real.exp 1)⁻¹ ≤ (2.7182)⁻¹ := inv_anti₀ (by norm_num) (by linarith)
        _ = _ := by norm_num
    have h5 := mul_le_mul_of_nonneg_right h2 (Real.exp_pos (-(x * u / 20))).le
    linarith
  have e : Real.exp (-(2 * x) * u) * u ^ 40 = (20 / x) ^ 40 * (x * u / 20 * Real.exp (-(x * u / 20))) ^ 40 := by
    rw [mul_pow (x * u / 20), ← Real.exp_nat_mul, show ((40 : ℕ) : ℝ) * -(x * u / 20) = -(2 * x) * u by push_cast; ring,
      ← mul_assoc, ← mul_pow, show 20 / x * (x * u / 20) = u by field_simp, mul_comm]
  have h6 : (x * u / 20 * Real.exp (-(x * u / 20))) ^ 40 ≤ (1 / 27182 * 10000) ^ 40 :=
    pow_le_pow_left₀ (by positivity) h1 40
  have h7 : x ^ 2 * (20 / x) ^ 40 ≤ 441 * (20 / 21) ^ 40 := by
    have : x ^ 2 * (20 / x) ^ 40 = 400 * (20 / x) ^ 38 := by field_simp; norm_num
    rw [this, show (441 : ℝ) * (20 / 21) ^ 40 = 400 * (20 / 21) ^ 38 by norm_num]
    refine mul_le_mul_of_nonneg_left (pow_le_pow_left₀ (by positivity) ?_ 38) (by norm_num)
    exact div_le_div_of_nonneg_left (by norm_num) (by norm_num) hx
  rw [e, ← mul_assoc]
  refine (mul_le_mul h7 h6 (by positivity) (by positivity)).trans (le_of_eq ?_)
  rw [mul_assoc, ← mul_pow]
  norm_num

theorem sqrt_le {x : ℝ} (hx : 21 ≤ x) : √(2 * Real.pi * x) ≤ 11 / 20 * x := by
  refine Real.sqrt_le_iff.2 ⟨by linarith, ?_⟩
  have := Real.pi_lt_d2
  nlinarith

/-! ## The first forty terms -/

theorem subst_sin (x : ℝ) (j : ℕ) :
    ∫ t in (0 : ℝ)..(Real.pi / 2), Real.exp (-(2 * x) * Real.sin t ^ 2) * Real.sin t ^ (2 * j) * Real.cos t
      = ∫ s in (0 : ℝ)..1, Real.exp (-(2 * x) * s ^ 2) * s ^ (2 * j) := by
  have h := intervalIntegral.integral_comp_mul_deriv (a := 0) (b := Real.pi / 2) (f := Real.sin) (f' := Real.cos)
    (g := fun s => Real.exp (-(2 * x) * s ^ 2) * s ^ (2 * j)) (fun t _ => Real.hasDerivAt_sin t)
    Real.continuous_cos.continuousOn (by fun_prop)
  rw [Real.sin_zero, Real.sin_pi_div_two] at h
  exact h

theorem poly_int (x : ℝ) (c : ℕ → ℝ) (m M : ℕ) :
    ∫ t in (0 : ℝ)..(Real.pi / 2), Real.exp (-(2 * x) * Real.sin t ^ 2) *
        (Real.sin t ^ (2 * m) * (Real.cos t * ∑ j ∈ range M, c j * (Real.sin t ^ 2) ^ j))
      = ∑ j ∈ range M, c j * ∫ s in (0 : ℝ)..1, Real.exp (-(2 * x) * s ^ 2) * s ^ (2 * (j + m)) := by
  have e : ∀ t, Real.exp (-(2 * x) * Real.sin t ^ 2) *
        (Real.sin t ^ (2 * m) * (Real.cos t * ∑ j ∈ range M, c j * (Real.sin t ^ 2) ^ j))
      = ∑ j ∈ range M, c j * (Real.exp (-(2 * x) * Real.sin t ^ 2) * Real.sin t ^ (2 * (j + m)) * Real.cos t) := by
    intro t
    rw [mul_sum, mul_sum, mul_sum]
    refine sum_congr rfl fun j _ => ?_
    rw [← pow_mul, mul_add, pow_add]
    ring
  simp only [e]
  rw [intervalIntegral.integral_finset_sum fun j _ => Continuous.intervalIntegrable (by fun_prop) _ _]
  refine sum_congr rfl fun j _ => ?_
  rw [intervalIntegral.integral_const_mul, subst_sin]

theorem gap_cont (M : ℕ) : Continuous (gap M) := by
  unfold gap P
  fun_prop

theorem expand_zero {x : ℝ} (hx : 21 ≤ x) :
    |√(2 * Real.pi * x) / Real.exp x * I 0 x - ∑ j ∈ range 40, T 0 x j| ≤ 3 / 2 * eps := by
  have hp := Real.pi_pos
  have hx0 : 0 < x := by linarith
  have hq := I_zero_quarter x
  have hE := Real.exp_pos x
  -- the integral split into polynomial and remainder
  have hsplit : ∫ t in (0 : ℝ)..(Real.pi / 2), Real.exp (-(2 * x) * Real.sin t ^ 2)
      = ∑ j ∈ range 40, wal j * (∫ s in (0 : ℝ)..1, Real.exp (-(2 * x) * s ^ 2) * s ^ (2 * (j + 0)))
        + ∫ t in (0 : ℝ)..(Real.pi / 2), Real.exp (-(2 * x) * Real.sin t ^ 2) * gap 40 t := by
    rw [← poly_int x wal 0 40, ← intervalIntegral.integral_add]
    · refine intervalIntegral.integral_congr fun t _ => ?_
      simp only [gap, P, mul_zero, pow_zero, one_mul]
      ring
    · exact Continuous.intervalIntegrable (by fun_prop) _ _
    · have := gap_cont 40
      exact Continuous.intervalIntegrable (by fun_prop) _ _
  -- remainder
  have hr : ‖∫ t in (0 : ℝ)..(Real.pi / 2), Real.exp (-(2 * x) * Real.sin t ^ 2) * gap 40 t‖
      ≤ 441 * (20 / 21 / 27182 * 10000) ^ 40 / x ^ 2 * |Real.pi / 2 - 0| := by
    refine intervalIntegral.norm_integral_le_of_norm_le_const fun t ht => ?_
    rw [Set.uIoc_of_le (by linarith)] at ht
    obtain ⟨g0, g1⟩ := gap_bounds 39 ht.1.le ht.2
    rw [Real.norm_of_nonneg (by positivity), le_div_iff₀ (by positivity)]
    refine le_trans ?_ (sup_le hx (sq_nonneg (Real.sin t)))
    rw [mul_comm]
    refine mul_le_mul_of_nonneg_left (mul_le_mul_of_nonneg_left ?_ (Real.exp_pos _).le) (by positivity)
    rw [← pow_mul]
    exact g1
  -- moments
  choose! d hd0 hd1 hd2 using fun (j : ℕ) (hj : j ≤ 40) => moment_tail hx hj
  have hsum : ∑ j ∈ range 40, wal j * (∫ s in (0 : ℝ)..1, Real.exp (-(2 * x) * s ^ 2) * s ^ (2 * (j + 0)))
      = ∑ j ∈ range 40, wal j * G x j - ∑ j ∈ range 40, wal j * d j := by
    rw [← sum_sub_distrib]
    refine sum_congr rfl fun j hj => ?_
    rw [add_zero, hd2 j (mem_range.1 hj).le, mul_sub]
  have hd : 0 ≤ ∑ j ∈ range 40, wal j * d j ∧ ∑ j ∈ range 40, wal j * d j ≤ 10 * Real.exp (-(2 * x)) := by
    constructor
    · exact sum_nonneg fun j hj => mul_nonneg (wal_pos j).le (hd0 j (mem_range.1 hj).le)
    · have : ∑ j ∈ range 40, wal j * d j ≤ ∑ j ∈ range 40, Real.exp (-(2 * x)) / 4 :=
        sum_le_sum fun j hj => (mul_le_of_le_one_left (hd0 j (mem_range.1 hj).le) (wal_le_one j)).trans
          (hd1 j (mem_range.1 hj).le)
      refine this.trans (le_of_eq ?_)
      rw [sum_const, card_range, nsmul_eq_mul]
      push_cast
      ring
  have hT : ∑ j ∈ range 40, T 0 x j = √(2 * Real.pi * x) * (2 / Real.pi) * ∑ j ∈ range 40, wal j * G x j := by
    rw [mul_sum]
    exact sum_congr rfl fun j _ => T0_eq hx0 j
  have key : √(2 * Real.pi * x) / Real.exp x * I 0 x - ∑ j ∈ range 40, T 0 x j
      = √(2 * Real.pi * x) * (2 / Real.pi) *
        ((∫ t in (0 : ℝ)..(Real.pi / 2), Real.exp (-(2 * x) * Real.sin t ^ 2) * gap 40 t)
          - ∑ j ∈ range 40, wal j * d j) := by
    rw [hsplit, hsum] at hq
    rw [hT]
    generalize (∫ t in (0 : ℝ)..(Real.pi / 2), Real.exp (-(2 * x) * Real.sin t ^ 2) * gap 40 t) = R at *
    generalize ∑ j ∈ range 40, wal j * d j = D at *
    generalize ∑ j ∈ range 40, wal j * G x j = S at *
    have : I 0 x = 2 * Real.exp x * (S - D + R) / Real.pi := by rw [eq_div_iff hp.ne', ← hq]; ring
    rw [this]
    field_simp
    ring
  rw [key, abs_mul, abs_of_nonneg (by positivity)]
  rw [sub_zero, abs_of_pos (by linarith : 0 < Real.pi / 2), Real.norm_eq_abs] at hr
  have hs := sqrt_le hx
  have hex := exp_le hx
  generalize (∫ t in (0 : ℝ)..(Real.pi / 2), Real.exp (-(2 * x) * Real.sin t ^ 2) * gap 40 t) = R at *
  generalize ∑ j ∈ range 40, wal j * d j = D at *
  set B : ℝ := 441 * (20 / 21 / 27182 * 10000) ^ 40 with hB
  have hB0 : 0 < B := by positivity
  have h1 : |R - D| ≤ B / x ^ 2 * (Real.pi / 2) + 10 * Real.exp (-(2 * x)) := by
    refine (abs_sub _ _).trans ?_
    rw [abs_of_nonneg hd.1]
    linarith [hd.2]
  have h2 : √(2 * Real.pi * x) * (2 / Real.pi) * |R - D|
      ≤ 11 / 20 * x * (2 / Real.pi) * (B / x ^ 2 * (Real.pi / 2) + 10 * Real.exp (-(2 * x))) := by
    refine mul_le_mul ?_ h1 (abs_nonneg _) (by positivity)
    exact mul_le_mul_of_nonneg_right hs (by positivity)
  refine h2.trans ?_
  have h3 : 11 / 20 * x * (2 / Real.pi) * (B / x ^ 2 * (Real.pi / 2) + 10 * Real.exp (-(2 * x)))
      = 11 / 20 * (1 / x) * (B + 20 / Real.pi * (x ^ 2 * Real.exp (-(2 * x)))) := by
    field_simp
    ring
  have h4 : 20 / Real.pi ≤ 20 / 3 := div_le_div_of_nonneg_left (by norm_num) (by norm_num) Real.pi_gt_three.le
  have h5 : 1 / x ≤ 1 / 21 := one_div_le_one_div_of_le (by norm_num) hx
  rw [h3]
  calc 11 / 20 * (1 / x) * (B + 20 / Real.pi * (x ^ 2 * Real.exp (-(2 * x))))
      ≤ 11 / 20 * (1 / 21) * (B + 20 / 3 * (441 * (1 / 27182 * 10000) ^ 42)) := by
        refine mul_le_mul (by linarith) ?_ (by positivity) (by norm_num)
        exact add_le_add le_rfl (mul_le_mul h4 hex (by positivity) (by norm_num))
    _ ≤ 3 / 2 * eps := by
      rw [hB, eps]
      norm_num

theorem expand_one {x : ℝ} (hx : 21 ≤ x) :
    |√(2 * Real.pi * x) / Real.exp x * I 1 x - ∑ j ∈ range 40, T 1 x j| ≤ 3 / 2 * eps := by
  have hp := Real.pi_pos
  have hx0 : 0 < x := by linarith
  have hq := I_one_quarter x
  have hE := Real.exp_pos x
  have hcont : Continuous fun t => Real.cos t - P1 40 (Real.sin t ^ 2) := by unfold P1; fun_prop
  have hsplit : ∫ t in (0 : ℝ)..(Real.pi / 2), Real.exp (-(2 * x) * Real.sin t ^ 2) * (Real.sin t ^ 2 * Real.cos t ^ 2)
      = ∑ j ∈ range 40, dc j * (∫ s in (0 : ℝ)..1, Real.exp (-(2 * x) * s ^ 2) * s ^ (2 * (j + 1)))
        + ∫ t in (0 : ℝ)..(Real.pi / 2), Real.exp (-(2 * x) * Real.sin t ^ 2) *
          (Real.sin t ^ 2 * (Real.cos t * (Real.cos t - P1 40 (Real.sin t ^ 2)))) := by
    rw [← poly_int x dc 1 40, ← intervalIntegral.integral_add]
    · refine intervalIntegral.integral_congr fun t _ => ?_
      simp only [P1, mul_one]
      ring
    · exact Continuous.intervalIntegrable (by fun_prop) _ _
    · exact Continuous.intervalIntegrable (by fun_prop) _ _
  have h13 : ∫ t in (0 : ℝ)..(Real.pi / 2), Real.sin t ^ 2 * Real.cos t = 1 / 3 := by
    have h := intervalIntegral.integral_comp_mul_deriv (a := 0) (b := Real.pi / 2) (f := Real.sin) (f' := Real.cos)
      (g := fun s => s ^ 2) (fun t _ => Real.hasDerivAt_sin t) Real.continuous_cos.continuousOn (by fun_prop)
    rw [Real.sin_zero, Real.sin_pi_div_two, integral_pow] at h
    refine h.trans (by norm_num)
  set B : ℝ := 441 * (20 / 21 / 27182 * 10000) ^ 40 with hB
  have hB0 : 0 < B := by positivity
  have hr : ‖∫ t in (0 : ℝ)..(Real.pi / 2), Real.exp (-(2 * x) * Real.sin t ^ 2) *
          (Real.sin t ^ 2 * (Real.cos t * (Real.cos t - P1 40 (Real.sin t ^ 2))))‖ ≤ B / x ^ 2 * (1 / 3) := by
    rw [← h13, ← intervalIntegral.integral_const_mul]
    refine intervalIntegral.norm_integral_le_of_norm_le (by linarith) ?_
      (Continuous.intervalIntegrable (by fun_prop) _ _)
    refine ae_of_all _ fun t ht => ?_
    have hc0 : 0 ≤ Real.cos t := Real.cos_nonneg_of_mem_Icc ⟨by linarith [ht.1], ht.2⟩
    have hg := gap1_bounds 39 ht.1.le ht.2
    have hsup := sup_le hx (sq_nonneg (Real.sin t))
    rw [Real.norm_eq_abs, abs_mul, abs_mul, abs_mul, Real.abs_exp, abs_of_nonneg (sq_nonneg _), abs_of_nonneg hc0]
    have h1 : Real.exp (-(2 * x) * Real.sin t ^ 2) * |Real.cos t - P1 40 (Real.sin t ^ 2)| ≤ B / x ^ 2 := by
      rw [le_div_iff₀ (by positivity)]
      refine le_trans ?_ hsup
      rw [mul_comm, ← pow_mul]
      exact mul_le_mul_of_nonneg_left (mul_le_mul_of_nonneg_left hg (Real.exp_pos _).le) (by positivity)
    calc Real.exp (-(2 * x) * Real.sin t ^ 2) * (Real.sin t ^ 2 * (Real.cos t * |Real.cos t - P1 40 (Real.sin t ^ 2)|))
        = (Real.exp (-(2 * x) * Real.sin t ^ 2) * |Real.cos t - P1 40 (Real.sin t ^ 2)|)
          * (Real.sin t ^ 2 * Real.cos t) := by ring
      _ ≤ _ := mul_le_mul_of_nonneg_right h1 (by positivity)
  choose! d hd0 hd1 hd2 using fun (j : ℕ) (hj : j ≤ 40) => moment_tail hx hj
  have hsum : ∑ j ∈ range 40, dc j * (∫ s in (0 : ℝ)..1, Real.exp (-(2 * x) * s ^ 2) * s ^ (2 * (j + 1)))
      = ∑ j ∈ range 40, dc j * G x (j + 1) - ∑ j ∈ range 40, dc j * d (j + 1) := by
    rw [← sum_sub_distrib]
    refine sum_congr rfl fun j hj => ?_
    rw [hd2 (j + 1) (mem_range.1 hj), mul_sub]
  have hd : |∑ j ∈ range 40, dc j * d (j + 1)| ≤ 1 / 2 * Real.exp (-(2 * x)) := by
    refine (abs_sum_le_sum_abs _ _).trans ?_
    have : ∑ j ∈ range 40, |dc j * d (j + 1)| ≤ ∑ j ∈ range 40, |dc j| * (Real.exp (-(2 * x)) / 4) := by
      refine sum_le_sum fun j hj => ?_
      rw [abs_mul, abs_of_nonneg (hd0 (j + 1) (mem_range.1 hj))]
      exact mul_le_mul_of_nonneg_left (hd1 (j + 1) (mem_range.1 hj)) (abs_nonneg _)
    refine this.trans ?_
    rw [← sum_mul, dc_sum]
    nlinarith [wal_pos 39, Real.exp_pos (-(2 * x))]
  have hT : ∑ j ∈ range 40, T 1 x j
      = √(2 * Real.pi * x) * (8 * x / Real.pi) * ∑ j ∈ range 40, dc j * G x (j + 1) := by
    rw [mul_sum]
    exact sum_congr rfl fun j _ => T1_eq hx0 j
  generalize (∫ t in (0 : ℝ)..(Real.pi / 2), Real.exp (-(2 * x) * Real.sin t ^ 2) *
          (Real.sin t ^ 2 * (Real.cos t * (Real.cos t - P1 40 (Real.sin t ^ 2))))) = R at *
  rw [hsplit, hsum] at hq
  generalize ∑ j ∈ range 40, dc j * d (j + 1) = D at *
  have key : √(2 * Real.pi * x) / Real.exp x * I 1 x - ∑ j ∈ range 40, T 1 x j
      = √(2 * Real.pi * x) * (8 * x / Real.pi) * (R - D) := by
    rw [hT]
    generalize ∑ j ∈ range 40, dc j * G x (j + 1) = S at *
    have : I 1 x = 8 * x * Real.exp x * (S - D + R) / Real.pi := by rw [eq_div_iff hp.ne', ← hq]; ring
    rw [this]
    field_simp
    ring
  rw [key, abs_mul, abs_of_nonneg (by positivity)]
  rw [Real.norm_eq_abs] at hr
  have hs := sqrt_le hx
  have hex := exp_le hx
  have h1 : |R - D| ≤ B / x ^ 2 * (1 / 3) + 1 / 2 * Real.exp (-(2 * x)) := by
    refine (abs_sub _ _).trans ?_
    linarith
  have h2 : √(2 * Real.pi * x) * (8 * x / Real.pi) * |R - D|
      ≤ 11 / 20 * x * (8 * x / Real.pi) * (B / x ^ 2 * (1 / 3) + 1 / 2 * Real.exp (-(2 * x))) := by
    refine mul_le_mul ?_ h1 (abs_nonneg _) (by positivity)
    exact mul_le_mul_of_nonneg_right hs (by positivity)
  refine h2.trans ?_
  have h3 : 11 / 20 * x * (8 * x / Real.pi) * (B / x ^ 2 * (1 / 3) + 1 / 2 * Real.exp (-(2 * x)))
      = 22 / 5 * (1 / Real.pi) * (B / 3 + 1 / 2 * (x ^ 2 * Real.exp (-(2 * x)))) := by
    field_simp
    ring
  have h4 : 1 / Real.pi ≤ 1 / 3.14 := one_div_le_one_div_of_le (by norm_num) Real.pi_gt_d2.le
  rw [h3]
  calc 22 / 5 * (1 / Real.pi) * (B / 3 + 1 / 2 * (x ^ 2 * Real.exp (-(2 * x))))
      ≤ 22 / 5 * (1 / 3.14) * (B / 3 + 1 / 2 * (441 * (1 / 27182 * 10000) ^ 42)) := by
        refine mul_le_mul (by linarith) (by linarith) (by positivity) (by norm_num)
    _ ≤ 3 / 2 * eps := by
      rw [hB, eps]
      norm_num

end Verif.Bessel
