import Verif.Proof.Bessel2
import Mathlib.Analysis.SpecialFunctions.ImproperIntegrals
import Mathlib.MeasureTheory.Integral.Gamma
import Mathlib.Analysis.SpecialFunctions.Gaussian.GaussianIntegral
import Mathlib.Analysis.Calculus.Deriv.MeanValue

/-! # Polynomials and moments for the asymptotic expansion -/

namespace Verif.Bessel
open Spec Finset MeasureTheory

/-- The Taylor polynomial of `(1 - u)^(-1/2)`. -/
noncomputable def P (M : ℕ) (u : ℝ) : ℝ := ∑ j ∈ range M, wal j * u ^ j

theorem P_succ (M : ℕ) (u : ℝ) : P (M + 1) u = P M u + wal M * u ^ M := sum_range_succ _ _

/-- `1 - cos t P(sin² t)`. -/
noncomputable def gap (M : ℕ) (t : ℝ) : ℝ := 1 - Real.cos t * P M (Real.sin t ^ 2)

theorem gap_deriv (M : ℕ) (t : ℝ) :
    HasDerivAt (gap (M + 1)) (2 * (M + 1) * wal (M + 1) * Real.sin t ^ (2 * M + 1)) t := by
  induction M with
  | zero =>
    have h : gap 1 = fun t => 1 - Real.cos t := by
      ext t; simp [gap, P, wal_zero]
    have hd : HasDerivAt (fun t => 1 - Real.cos t) (- -Real.sin t) t := (Real.hasDerivAt_cos t).const_sub 1
    rw [h, zero_add]
    refine hd.congr_deriv ?_
    rw [wal_succ, wal_zero]
    norm_num
  | succ M ih =>
    have h : gap (M + 1 + 1) = fun t => gap (M + 1) t - wal (M + 1) * (Real.cos t * Real.sin t ^ (2 * (M + 1))) := by
      ext t
      rw [gap, gap, P_succ, ← pow_mul]
      ring
    rw [h]
    have hd := ih.sub (((Real.hasDerivAt_cos t).mul ((Real.hasDerivAt_sin t).pow (2 * (M + 1)))).const_mul (wal (M + 1)))
    refine hd.congr_deriv ?_
    have hc := Real.cos_sq' t
    rw [wal_succ (M + 1), show 2 * (M + 1) - 1 = 2 * M + 1 by omega, show 2 * (M + 1) + 1 = 2 * M + 1 + 2 by ring,
      show 2 * (M + 1) = 2 * M + 1 + 1 by ring, Pi.pow_apply, pow_succ (Real.sin t) (2 * M + 1), pow_add (Real.sin t) (2 * M + 1) 2]
    push_cast
    have h5 : (2 * (M + 1) + 2 : ℝ) ≠ 0 := by positivity
    generalize Real.sin t ^ (2 * M + 1) = s at *
    have e : Real.cos t * (((2 * M + 1 + 1 : ℝ)) * s * Real.cos t) = (2 * M + 1 + 1) * s * (1 - Real.sin t ^ 2) := by
      rw [← hc]; ring
    rw [e]
    field_simp
    ring

theorem gap_zero (M : ℕ) : gap (M + 1) 0 = 0 := by
  rw [gap, P, sum_range_succ']
  simp [wal_zero]

theorem gap_bounds (M : ℕ) {t : ℝ} (h0 : 0 ≤ t) (h1 : t ≤ Real.pi / 2) :
    0 ≤ gap (M + 1) t ∧ gap (M + 1) t ≤ Real.sin t ^ (2 * (M + 1)) := by
  have hpi := Real.pi_pos
  have hsin : ∀ s ∈ Set.Icc 0 (Real.pi / 2), 0 ≤ Real.sin s :=
    fun s hs => Real.sin_nonneg_of_nonneg_of_le_pi hs.1 (by linarith [hs.2])
  have hw := wal_pos (M + 1)
  constructor
  · have hm : MonotoneOn (gap (M + 1)) (Set.Icc 0 (Real.pi / 2)) := by
      refine monotoneOn_of_hasDerivWithinAt_nonneg (convex_Icc _ _)
        (fun s _ => (gap_deriv M s).continuousAt.continuousWithinAt)
        (fun s _ => (gap_deriv M s).hasDerivWithinAt) fun s hs => ?_
      rw [interior_Icc] at hs
      have := hsin s ⟨hs.1.le, hs.2.le⟩
      positivity
    have := hm ⟨le_rfl, by linarith⟩ ⟨h0, h1⟩ h0
    rwa [gap_zero] at this
  · have hd : ∀ s, HasDerivAt (fun t => Real.sin t ^ (2 * (M + 1)) - gap (M + 1) t)
        (2 * (M + 1) * Real.sin s ^ (2 * M + 1) * (Real.cos s - wal (M + 1))) s := by
      intro s
      refine (((Real.hasDerivAt_sin s).pow (2 * (M + 1))).sub (gap_deriv M s)).congr_deriv ?_
      rw [show 2 * (M + 1) - 1 = 2 * M + 1 by omega]
      push_cast
      ring
    have hc : Continuous (fun t => Real.sin t ^ (2 * (M + 1)) - gap (M + 1) t) :=
      continuous_iff_continuousAt.2 fun s => (hd s).continuousAt
    have hw1 := wal_le_one (M + 1)
    set a := Real.arccos (wal (M + 1)) with ha
    have ha0 : 0 ≤ a := Real.arccos_nonneg _
    have ha1 : a ≤ Real.pi / 2 := Real.arccos_le_pi_div_two.2 hw.le
    have hca : Real.cos a = wal (M + 1) := Real.cos_arccos (by linarith) hw1
    rcases le_total t a with hta | hta
    · have hm : MonotoneOn (fun t => Real.sin t ^ (2 * (M + 1)) - gap (M + 1) t) (Set.Icc 0 a) := by
        refine monotoneOn_of_hasDerivWithinAt_nonneg (convex_Icc _ _) hc.continuousOn
          (fun s _ => (hd s).hasDerivWithinAt) fun s hs => ?_
        rw [interior_Icc] at hs
        have h2 := hsin s ⟨hs.1.le, by linarith [hs.2]⟩
        have h3 : wal (M + 1) ≤ Real.cos s := by
          rw [← hca]
          exact Real.cos_le_cos_of_nonneg_of_le_pi hs.1.le (by linarith) hs.2.le
        have : 0 ≤ Real.cos s - wal (M + 1) := by linarith
        positivity
      have := hm ⟨le_rfl, ha0⟩ ⟨h0, hta⟩ h0
      simp only [gap_zero, Real.sin_zero] at this
      rw [zero_pow (by omega)] at this
      linarith
    · have hm : AntitoneOn (fun t => Real.sin t ^ (2 * (M + 1)) - gap (M + 1) t) (Set.Icc a (Real.pi / 2)) := by
        refine antitoneOn_of_hasDerivWithinAt_nonpos (convex_Icc _ _) hc.continuousOn
          (fun s _ => (hd s).hasDerivWithinAt) fun s hs => ?_
        rw [interior_Icc] at hs
        have h2 := hsin s ⟨by linarith [hs.1], hs.2.le⟩
        have h3 : Real.cos s ≤ wal (M + 1) := by
          rw [← hca]
          exact Real.cos_le_cos_of_nonneg_of_le_pi ha0 (by linarith [hs.2]) hs.1.le
        have h4 : 0 ≤ wal (M + 1) - Real.cos s := by linarith
        have h5 : 0 ≤ 2 * (M + 1) * Real.sin s ^ (2 * M + 1) := by positivity
        nlinarith [mul_nonneg h5 h4]
      have := hm ⟨hta, h1⟩ ⟨ha1, le_rfl⟩ h1
      simp only [gap, Real.cos_pi_div_two, Real.sin_pi_div_two, one_pow, zero_mul, sub_zero, sub_self] at this
      rw [gap]
      linarith

/-- Coefficients of `(1 - u)^(1/2)`. -/
noncomputable def dc : ℕ → ℝ
  | 0 => 1
  | j + 1 => wal (j + 1) - wal j

noncomputable def P1 (M : ℕ) (u : ℝ) : ℝ := ∑ j ∈ range M, dc j * u ^ j

theorem P1_eq (M : ℕ) (u : ℝ) : P1 (M + 1) u = (1 - u) * P (M + 1) u + wal M * u ^ (M + 1) := by
  induction M with
  | zero => simp [P1, P, dc, wal_zero]
  | succ M ih =>
    have : P1 (M + 1 + 1) u = P1 (M + 1) u + dc (M + 1) * u ^ (M + 1) := sum_range_succ _ _
    rw [this, ih, P_succ (M + 1), dc]
    ring

theorem dc_sum (M : ℕ) : ∑ j ∈ range (M + 1), |dc j| = 2 - wal M := by
  induction M with
  | zero => simp [dc, wal_zero]; norm_num
  | succ M ih =>
    rw [sum_range_succ, ih, dc, abs_of_nonpos (by linarith [wal_le M])]
    ring

theorem gap1_bounds (M : ℕ) {t : ℝ} (h0 : 0 ≤ t) (h1 : t ≤ Real.pi / 2) :
    |Real.cos t - P1 (M + 1) (Real.sin t ^ 2)| ≤ Real.sin t ^ (2 * (M + 1)) := by
  obtain ⟨a, b⟩ := gap_bounds M h0 h1
  have hc0 : 0 ≤ Real.cos t := Real.cos_nonneg_of_mem_Icc ⟨by linarith, h1⟩
  have hc1 := Real.cos_le_one t
  have e : Real.cos t - P1 (M + 1) (Real.sin t ^ 2)
      = Real.cos t * gap (M + 1) t - wal M * Real.sin t ^ (2 * (M + 1)) := by
    rw [P1_eq, gap, ← Real.cos_sq', ← pow_mul]
    ring
  have hw := wal_pos M
  have hw1 := wal_le_one M
  have hs : 0 ≤ Real.sin t ^ (2 * (M + 1)) := a.trans b
  rw [e, abs_le]
  constructor
  · nlinarith [mul_nonneg hc0 a]
  · nlinarith [mul_nonneg hc0 a, mul_nonneg hw.le hs]

/-! ## Moments -/

/-- `∫ exp(-2 x s²) s^(2j)` over the half line. -/
noncomputable def G (x : ℝ) (j : ℕ) : ℝ := ∫ s in Set.Ioi (0 : ℝ), Real.exp (-(2 * x) * s ^ 2) * s ^ (2 * j)

theorem moment_fun (x : ℝ) (j : ℕ) (s : ℝ) :
    Real.exp (-(2 * x) * s ^ 2) * s ^ (2 * j) = s ^ ((2 * j : ℕ) : ℝ) * Real.exp (-(2 * x) * s ^ (2 : ℝ)) := by
  rw [Real.rpow_natCast, Real.rpow_two, mul_comm]

theorem moment_int {x : ℝ} (hx : 0 < x) (j : ℕ) :
    IntegrableOn (fun s => Real.exp (-(2 * x) * s ^ 2) * s ^ (2 * j)) (Set.Ioi 0) := by
  simp only [moment_fun]
  have h0 : (0 : ℝ) ≤ ((2 * j : ℕ) : ℝ) := Nat.cast_nonneg _
  exact integrableOn_rpow_mul_exp_neg_mul_rpow (by linarith) (by norm_num) (by linarith)

theorem G_eq {x : ℝ} (hx : 0 < x) (j : ℕ) :
    G x j = (2 * x) ^ (-((j : ℝ) + 1 / 2)) * (1 / 2) * Real.Gamma (j + 1 / 2) := by
  rw [G]
  simp only [moment_fun]
  have h0 : (0 : ℝ) ≤ ((2 * j : ℕ) : ℝ) := Nat.cast_nonneg _
  rw [integral_rpow_mul_exp_neg_mul_rpow (by norm_num) (by linarith) (by linarith)]
  push_cast
  congr 2
  · congr 1; ring
  · ring

theorem G_zero {x : ℝ} (hx : 0 < x) : G x 0 * √(2 * Real.pi * x) = Real.pi / 2 := by
  have hp := Real.pi_pos
  rw [G_eq hx, Nat.cast_zero, zero_add, Real.Gamma_one_half_eq, Real.rpow_neg (by linarith), ← Real.sqrt_eq_rpow,
    show 2 * Real.pi * x = Real.pi * (2 * x) by ring, Real.sqrt_mul hp.le]
  have h1 : √(2 * x) ≠ 0 := (Real.sqrt_pos.2 (by linarith)).ne'
  have h2 : √Real.pi * √Real.pi = Real.pi := Real.mul_self_sqrt hp.le
  field_simp
  nlinarith

theorem G_succ {x : ℝ} (hx : 0 < x) (j : ℕ) : G x (j + 1) = G x j * ((2 * j + 1) / (4 * x)) := by
  rw [G_eq hx, G_eq hx]
  have e1 : (((j + 1 : ℕ) : ℝ) + 1 / 2) = (j + 1 / 2) + 1 := by push_cast; ring
  have e2 : Real.Gamma ((j + 1 / 2 : ℝ) + 1) = (j + 1 / 2) * Real.Gamma (j + 1 / 2) :=
    Real.Gamma_add_one (by positivity)
  have e3 : (2 * x) ^ (-((j + 1 / 2 : ℝ) + 1)) = (2 * x) ^ (-(j + 1 / 2 : ℝ)) / (2 * x) := by
    rw [neg_add, Real.rpow_add (by linarith), Real.rpow_neg_one]
    rfl
  rw [e1, e2, e3]
  field_simp
  ring

/-- The part of the moment above 1 is tiny. -/
theorem moment_tail {x : ℝ} (hx : 21 ≤ x) {j : ℕ} (hj : j ≤ 40) :
    ∃ d, 0 ≤ d ∧ d ≤ Real.exp (-(2 * x)) / 4 ∧
      ∫ s in (0 : ℝ)..1, Real.exp (-(2 * x) * s ^ 2) * s ^ (2 * j) = G x j - d := by
  have hi := moment_int (x := x) (by linarith) j
  have hi1 : IntegrableOn (fun s => Real.exp (-(2 * x) * s ^ 2) * s ^ (2 * j)) (Set.Ioi 1) :=
    hi.mono_set (Set.Ioi_subset_Ioi zero_le_one)
  have e := intervalIntegral.integral_interval_add_Ioi hi hi1
  refine ⟨∫ s in Set.Ioi (1 : ℝ), Real.exp (-(2 * x) * s ^ 2) * s ^ (2 * j), ?_, ?_, by rw [G]; linarith⟩
  · refine setIntegral_nonneg measurableSet_Ioi fun s hs => ?_
    have : (0 : ℝ) < s := lt_trans one_pos hs
    positivity
  · have hg : IntegrableOn (fun s => Real.exp (-(2 * x) + 4) * Real.exp (-4 * s)) (Set.Ioi 1) :=
      (integrableOn_exp_mul_Ioi (by norm_num : (-4 : ℝ) < 0) 1).const_mul _
    have hle : ∫ s in Set.Ioi (1 : ℝ), Real.exp (-(2 * x) * s ^ 2) * s ^ (2 * j)
        ≤ ∫ s in Set.Ioi (1 : ℝ), Real.exp (-(2 * x) + 4) * Real.exp (-4 * s) := by
      refine setIntegral_mono_on hi1 hg measurableSet_Ioi fun s hs => ?_
      have hs1 : (1 : ℝ) < s := hs
      have h1 : s ^ (2 * j) ≤ Real.exp (40 * (s ^ 2 - 1)) := by
        calc s ^ (2 * j) ≤ s ^ (2 * 40) := pow_le_pow_right₀ hs1.le (by omega)
          _ = (s ^ 2) ^ 40 := by rw [← pow_mul]
          _ ≤ (Real.exp (s ^ 2 - 1)) ^ 40 :=
            pow_le_pow_left₀ (by positivity) (by linarith [Real.add_one_le_exp (s ^ 2 - 1)]) 40
          _ = Real.exp (40 * (s ^ 2 - 1)) := by rw [← Real.exp_nat_mul]; norm_num
      calc Real.exp (-(2 * x) * s ^ 2) * s ^ (2 * j)
          ≤ Real.exp (-(2 * x) * s ^ 2) * Real.exp (40 * (s ^ 2 - 1)) :=
            mul_le_mul_of_nonneg_left h1 (Real.exp_pos _).le
        _ ≤ Real.exp (-(2 * x) + 4) * Real.exp (-4 * s) := by
          rw [← Real.exp_add, ← Real.exp_add, Real.exp_le_exp]
          nlinarith [mul_nonneg (show 0 ≤ 2 * x - 42 by linarith) (show 0 ≤ s ^ 2 - 1 by nlinarith),
            sq_nonneg (s - 1)]
    refine hle.trans (le_of_eq ?_)
    rw [integral_const_mul, integral_exp_mul_Ioi (by norm_num : (-4 : ℝ) < 0), mul_one, ← mul_div_assoc, mul_neg,
      ← Real.exp_add]
    norm_num

end Verif.Bessel
