import Verif.Proof.Elliptic2
import Mathlib.Analysis.SpecialFunctions.Arsinh
import Mathlib.Analysis.Complex.ExponentialBounds

/-! # Lemmas for C88: the complete integral near `m = 1` -/

namespace Verif.Elliptic
open Verif.Elliptic.Spec

/-- The complete integral as a function of the complementary modulus. -/
noncomputable def kap (c : ℝ) : ℝ := K (1 - c ^ 2)

theorem K_step {k : ℝ} (h0 : 0 ≤ k) (h1 : k < 1) : K (k ^ 2) = (1 + landenStep k) * K (landenStep k ^ 2) := by
  obtain ⟨g0, -⟩ := step_facts h0 h1
  have h := gauss_F h0 h1 (φ := Real.pi / 2) ⟨by linarith [Real.pi_pos], le_rfl⟩
  have e : gauss (landenStep k) (Real.sin (Real.pi / 2)) = 1 := by
    rw [Real.sin_pi_div_two, gauss]
    field_simp
  rw [e, Real.arcsin_one] at h
  exact h

/-- Going up in the modulus. -/
theorem kap_step {c : ℝ} (h0 : 0 < c) (h1 : c < 1) : kap c = (1 + landenStep c) / 2 * kap (landenStep c) := by
  obtain ⟨q0, q1, hq⟩ := comp_facts h0.le h1
  obtain ⟨d0, d1, -, -, hd⟩ := step_facts h0.le h1
  have ed := step_eq h0.le h1
  generalize hqq : √(1 - c * c) = q at *
  generalize landenStep c = d at *
  have k0 := Real.sqrt_nonneg (1 - d ^ 2)
  have hdq : 0 < d := by
    rw [ed]
    have : q < 1 := by nlinarith
    exact div_pos (by linarith) (by linarith)
  have hk2 : √(1 - d ^ 2) ^ 2 = 1 - d ^ 2 := Real.sq_sqrt (by nlinarith)
  have k1 : √(1 - d ^ 2) < 1 := by nlinarith
  have hs := K_step k0 k1
  have e1 : √(1 - √(1 - d ^ 2) * √(1 - d ^ 2)) = d := by
    rw [← pow_two, hk2, sub_sub_cancel, Real.sqrt_sq d0]
  have e2 : landenStep √(1 - d ^ 2) = q := by
    rw [step_eq k0 k1, e1, ed]
    field_simp
    ring
  rw [e2, hk2] at hs
  have e3 : q ^ 2 = 1 - c ^ 2 := by rw [hq]; ring
  rw [e3] at hs
  rw [kap, kap, hs]
  linear_combination (-(K (1 - c ^ 2)) / 2) * hd

/-! ## Crude bounds -/

theorem kap_lower {c : ℝ} (h0 : 0 < c) (h1 : c ≤ 1) : -Real.log c ≤ kap c := by
  have hm0 : 0 ≤ 1 - c ^ 2 := by nlinarith
  have hm1 : 1 - c ^ 2 < 1 := by nlinarith
  have hpi := Real.pi_gt_three
  have hc := integrand_cont hm0 hm1
  have hpos : ∀ t ∈ Set.uIcc (0 : ℝ) (Real.pi / 2), 0 < Real.pi / 2 - t + c := by
    intro t ht
    rw [Set.uIcc_of_le (by linarith)] at ht
    linarith [ht.2]
  have hder : ∀ t ∈ Set.uIcc (0 : ℝ) (Real.pi / 2),
      HasDerivAt (fun t => -Real.log (Real.pi / 2 - t + c)) (1 / (Real.pi / 2 - t + c)) t := by
    intro t ht
    have h1 : HasDerivAt (fun t : ℝ => Real.pi / 2 - t + c) (-1) t := by
      simpa using ((hasDerivAt_id t).const_sub (Real.pi / 2)).add_const c
    refine (h1.log (hpos t ht).ne').neg.congr_deriv ?_
    ring
  have hcont : ContinuousOn (fun t : ℝ => 1 / (Real.pi / 2 - t + c)) (Set.uIcc 0 (Real.pi / 2)) :=
    continuousOn_const.div (by fun_prop) fun t ht => (hpos t ht).ne'
  have hi := intervalIntegral.integral_eq_sub_of_hasDerivAt hder hcont.intervalIntegrable
  have hle : ∫ t in (0 : ℝ)..(Real.pi / 2), 1 / (Real.pi / 2 - t + c) ≤ kap c := by
    refine intervalIntegral.integral_mono_on (μ := MeasureTheory.volume) (by linarith) hcont.intervalIntegrable
      (hc.intervalIntegrable _ _) fun t ht => ?_
    have hp := hpos t (by rw [Set.uIcc_of_le (by linarith)]; exact ht)
    refine one_div_le_one_div_of_le (Real.sqrt_pos.2 (integrand_pos hm0 hm1 t)) ?_
    refine Real.sqrt_le_iff.2 ⟨hp.le, ?_⟩
    have hs := Real.sin_sq_add_cos_sq t
    have hcos : |Real.cos t| ≤ Real.pi / 2 - t := by
      rw [← Real.sin_pi_div_two_sub]
      refine (Real.abs_sin_le_abs (x := Real.pi / 2 - t)).trans (le_of_eq ?_)
      exact abs_of_nonneg (by linarith [ht.2])
    have h2 : Real.cos t ^ 2 ≤ (Real.pi / 2 - t) ^ 2 := by
      rw [← sq_abs]
      exact pow_le_pow_left₀ (abs_nonneg _) hcos 2
    have h3 : 0 ≤ Real.pi / 2 - t := by linarith [ht.2]
    nlinarith [Real.sin_sq_le_one t, sq_nonneg (Real.sin t), mul_nonneg h3 h0.le]
  rw [hi] at hle
  simp only [sub_self, zero_add, sub_zero] at hle
  have : 0 ≤ Real.log (Real.pi / 2 + c) := Real.log_nonneg (by linarith)
  linarith

theorem kap_upper {c : ℝ} (h0 : 0 < c) (h1 : c ≤ 1) : kap c ≤ -Real.log c + 3 := by
  have hm0 : 0 ≤ 1 - c ^ 2 := by nlinarith
  have hm1 : 1 - c ^ 2 < 1 := by nlinarith
  have hpi := Real.pi_pos
  have hpi4 := Real.pi_lt_four
  have hc := integrand_cont hm0 hm1
  have hsp : ∫ t in (0 : ℝ)..(Real.pi / 4), 1 / √(1 - (1 - c ^ 2) * Real.sin t ^ 2) ≤ Real.pi / 4 * √2 := by
    have h := intervalIntegral.integral_mono_on (μ := MeasureTheory.volume) (a := 0) (b := Real.pi / 4) (by linarith)
      (hc.intervalIntegrable _ _) (intervalIntegrable_const (c := √2)) fun t ht => by
        have hs : Real.sin t ^ 2 ≤ 1 / 2 := by
          have h2 := Real.sin_sq_eq_half_sub t
          have h3 : 0 ≤ Real.cos (2 * t) :=
            Real.cos_nonneg_of_mem_Icc ⟨by linarith [ht.1], by linarith [ht.2]⟩
          linarith
        have hp := integrand_pos hm0 hm1 t
        rw [div_le_iff₀ (Real.sqrt_pos.2 hp), ← Real.sqrt_mul (by norm_num)]
        refine Real.one_le_sqrt.2 ?_
        nlinarith [sq_nonneg (Real.sin t)]
    refine h.trans (le_of_eq ?_)
    rw [intervalIntegral.integral_const]
    simp
  have hlog : ∫ t in (Real.pi / 4)..(Real.pi / 2), 1 / √(1 - (1 - c ^ 2) * Real.sin t ^ 2) ≤ Real.arsinh (1 / c) := by
    have hsin : ∀ t ∈ Set.uIcc (Real.pi / 4) (Real.pi / 2), 0 < Real.sin t := by
      intro t ht
      rw [Set.uIcc_of_le (by linarith)] at ht
      exact Real.sin_pos_of_pos_of_lt_pi (by linarith [ht.1]) (by linarith [ht.2])
    have hder : ∀ t ∈ Set.uIcc (Real.pi / 4) (Real.pi / 2),
        HasDerivAt (fun t => -Real.arsinh (Real.cos t / Real.sin t / c))
          (1 / (Real.sin t * √(1 - (1 - c ^ 2) * Real.sin t ^ 2))) t := by
      intro t ht
      have hs := hsin t ht
      have h2 := ((Real.hasDerivAt_cos t).div (Real.hasDerivAt_sin t) hs.ne').div_const c
      have h3 := ((Real.hasDerivAt_arsinh (Real.cos t / Real.sin t / c)).comp t h2).neg
      refine h3.congr_deriv ?_
      have e1 : 1 + (Real.cos t / Real.sin t / c) ^ 2
          = (1 - (1 - c ^ 2) * Real.sin t ^ 2) / (Real.sin t * c) ^ 2 := by
        have := Real.sin_sq_add_cos_sq t
        field_simp
        linear_combination this
      have e2 : -Real.sin t * Real.sin t - Real.cos t * Real.cos t = -1 := by
        linear_combination -(Real.sin_sq_add_cos_sq t)
      have hp := Real.sqrt_pos.2 (integrand_pos hm0 hm1 t)
      rw [e1, Real.sqrt_div (integrand_pos hm0 hm1 t).le, Real.sqrt_sq (by positivity), e2]
      field_simp
    have hcont : ContinuousOn (fun t => 1 / (Real.sin t * √(1 - (1 - c ^ 2) * Real.sin t ^ 2)))
        (Set.uIcc (Real.pi / 4) (Real.pi / 2)) :=
      continuousOn_const.div (by fun_prop)
        fun t ht => (mul_pos (hsin t ht) (Real.sqrt_pos.2 (integrand_pos hm0 hm1 t))).ne'
    have hi := intervalIntegral.integral_eq_sub_of_hasDerivAt hder hcont.intervalIntegrable
    have hle := intervalIntegral.integral_mono_on (μ := MeasureTheory.volume) (a := Real.pi / 4) (b := Real.pi / 2)
      (by linarith) (hc.intervalIntegrable _ _) hcont.intervalIntegrable fun t ht => by
        have hs := hsin t (by rw [Set.uIcc_of_le (by linarith)]; exact ht)
        have hp := Real.sqrt_pos.2 (integrand_pos hm0 hm1 t)
        refine one_div_le_one_div_of_le (by positivity) ?_
        exact mul_le_of_le_one_left hp.le (Real.sin_le_one t)
    rw [hi] at hle
    refine hle.trans (le_of_eq ?_)
    have h2 : (√2 / 2) ≠ 0 := by positivity
    rw [Real.cos_pi_div_two, Real.sin_pi_div_two, Real.cos_pi_div_four, Real.sin_pi_div_four, div_self h2]
    simp
  have hsum := intervalIntegral.integral_add_adjacent_intervals (hc.intervalIntegrable (μ := MeasureTheory.volume) 0 (Real.pi / 4))
    (hc.intervalIntegrable (Real.pi / 4) (Real.pi / 2))
  have hk : kap c = ∫ t in (0 : ℝ)..(Real.pi / 2), 1 / √(1 - (1 - c ^ 2) * Real.sin t ^ 2) := rfl
  have h2 : √2 ≤ 1.4143 := Real.sqrt_le_iff.2 ⟨by norm_num, by norm_num⟩
  have has : Real.arsinh (1 / c) ≤ -Real.log c + 1 := by
    have e : Real.exp (Real.arsinh (1 / c)) ≤ 1 / c * (1 + √2) := by
      rw [Real.exp_arsinh]
      have : √(1 + (1 / c) ^ 2) ≤ √2 * (1 / c) := by
        refine Real.sqrt_le_iff.2 ⟨by positivity, ?_⟩
        rw [mul_pow, Real.sq_sqrt (by norm_num)]
        have : 1 ≤ 1 / c := by rw [le_div_iff₀ h0]; linarith
        nlinarith
      linarith
    have h3 : Real.arsinh (1 / c) ≤ Real.log (1 / c * (1 + √2)) := by
      rw [Real.le_log_iff_exp_le (by positivity)]; exact e
    rw [Real.log_mul (by positivity) (by positivity), one_div, Real.log_inv] at h3
    have h4 : Real.log (1 + √2) ≤ 1 := by
      rw [Real.log_le_iff_le_exp (by positivity)]
      have := Real.exp_one_gt_d9
      linarith
    rw [one_div]
    linarith
  rw [hk, ← hsum]
  nlinarith

/-! ## The asymptotic formula -/

noncomputable def lam (c : ℝ) : ℝ := Real.log (4 / c)

theorem lam_eq {c : ℝ} (h0 : 0 < c) : lam c = 2 * Real.log 2 - Real.log c := by
  rw [lam, Real.log_div (by norm_num) h0.ne', show (4 : ℝ) = 2 ^ 2 by norm_num, Real.log_pow]
  push_cast
  ring

theorem lam_ge {c : ℝ} (h0 : 0 < c) (h1 : c ≤ 1 / 2) : 2 ≤ lam c := by
  have h2 := Real.log_two_gt_d9
  have h3 : Real.log c ≤ -Real.log 2 := by
    rw [← Real.log_inv]
    exact Real.log_le_log h0 (by linarith)
  rw [lam_eq h0]
  linarith

/-- What one step does to the complement and its logarithm. -/
theorem near_facts {c : ℝ} (h0 : 0 < c) (h1 : c ≤ 1 / 2) :
    ∃ y, 0 < landenStep c ∧ landenStep c ≤ c ^ 2 / 3 ∧ c ^ 2 / 4 ≤ landenStep c ∧ landenStep c - c ^ 2 / 4 ≤ c ^ 4 / 3 ∧
      (1 + landenStep c) * y = 1 ∧ -landenStep c ≤ Real.log y ∧ Real.log y ≤ -(landenStep c * y) ∧
      lam (landenStep c) = 2 * (lam c + Real.log y) := by
  have hc1 : c < 1 := by linarith
  obtain ⟨q0, q1, hq⟩ := comp_facts h0.le hc1
  obtain ⟨-, d1, -, -, hd⟩ := step_facts h0.le hc1
  have ed := step_eq h0.le hc1
  have hql : 4 / 5 ≤ √(1 - c * c) := Real.le_sqrt_of_sq_le (by nlinarith)
  have edef : landenStep c = c ^ 2 / (1 + √(1 - c * c)) ^ 2 := by rw [landenStep, div_pow]
  generalize √(1 - c * c) = q at *
  have dpos : 0 < landenStep c := by rw [edef]; positivity
  have hlog : lam (landenStep c) = 2 * (lam c + Real.log ((1 + q) / 2)) := by
    rw [lam_eq dpos, lam_eq h0, edef, Real.log_div (by positivity) (by positivity), Real.log_pow, Real.log_pow,
      Real.log_div (by positivity) (by positivity)]
    push_cast
    ring
  have hd4 : landenStep c - c ^ 2 / 4 = c ^ 2 * (1 - q) * (3 + q) / (4 * (1 + q) ^ 2) := by
    rw [edef]; field_simp; ring
  have hq1 : 1 - q ≤ c ^ 2 := by nlinarith
  refine ⟨(1 + q) / 2, dpos, ?_, ?_, ?_, by linarith, ?_, ?_, hlog⟩
  · rw [edef]
    exact div_le_div_of_nonneg_left (sq_nonneg c) (by norm_num) (by nlinarith)
  · rw [edef]
    exact div_le_div_of_nonneg_left (sq_nonneg c) (by positivity) (by nlinarith)
  · rw [hd4, div_le_div_iff₀ (by positivity) (by norm_num)]
    have a1 : c ^ 2 * (1 - q) ≤ c ^ 4 := by nlinarith [sq_nonneg c, mul_le_mul_of_nonneg_left hq1 (sq_nonneg c)]
    have a2 : 0 ≤ c ^ 2 * (1 - q) := mul_nonneg (sq_nonneg c) (by linarith)
    have a3 : c ^ 2 * (1 - q) * (3 + q) ≤ c ^ 4 * 4 := by nlinarith [mul_le_mul a1 (show 3 + q ≤ 4 by linarith) (by linarith) (by positivity)]
    have a4 : (3 : ℝ) ≤ (1 + q) ^ 2 := by nlinarith
    nlinarith [mul_le_mul_of_nonneg_left a4 (show 0 ≤ c ^ 4 by positivity)]
  · have h := Real.one_sub_inv_le_log_of_pos (x := (1 + q) / 2) (by positivity)
    have e : 1 - ((1 + q) / 2)⁻¹ = -landenStep c := by rw [ed]; field_simp; ring
    rwa [e] at h
  · have h := Real.log_le_sub_one_of_pos (x := (1 + q) / 2) (by positivity)
    have e : (1 + q) / 2 - 1 = -(landenStep c * ((1 + q) / 2)) := by rw [ed]; field_simp; ring
    rwa [e] at h

theorem near_iter (n : ℕ) : ∀ c : ℝ, 0 < c → c ≤ 1 / 2 → |kap c - lam c| ≤ 4 * (3 / 4) ^ n + c ^ 2 * lam c := by
  induction n with
  | zero =>
    intro c h0 h1
    have l := kap_lower h0 (by linarith)
    have u := kap_upper h0 (by linarith)
    have e := lam_eq h0
    have g := lam_ge h0 h1
    have l1 := Real.log_two_gt_d9
    have l2 := Real.log_two_lt_d9
    have : 0 ≤ c ^ 2 * lam c := by positivity
    rw [pow_zero, mul_one]
    rw [abs_le]
    constructor <;> linarith
  | succ n ih =>
    intro c h0 h1
    obtain ⟨y, d0, dl, -, -, hy, l1, l2, hl⟩ := near_facts h0 h1
    have hs := kap_step h0 (by linarith)
    have g := lam_ge h0 h1
    have hd12 : landenStep c ≤ 1 / 12 := by nlinarith
    have hi := ih (landenStep c) d0 (by linarith)
    generalize landenStep c = d at *
    have hy0 : 0 < y := by nlinarith
    have hyl : Real.log y ≤ 0 := l2.trans (by nlinarith [mul_pos d0 hy0])
    have e : kap c - lam c = (1 + d) / 2 * (kap d - lam d) + (d * lam c + (1 + d) * Real.log y) := by
      rw [hs, hl]; ring
    have g1 : 0 ≤ d * lam c + (1 + d) * Real.log y := by nlinarith
    have g2 : d * lam c + (1 + d) * Real.log y ≤ d * lam c := by nlinarith
    have h3 : d ^ 2 * lam d ≤ d * lam c / 6 := by
      rw [hl]
      have : d ^ 2 * (2 * (lam c + Real.log y)) ≤ d ^ 2 * (2 * lam c) :=
        mul_le_mul_of_nonneg_left (by linarith) (sq_nonneg d)
      nlinarith [mul_nonneg d0.le (show (0:ℝ) ≤ lam c by linarith)]
    have h4 : d * lam c ≤ c ^ 2 / 3 * lam c := mul_le_mul_of_nonneg_right dl (by linarith)
    have hp : (0 : ℝ) ≤ (3 / 4) ^ n := by positivity
    have hdl : 0 ≤ d * lam c := by nlinarith
    calc |kap c - lam c| ≤ |(1 + d) / 2 * (kap d - lam d)| + |d * lam c + (1 + d) * Real.log y| := by
          rw [e]; exact abs_add_le _ _
      _ ≤ 13 / 24 * (4 * (3 / 4) ^ n + d ^ 2 * lam d) + d * lam c := by
          rw [abs_mul, abs_of_nonneg (show 0 ≤ (1 + d) / 2 by linarith), abs_of_nonneg g1]
          have : (1 + d) / 2 * |kap d - lam d| ≤ 13 / 24 * (4 * (3 / 4) ^ n + d ^ 2 * lam d) :=
            mul_le_mul (by linarith) hi (abs_nonneg _) (by norm_num)
          linarith
      _ ≤ 4 * (3 / 4) ^ (n + 1) + c ^ 2 * lam c := by
          rw [pow_succ (3 / 4 : ℝ) n]
          nlinarith

theorem near_first {c : ℝ} (h0 : 0 < c) (h1 : c ≤ 1 / 2) : |kap c - lam c| ≤ c ^ 2 * lam c := by
  have ht : Filter.Tendsto (fun n : ℕ => 4 * (3 / 4 : ℝ) ^ n + c ^ 2 * lam c) Filter.atTop
      (nhds (4 * 0 + c ^ 2 * lam c)) :=
    ((tendsto_pow_atTop_nhds_zero_of_lt_one (by norm_num) (by norm_num)).const_mul 4).add_const _
  rw [mul_zero, zero_add] at ht
  exact ge_of_tendsto' ht fun n => near_iter n c h0 h1

/-- The formula used near `m = 1`. -/
theorem near_one {c : ℝ} (h0 : 0 < c) (h1 : c ≤ 1 / 2) :
    |kap c - (lam c + (lam c - 1) * c ^ 2 / 4)| ≤ c ^ 4 * lam c := by
  obtain ⟨y, d0, dl, dm, dn, hy, l1, l2, hl⟩ := near_facts h0 h1
  have hs := kap_step h0 (by linarith)
  have g := lam_ge h0 h1
  have hd12 : landenStep c ≤ 1 / 12 := by nlinarith
  have hi := near_first d0 (show landenStep c ≤ 1 / 2 by linarith)
  generalize landenStep c = d at *
  have hy0 : 0 < y := by nlinarith
  have hyl : Real.log y ≤ 0 := l2.trans (by nlinarith [mul_pos d0 hy0])
  have e : kap c - (lam c + (lam c - 1) * c ^ 2 / 4)
      = (d - c ^ 2 / 4) * lam c + ((1 + d) * Real.log y + c ^ 2 / 4) + (1 + d) / 2 * (kap d - lam d) := by
    rw [hs, hl]; ring
  have hc4 : (0 : ℝ) ≤ c ^ 4 := by positivity
  have hd2 : d ^ 2 ≤ c ^ 4 / 9 := by
    have := pow_le_pow_left₀ d0.le dl 2
    calc d ^ 2 ≤ (c ^ 2 / 3) ^ 2 := this
      _ = c ^ 4 / 9 := by ring
  have b1 : (1 + d) * Real.log y + c ^ 2 / 4 ≤ 0 := by
    have : (1 + d) * Real.log y ≤ (1 + d) * (-(d * y)) := mul_le_mul_of_nonneg_left l2 (by linarith)
    have e2 : (1 + d) * (-(d * y)) = -d := by linear_combination (-d) * hy
    linarith
  have b2 : -(c ^ 4 / 2) ≤ (1 + d) * Real.log y + c ^ 2 / 4 := by
    have : (1 + d) * (-d) ≤ (1 + d) * Real.log y := mul_le_mul_of_nonneg_left l1 (by linarith)
    nlinarith
  have b3 : |(1 + d) / 2 * (kap d - lam d)| ≤ 13 / 24 * (c ^ 4 / 9 * (2 * lam c)) := by
    rw [abs_mul, abs_of_nonneg (show 0 ≤ (1 + d) / 2 by linarith)]
    refine mul_le_mul (by linarith) (hi.trans ?_) (abs_nonneg _) (by norm_num)
    rw [hl]
    have : 0 ≤ lam c + Real.log y := by nlinarith
    exact mul_le_mul hd2 (by linarith) (by linarith) (by positivity)
  have b4 : 0 ≤ (d - c ^ 2 / 4) * lam c := mul_nonneg (by linarith) (by linarith)
  have b5 : (d - c ^ 2 / 4) * lam c ≤ c ^ 4 / 3 * lam c := mul_le_mul_of_nonneg_right dn (by linarith)
  have b6 : c ^ 4 * 2 ≤ c ^ 4 * lam c := mul_le_mul_of_nonneg_left g hc4
  rw [e]
  rw [abs_le] at b3 ⊢
  constructor <;> nlinarith [b3.1, b3.2]

end Verif.Elliptic
