import Verif.Theorems.Bessel
import Verif.Spec.ResamplerKernel
import Verif.Model.ResamplerKernel
import Verif.Model.RationalFactorResampler
import Mathlib.Analysis.SpecialFunctions.Trigonometric.Bounds

/-!
# Accuracy of the two resampling kernels
-/

namespace Verif.ResamplerKernel
open Verif.Bessel (besselI0 I0_ge_one)
open Verif.Bessel.Spec (I)

theorem I0_mono {x y : ℝ} (hx : 0 ≤ x) (hxy : x ≤ y) : I 0 x ≤ I 0 y := by
  refine (Bessel.term_summable 0 x).tsum_le_tsum (fun k => ?_) (Bessel.term_summable 0 y)
  rw [Bessel.Spec.term, Bessel.Spec.term]
  refine div_le_div_of_nonneg_right (pow_le_pow_left₀ (by linarith) (by linarith) _) (by positivity)

theorem cosh_le_exp {z w : ℝ} (hz : 0 ≤ z) (hw : 0 ≤ w) : Real.cosh (z + w) ≤ Real.exp w * Real.cosh z := by
  rw [Real.cosh_eq, Real.cosh_eq, Real.exp_add, neg_add, Real.exp_add]
  have h1 : Real.exp (-w) ≤ Real.exp w := Real.exp_le_exp.2 (by linarith)
  have h2 := Real.exp_pos (-z)
  nlinarith

theorem I0_slope {beta s : ℝ} (hb : 0 ≤ beta) (h0 : 0 ≤ s) (h1 : s ≤ 1) :
    (1 - (1 - s) * beta) * I 0 beta ≤ I 0 (beta * s) := by
  have h : I 0 beta ≤ Real.exp ((1 - s) * beta) * I 0 (beta * s) := by
    have hpi := Real.pi_pos
    rw [← mul_le_mul_iff_right₀ hpi, mul_left_comm, Bessel.I_zero, Bessel.I_zero,
      ← intervalIntegral.integral_const_mul]
    simp only [mul_one]
    refine intervalIntegral.integral_mono_on (μ := MeasureTheory.volume) hpi.le
      (Continuous.intervalIntegrable (by fun_prop) _ _) (Continuous.intervalIntegrable (by fun_prop) _ _) fun t ht => ?_
    have hs := Real.sin_nonneg_of_nonneg_of_le_pi ht.1 ht.2
    have hs1 := Real.sin_le_one t
    have hbs : 0 ≤ beta * Real.sin t := mul_nonneg hb hs
    have e : beta * Real.sin t = beta * s * Real.sin t + (1 - s) * (beta * Real.sin t) := by ring
    rw [e]
    refine (cosh_le_exp (by positivity) (mul_nonneg (by linarith) hbs)).trans ?_
    refine mul_le_mul_of_nonneg_right (Real.exp_le_exp.2 ?_) (Real.cosh_pos _).le
    refine mul_le_mul_of_nonneg_left ?_ (by linarith)
    nlinarith
  have h2 : (1 - (1 - s) * beta) ≤ Real.exp (-((1 - s) * beta)) := by
    have := Real.add_one_le_exp (-((1 - s) * beta)); linarith
  have h3 : 0 ≤ I 0 beta := (zero_le_one.trans (I0_ge_one beta))
  refine (mul_le_mul_of_nonneg_right h2 h3).trans ?_
  refine (mul_le_mul_of_nonneg_left h (Real.exp_pos _).le).trans ?_
  rw [← mul_assoc, ← Real.exp_add, neg_add_cancel, Real.exp_zero, one_mul]

/-- The ideal window. -/
noncomputable def win (beta u : ℝ) : ℝ := I 0 (beta * √(1 - u ^ 2)) / I 0 beta

theorem win_bounds {beta u : ℝ} (hb : 0 ≤ beta) : 0 ≤ win beta u ∧ win beta u ≤ 1 := by
  have h1 : 0 < I 0 beta := lt_of_lt_of_le one_pos (I0_ge_one beta)
  have h2 := I0_ge_one (beta * √(1 - u ^ 2))
  refine ⟨div_nonneg (by linarith) h1.le, (div_le_one h1).2 (I0_mono (by positivity) ?_)⟩
  refine mul_le_of_le_one_right hb (Real.sqrt_le_iff.2 ⟨one_pos.le, ?_⟩)
  nlinarith [sq_nonneg u]

theorem ratio_close {A A' B B' : ℝ} (hA : |A - A'| ≤ 1 / 10 ^ 15 * A) (hB : |B - B'| ≤ 1 / 10 ^ 15 * B)
    (ha1 : 1 ≤ A) (hb1 : 1 ≤ B) : |A' / B' - A / B| ≤ 3 / 10 ^ 15 * (A / B) := by
  have ha := abs_le.1 hA
  have hb := abs_le.1 hB
  have hB' : 0 < B' := by nlinarith
  have hB : 0 < B := by linarith
  rw [div_sub_div _ _ hB'.ne' hB.ne', abs_div, abs_of_pos (mul_pos hB' hB), ← mul_div_assoc,
    div_le_div_iff₀ (mul_pos hB' hB) hB]
  have h2 : |A' * B - B' * A| ≤ 2 / 10 ^ 15 * (A * B) := by
    have h3 : A' * B - B' * A = (A' - A) * B + A * (B - B') := by ring
    rw [h3]
    refine (abs_add_le _ _).trans ?_
    rw [abs_mul, abs_mul, abs_of_pos hB, abs_of_pos (by linarith : 0 < A)]
    have h4 : |A' - A| ≤ 1 / 10 ^ 15 * A := abs_le.2 ⟨by linarith, by linarith⟩
    have h5 : |B - B'| ≤ 1 / 10 ^ 15 * B := abs_le.2 ⟨by linarith, by linarith⟩
    have h6 := mul_le_mul_of_nonneg_right h4 hB.le
    have h7 := mul_le_mul_of_nonneg_left h5 (by linarith : 0 ≤ A)
    linarith
  have h8 : 2 / 10 ^ 15 * B ≤ 3 / 10 ^ 15 * B' := by linarith
  have h9 : 0 < A * B := mul_pos (by linarith) hB
  nlinarith [mul_le_mul_of_nonneg_right h2 hB.le, mul_le_mul_of_nonneg_left h8 h9.le]

theorem sinc_small {w d : ℝ} (h : |w| ≤ d) (hd : d ≤ 1) : |1 - Real.sinc w| ≤ d ^ 2 := by
  have key : ∀ v : ℝ, 0 < v → v ≤ d → |1 - Real.sin v / v| ≤ d ^ 2 := by
    intro v hv hvd
    have h1 := Real.sin_gt_sub_cube hv
    have h2 := Real.sin_lt hv
    rw [abs_le]
    constructor
    · have : Real.sin v / v ≤ 1 := (div_le_one hv).2 h2.le
      nlinarith
    · have : 1 - d ^ 2 ≤ Real.sin v / v := by
        rw [le_div_iff₀ hv]
        have : v ^ 3 ≤ d ^ 2 * v := by
          rw [pow_succ]
          exact mul_le_mul_of_nonneg_right (pow_le_pow_left₀ hv.le hvd 2) hv.le
        nlinarith [mul_pos hv hv]
      linarith
  rcases lt_trichotomy w 0 with hw | hw | hw
  · rw [Real.sinc_of_ne_zero hw.ne]
    have e : Real.sin w / w = Real.sin (-w) / (-w) := by rw [Real.sin_neg, neg_div_neg_eq]
    rw [e]
    exact key (-w) (by linarith) (by rwa [abs_of_neg hw] at h)
  · rw [hw, Real.sinc_zero, sub_self, abs_zero]; positivity
  · rw [Real.sinc_of_ne_zero hw.ne']
    exact key w hw (by rwa [abs_of_pos hw] at h)

theorem prod_close {s s' W W' : ℝ} (hs : |s| ≤ 1) (h1 : |s' - s| ≤ 1 / 10 ^ 16) (hW0 : 0 ≤ W) (hW : W ≤ 1)
    (h2 : |W' - W| ≤ 4 / 10 ^ 15) : |s' * W' - s * W| ≤ 5 / 10 ^ 15 := by
  have e : s' * W' - s * W = s * (W' - W) + (s' - s) * W + (s' - s) * (W' - W) := by ring
  rw [e]
  refine (abs_add_le _ _).trans ?_
  have a1 := abs_add_le (s * (W' - W)) ((s' - s) * W)
  rw [abs_mul, abs_mul, abs_of_nonneg hW0] at a1
  rw [abs_mul (s' - s)]
  have b1 : |s| * |W' - W| ≤ 4 / 10 ^ 15 := (mul_le_of_le_one_left (abs_nonneg _) hs).trans h2
  have b2 : |s' - s| * W ≤ 1 / 10 ^ 16 := (mul_le_of_le_one_right (abs_nonneg _) hW).trans h1
  have b3 : |s' - s| * |W' - W| ≤ 1 / 10 ^ 16 * (4 / 10 ^ 15) :=
    mul_le_mul h1 h2 (abs_nonneg _) (by norm_num)
  norm_num at *
  linarith

theorem old_eval {inputRate outputRate radius cutoff beta : ℝ} {k : RationalFactorResampler.Kernel}
    (hk : RationalFactorResampler.kernelInit inputRate outputRate radius cutoff beta = some k) (x : ℝ) :
    (0 < inputRate ∧ 0 < outputRate ∧ 0 < radius ∧ 0 < cutoff ∧ cutoff ≤ 1 / 2 * inputRate ∧ 0 < beta) ∧
    k.eval x = 2 * cutoff / inputRate * RationalFactorResampler.sinc (Real.pi * (2 * cutoff / inputRate) * x) *
      (if |x| / radius < 1 / 10 ^ 12 then 1
       else if |x| / radius > 1 + 1 / 10 ^ 12 then 0
       else besselI0 (beta * √(max 0 (1 - |x| / radius * (|x| / radius)))) / besselI0 beta) := by
  rw [RationalFactorResampler.kernelInit] at hk
  split_ifs at hk with h
  push Not at h
  cases hk
  exact ⟨h, rfl⟩

/-- The deprecated kernel. -/
theorem old_close {inputRate outputRate radius cutoff beta : ℝ} {k : RationalFactorResampler.Kernel}
    (hk : RationalFactorResampler.kernelInit inputRate outputRate radius cutoff beta = some k)
    (hbeta : beta ≤ 10 ^ 8) (x : ℝ) (hx : |x| ≤ radius ∨ radius * (1 + 1 / 10 ^ 12) < |x|) :
    |k.eval x - Spec.kernel (2 * cutoff / inputRate) radius beta x| ≤ 5 / 10 ^ 15 * (2 * cutoff / inputRate) := by
  obtain ⟨⟨h1, h2, h3, h4, h5, h6⟩, he⟩ := old_eval hk x
  have hth : 0 < 2 * cutoff / inputRate := by positivity
  rw [he, Spec.kernel]
  generalize 2 * cutoff / inputRate = theta at *
  rcases hx with hx | hx
  · rw [if_pos hx, mul_assoc, mul_assoc theta, ← mul_sub, abs_mul, abs_of_pos hth, mul_comm]
    refine mul_le_mul_of_nonneg_right ?_ hth.le
    have hy : |x| / radius ≤ 1 := (div_le_one h3).2 hx
    have hy0 : 0 ≤ |x| / radius := by positivity
    have e2 : |x| / radius * (|x| / radius) = (x / radius) ^ 2 := by
      rw [div_mul_div_comm, abs_mul_abs_self, div_pow, pow_two, pow_two]
    have hsq : |x| / radius * (|x| / radius) ≤ 1 := by nlinarith
    refine prod_close (Real.abs_sinc_le_one _) ?_ (win_bounds h6.le).1 (win_bounds h6.le).2 ?_
    · rw [RationalFactorResampler.sinc, RationalFactorResampler.kEpsilon]
      split_ifs with hw
      · have : Real.pi * theta * x ≠ 0 := by
          intro h0
          rw [h0, abs_zero] at hw
          norm_num at hw
        rw [Real.sinc_of_ne_zero this, sub_self, abs_zero]
        norm_num
      · refine (sinc_small (not_lt.1 hw) (by norm_num)).trans (by norm_num)
    · rw [if_neg (show ¬ |x| / radius > 1 + 1 / 10 ^ 12 by
        have : (0 : ℝ) < 1 / 10 ^ 12 := by norm_num
        linarith)]
      split_ifs with hs
      · rw [abs_sub_le_iff]
        have hw := win_bounds (beta := beta) (u := x / radius) h6.le
        refine ⟨?_, by unfold win at hw; linarith [hw.2]⟩
        have hsl := I0_slope (s := √(1 - (x / radius) ^ 2)) h6.le (Real.sqrt_nonneg _)
          (Real.sqrt_le_iff.2 ⟨one_pos.le, by nlinarith [sq_nonneg (x / radius)]⟩)
        have hs2 : (1 - (x / radius) ^ 2) ≤ √(1 - (x / radius) ^ 2) := by
          apply Real.le_sqrt_of_sq_le
          nlinarith [sq_nonneg (x / radius)]
        have hs3 : (x / radius) ^ 2 ≤ 1 / 10 ^ 24 := by
          rw [← e2]
          have := mul_le_mul hs.le hs.le hy0 (by norm_num)
          norm_num at this ⊢
          linarith
        have hI : 0 < I 0 beta := lt_of_lt_of_le one_pos (I0_ge_one beta)
        have h7 : 1 - (1 - √(1 - (x / radius) ^ 2)) * beta ≤ I 0 (beta * √(1 - (x / radius) ^ 2)) / I 0 beta := by
          rw [le_div_iff₀ hI]; exact hsl
        have h8 : (1 - √(1 - (x / radius) ^ 2)) * beta ≤ 1 / 10 ^ 24 * 10 ^ 8 := by
          refine mul_le_mul (by linarith) hbeta h6.le (by norm_num)
        norm_num at h8 ⊢
        linarith
      · rw [e2, max_eq_right (by linarith)]
        refine (ratio_close (Bessel.C90_I0 _) (Bessel.C90_I0 _) (I0_ge_one _) (I0_ge_one _)).trans ?_
        have hw := (win_bounds (beta := beta) (u := x / radius) h6.le).2
        unfold win at hw
        linarith
  · have hr : radius < |x| := lt_trans (by nlinarith) hx
    have hy : 1 + 1 / 10 ^ 12 < |x| / radius := by rw [lt_div_iff₀ h3]; linarith
    have hn : (0 : ℝ) < 1 / 10 ^ 12 := by norm_num
    rw [if_neg (not_le.2 hr), if_neg (show ¬ |x| / radius < 1 / 10 ^ 12 by linarith), if_pos hy, mul_zero, sub_zero, abs_zero]
    positivity

theorem portable_close {x : ℝ} (h0 : 0 ≤ x) (h1 : x < 21) :
    |I 0 x - Resampler.Kernel.besselI0 x| ≤ 1 / 10 ^ 15 * I 0 x := by
  rw [Bessel.portable_I0]
  exact Bessel.series_rel' (by norm_num) h0 h1

/-- The kernel of the C resampler and of `QResampler`. -/
theorem new_close {inputRate outputRate radiusFactor cutoff beta : ℝ} {k : Resampler.Kernel.Kernel}
    (hk : Resampler.Kernel.init inputRate outputRate radiusFactor cutoff beta = some k)
    (hbeta : beta < 21) (x : ℝ) (hx : |x| ≤ k.radius ∨ k.radius * (1 + 100 / 2 ^ 52) < |x|) :
    |Resampler.Kernel.eval k x - Spec.kernel (cutoff / max 1 (inputRate / outputRate)) k.radius beta x|
      ≤ 5 / 10 ^ 15 * (cutoff / max 1 (inputRate / outputRate)) := by
  rw [Resampler.Kernel.init] at hk
  split_ifs at hk with h
  push Not at h
  obtain ⟨h1, h2, h3, h4, h6⟩ := h
  have e : (if inputRate / outputRate > 1 then inputRate / outputRate else 1)
      = max 1 (inputRate / outputRate) := by
    rw [max_def]
    split_ifs <;> linarith
  have hm : 0 < max 1 (inputRate / outputRate) := lt_of_lt_of_le one_pos (le_max_left _ _)
  have hth : 0 < cutoff / max 1 (inputRate / outputRate) := div_pos h4.1 hm
  have hr : 0 < radiusFactor * max 1 (inputRate / outputRate) := mul_pos h3 hm
  cases hk
  simp only [Resampler.Kernel.eval, Resampler.Kernel.kaiserWindow, Resampler.Kernel.eps, Spec.kernel, e] at hx ⊢
  generalize cutoff / max 1 (inputRate / outputRate) = theta at *
  generalize radiusFactor * max 1 (inputRate / outputRate) = radius at *
  rcases hx with hx | hx
  · have hy : |x| / radius ≤ 1 := (div_le_one hr).2 hx
    have hy0 : 0 ≤ |x| / radius := by positivity
    have e2 : |x| / radius * (|x| / radius) = (x / radius) ^ 2 := by
      rw [div_mul_div_comm, abs_mul_abs_self, div_pow, pow_two, pow_two]
    have hsq : |x| / radius * (|x| / radius) ≤ 1 := by nlinarith
    have hn : (0 : ℝ) < 100 * (1 / 2 ^ 52) := by norm_num
    rw [if_pos hx, if_neg (show ¬ |x| / radius > 1 + 100 * (1 / 2 ^ 52) by linarith),
      if_neg (show ¬ 1 - |x| / radius * (|x| / radius) < 0 by linarith), e2, div_mul_eq_mul_div, div_mul_eq_mul_div,
      mul_div_assoc, mul_assoc theta, mul_assoc theta, ← mul_sub, abs_mul, abs_of_pos hth, mul_comm]
    refine mul_le_mul_of_nonneg_right ?_ hth.le
    refine prod_close (Real.abs_sinc_le_one _) ?_ (win_bounds h6.le).1 (win_bounds h6.le).2 ?_
    · have hs : Real.sinc (Real.pi * theta * x) = Real.sinc (Real.pi * theta * |x|) := by
        rcases abs_choice x with h | h <;> rw [h]
        rw [mul_neg, Real.sinc_neg]
      have hw0 : 0 ≤ Real.pi * theta * |x| := by positivity
      rw [hs]
      split_ifs with hw
      · refine (sinc_small (d := 1e-8) (by rw [abs_of_nonneg hw0]; exact hw.le) (by norm_num)).trans (by norm_num)
      · have : Real.pi * theta * |x| ≠ 0 := by
          intro h0
          rw [h0] at hw
          norm_num at hw
        rw [Real.sinc_of_ne_zero this, sub_self, abs_zero]
        norm_num
    · have hsr : √(1 - (x / radius) ^ 2) ≤ 1 :=
        Real.sqrt_le_iff.2 ⟨one_pos.le, by nlinarith [sq_nonneg (x / radius)]⟩
      refine (ratio_close (portable_close (by positivity) ?_) (portable_close h6.le hbeta)
        (I0_ge_one _) (I0_ge_one _)).trans ?_
      · exact lt_of_le_of_lt (mul_le_of_le_one_right h6.le hsr) hbeta
      · have hw := (win_bounds (beta := beta) (u := x / radius) h6.le).2
        unfold win at hw
        linarith
  · have hr' : radius < |x| := lt_trans (by nlinarith) hx
    have hy : 1 + 100 * (1 / 2 ^ 52) < |x| / radius := by rw [lt_div_iff₀ hr]; linarith
    rw [if_neg (not_le.2 hr'), if_pos hy, mul_zero, sub_zero, abs_zero]
    positivity

end Verif.ResamplerKernel
