import Verif.Theorems.FilterDesign
import Mathlib.Analysis.Calculus.Deriv.Inv
import Mathlib.Analysis.SpecialFunctions.Trigonometric.ComplexDeriv
import Mathlib.Analysis.Complex.RealDeriv

/-!
# Allpass design (C58)

`AllpassBiquadFilterCoefficients`, `CheckAllPassConfiguration` and `MinimumGroupDelayForAllPass`, over the
reals. `response`, `groupDelay`: see `Verif.Spec.FilterDesign`.
-/

namespace Verif.FilterDesign
open Verif.BiquadCascade

/-- The facts about the intermediate quantities of the design. -/
theorem allpass_quantities {rate hz phase delay : ℝ} (h0 : 0 < hz) (h1 : hz < rate / 2) (hs : Real.sin phase ≠ 0)
    (hd : |Real.sin phase| / rate / Real.sin (radians hz rate) < delay) :
    0 < allpassOmega0 rate hz phase delay ∧ 0 < allpassQ rate hz phase delay ∧
    allpassOmega0 rate hz phase delay ^ 2 * (allpassK rate hz phase delay + 1) =
      prewarp hz rate ^ 2 * (allpassK rate hz phase delay - 1) ∧
    allpassOmega0 rate hz phase delay ≠ prewarp hz rate ∧
    allpassOmega0 rate hz phase delay / allpassQ rate hz phase delay * prewarp hz rate * (1 + Real.cos phase) =
      Real.sin phase * (prewarp hz rate ^ 2 - allpassOmega0 rate hz phase delay ^ 2) ∧ 1 + Real.cos phase ≠ 0 := by
  have hr : 0 < rate := by linarith
  have hsin : 0 < Real.sin (radians hz rate) := by
    obtain ⟨a, b⟩ := half_pos hr h0 h1
    exact Real.sin_pos_of_pos_of_lt_pi (by linarith) (by linarith)
  have hw := prewarp_pos hr h0 h1
  have hsc := Real.sin_sq_add_cos_sq phase
  have hcos : 0 < 1 + Real.cos phase := by
    have := Real.neg_one_le_cos phase
    rcases this.lt_or_eq with h | h
    · linarith
    · exfalso
      apply hs
      rw [← h] at hsc
      have : Real.sin phase ^ 2 = 0 := by linarith
      simpa using this
  have hk : allpassK rate hz phase delay * Real.sin phase = delay * rate * Real.sin (radians hz rate) := by
    unfold allpassK radians
    exact div_mul_cancel₀ _ hs
  rw [div_div, div_lt_iff₀ (by positivity)] at hd
  have hk1 : |Real.sin phase| < allpassK rate hz phase delay * Real.sin phase := by
    rw [hk]
    linarith
  obtain ⟨k, hkk⟩ : ∃ k, k = allpassK rate hz phase delay := ⟨_, rfl⟩
  obtain ⟨w, hww⟩ : ∃ w, w = prewarp hz rate := ⟨_, rfl⟩
  have hpos : 0 < (k - 1) / (k + 1) ∧ k + 1 ≠ 0 ∧ 0 < Real.sin phase * (w ^ 2 - w ^ 2 * ((k - 1) / (k + 1))) := by
    rw [← hkk] at hk1
    rcases lt_or_gt_of_ne hs with h | h
    · rw [abs_of_neg h] at hk1
      have hk2 : k < -1 := by nlinarith
      refine ⟨div_pos_of_neg_of_neg (by linarith) (by linarith), by linarith, ?_⟩
      have : 1 < (k - 1) / (k + 1) := by
        rw [lt_div_iff_of_neg (by linarith)]
        linarith
      rw [← hww] at hw
      have : w ^ 2 - w ^ 2 * ((k - 1) / (k + 1)) < 0 := by nlinarith [pow_pos hw 2]
      exact mul_pos_of_neg_of_neg h this
    · rw [abs_of_pos h] at hk1
      have hk2 : 1 < k := by nlinarith
      refine ⟨div_pos (by linarith) (by linarith), by linarith, ?_⟩
      have : (k - 1) / (k + 1) < 1 := by
        rw [div_lt_one (by linarith)]
        linarith
      rw [← hww] at hw
      have : 0 < w ^ 2 - w ^ 2 * ((k - 1) / (k + 1)) := by nlinarith [pow_pos hw 2]
      exact mul_pos h this
  obtain ⟨p1, p2, p3⟩ := hpos
  have e1 : allpassOmega0 rate hz phase delay = w * √((k - 1) / (k + 1)) := by
    unfold allpassOmega0
    rw [hkk, hww]
  have e2 : allpassOmega0 rate hz phase delay ^ 2 = w ^ 2 * ((k - 1) / (k + 1)) := by
    rw [e1, mul_pow, Real.sq_sqrt p1.le]
  have hw0 : 0 < allpassOmega0 rate hz phase delay := by
    rw [e1, hww]
    exact mul_pos hw (Real.sqrt_pos.mpr p1)
  obtain ⟨v, hv⟩ : ∃ v, v = allpassOmega0 rate hz phase delay := ⟨_, rfl⟩
  have e3 : allpassQ rate hz phase delay = (1 + Real.cos phase) / Real.sin phase * v * w / (w * w - v * v) := by
    unfold allpassQ
    rw [hv, hww]
  rw [← hkk, ← hww, ← hv, e3]
  rw [← hv] at e2 hw0
  rw [← hww] at hw
  rw [← e2] at p3
  have hne : w ^ 2 - v ^ 2 ≠ 0 := fun h => by rw [h, mul_zero] at p3; exact lt_irrefl _ p3
  have hne' : w * w - v * v ≠ 0 := fun h => hne (by linarith)
  refine ⟨hw0, ?_, ?_, ?_, ?_, hcos.ne'⟩
  · have : (1 + Real.cos phase) / Real.sin phase * v * w / (w * w - v * v) =
        (1 + Real.cos phase) * v * w / (Real.sin phase * (w ^ 2 - v ^ 2)) := by
      field_simp
    rw [this]
    positivity
  · rw [e2]
    field_simp
  · intro h
    apply hne
    rw [h]
    ring
  · field_simp

/-- C58: for every sampling rate, corner frequency, phase and group delay above the smallest possible one the
design is a stable filter of unit magnitude at every frequency, with the requested phase and the requested
group delay at the corner frequency. -/
theorem C58_allpass_partial {rate hz phase delay : ℝ} (h0 : 0 < hz) (h1 : hz < rate / 2) (hp : 1 / 10 ^ 5 < |phase|)
    (hs : 1 / 10 ^ 5 < |Real.sin phase|)
    (hd : |Real.sin phase| / rate / Real.sin (radians hz rate) < delay) :
    ∃ c, allpass rate hz phase delay = some c ∧ Stable c ∧ (∀ ω, ‖response c ω‖ = 1) ∧
      response c (radians hz rate) = Complex.exp (phase * Complex.I) ∧
      groupDelay c (radians hz rate) = delay * rate := by
  have hr : 0 < rate := by linarith
  have hs0 : Real.sin phase ≠ 0 := by
    intro h
    rw [h] at hs
    norm_num at hs
  have hsin : 0 < Real.sin (radians hz rate) := by
    obtain ⟨a, b⟩ := half_pos hr h0 h1
    exact Real.sin_pos_of_pos_of_lt_pi (by linarith) (by linarith)
  have hdel : 0 < delay := lt_of_le_of_lt (by positivity) hd
  have hcond : hz < rate / 2 ∧ |phase| > 1 / 10 ^ 5 ∧ |Real.sin phase| > 1 / 10 ^ 5 ∧ 0 < hz ∧
      allpassOk rate hz phase delay := ⟨h1, hp, hs, h0, hdel.le, hs.le, hd.le⟩
  obtain ⟨q1, q2, q3, q4, q5, q6⟩ := allpass_quantities h0 h1 hs0 hd
  have hk : allpassK rate hz phase delay * Real.sin phase = delay * rate * Real.sin (radians hz rate) := by
    unfold allpassK radians
    exact div_mul_cancel₀ _ hs0
  obtain ⟨c, hc⟩ : ∃ c, allpass rate hz phase delay = some c := by
    unfold allpass
    rw [if_pos hcond]
    exact ⟨_, rfl⟩
  have hc' := hc
  unfold allpass at hc'
  rw [if_pos hcond] at hc'
  simp only [Option.some.injEq] at hc'
  unfold allpassDenominator at hc'
  dsimp only at hc'
  have hw := prewarp_pos hr h0 h1
  obtain ⟨v, hv⟩ : ∃ v, v = allpassOmega0 rate hz phase delay := ⟨_, rfl⟩
  obtain ⟨Q, hQ⟩ : ∃ Q, Q = allpassQ rate hz phase delay := ⟨_, rfl⟩
  obtain ⟨w, hww⟩ : ∃ w, w = prewarp hz rate := ⟨_, rfl⟩
  obtain ⟨k, hkk⟩ : ∃ k, k = allpassK rate hz phase delay := ⟨_, rfl⟩
  simp only [← hv, ← hQ, ← hww, ← hkk] at hc' q1 q2 q3 q4 q5 hk hw
  have hD : Q * (v / rate / 2 * (v / rate / 2) + 1) + v / rate / 2 ≠ 0 := by positivity
  obtain ⟨e1, e2, e3, e4, e5⟩ := scaled_core (c := c) (K := 2 * rate)
    (lam := Q / ((2 * rate) ^ 2 * (Q * (v / rate / 2 * (v / rate / 2) + 1) + v / rate / 2)))
    (n0 := 1) (n1 := -(v / Q)) (n2 := v ^ 2) (d0 := 1) (d1 := v / Q) (d2 := v ^ 2)
    hc'.symm (by positivity) (by positivity) one_pos (by positivity) (by positivity)
    (by field_simp; ring) (by field_simp) (by field_simp; ring) (by field_simp; ring) (by field_simp)
    (by field_simp; ring)
  have hna : ∀ W : ℝ, analog 1 (-(v / Q)) (v ^ 2) 1 (v / Q) (v ^ 2) ((W : ℂ) * Complex.I) =
      (((v ^ 2 - W ^ 2 : ℝ) : ℂ) - ((v / Q * W : ℝ) : ℂ) * Complex.I) /
      (((v ^ 2 - W ^ 2 : ℝ) : ℂ) + ((v / Q * W : ℝ) : ℂ) * Complex.I) := by
    intro W
    rw [analog_eq, quad_mul_I, quad_mul_I]
    push_cast
    congr 1 <;> ring
  have hnz : ∀ W : ℝ, ((v ^ 2 - W ^ 2 : ℝ) : ℂ) + ((v / Q * W : ℝ) : ℂ) * Complex.I ≠ 0 := by
    intro W
    have := quad_ne_zero (d1 := v / Q) (d2 := v ^ 2) (by positivity) (by positivity) W
    rw [quad_mul_I, one_mul] at this
    exact this
  have hwarp : 2 * rate * Real.tan (radians hz rate / 2) = w := by
    rw [half_radians, hww]
    rfl
  have hcosne := (cos_half_pos hr h0 h1).ne'
  refine ⟨c, hc, e1, ?_, ?_, ?_⟩
  · intro ω
    by_cases hω : Real.cos (ω / 2) = 0
    · rw [response_nyquist c hω, e4]
      simp
    · rw [e5 ω hω, hna, norm_div, div_eq_one_iff_eq (norm_ne_zero_iff.mpr (hnz _))]
      rw [sub_eq_add_neg, ← neg_mul, ← Complex.ofReal_neg, norm_add_mul_I, norm_add_mul_I, neg_sq]
  · rw [e5 _ hcosne, hwarp, hna, div_eq_iff (hnz _), Complex.exp_mul_I, ← Complex.ofReal_cos, ← Complex.ofReal_sin]
    have q6' : ((1 + Real.cos phase : ℝ) : ℂ) ≠ 0 := by exact_mod_cast q6
    apply mul_left_cancel₀ q6'
    have q5' : ((v / Q * w : ℝ) : ℂ) * ((1 + Real.cos phase : ℝ) : ℂ) =
        (Real.sin phase : ℂ) * ((w ^ 2 - v ^ 2 : ℝ) : ℂ) := by exact_mod_cast q5
    have hsc : (Real.sin phase : ℂ) ^ 2 + (Real.cos phase : ℂ) ^ 2 = 1 := by
      exact_mod_cast Real.sin_sq_add_cos_sq phase
    have hI : Complex.I ^ 2 = -1 := Complex.I_sq
    push_cast at q5' ⊢
    push_cast at hsc
    linear_combination (-Complex.I - Complex.I * (Complex.cos phase + Complex.sin phase * Complex.I)) * q5' +
      (-(Complex.sin phase : ℂ) ^ 2 * (w ^ 2 - v ^ 2)) * hI + (w ^ 2 - v ^ 2 : ℂ) * hsc
  · -- group delay
    have hder : HasDerivAt (fun ω : ℝ => 2 * rate * Real.tan (ω / 2))
        (rate / Real.cos (radians hz rate / 2) ^ 2) (radians hz rate) := by
      have := ((Real.hasDerivAt_tan hcosne).comp (radians hz rate) ((hasDerivAt_id _).div_const 2)).const_mul (2 * rate)
      refine this.congr_deriv ?_
      field_simp
    obtain ⟨W', hW'⟩ : ∃ x, x = rate / Real.cos (radians hz rate / 2) ^ 2 := ⟨_, rfl⟩
    rw [← hW'] at hder
    have d1 : HasDerivAt (fun ω : ℝ => ((v ^ 2 - (2 * rate * Real.tan (ω / 2)) ^ 2 : ℝ) : ℂ))
        ((-(2 * w * W') : ℝ) : ℂ) (radians hz rate) := by
      refine HasDerivAt.ofReal_comp (f := fun ω : ℝ => v ^ 2 - (2 * rate * Real.tan (ω / 2)) ^ 2) ?_
      refine ((hder.pow 2).const_sub (v ^ 2)).congr_deriv ?_
      simp only [hwarp]
      push_cast
      ring
    have d2 : HasDerivAt (fun ω : ℝ => ((v / Q * (2 * rate * Real.tan (ω / 2)) : ℝ) : ℂ) * Complex.I)
        (((v / Q * W' : ℝ) : ℂ) * Complex.I) (radians hz rate) := by
      refine HasDerivAt.mul_const ?_ _
      exact HasDerivAt.ofReal_comp (f := fun ω : ℝ => v / Q * (2 * rate * Real.tan (ω / 2))) (hder.const_mul _)
    have d3 := (d1.sub d2).div (d1.add d2) (by simp only [Pi.add_apply, hwarp]; exact hnz w)
    have hev : response c =ᶠ[nhds (radians hz rate)] fun ω =>
        (((v ^ 2 - (2 * rate * Real.tan (ω / 2)) ^ 2 : ℝ) : ℂ) -
          ((v / Q * (2 * rate * Real.tan (ω / 2)) : ℝ) : ℂ) * Complex.I) /
        (((v ^ 2 - (2 * rate * Real.tan (ω / 2)) ^ 2 : ℝ) : ℂ) +
          ((v / Q * (2 * rate * Real.tan (ω / 2)) : ℝ) : ℂ) * Complex.I) := by
      have hcont : Continuous fun ω : ℝ => Real.cos (ω / 2) := by fun_prop
      filter_upwards [hcont.continuousAt.eventually_ne hcosne] with ω hω
      rw [e5 ω hω, hna]
    have d4 := (d3.congr_of_eventuallyEq hev).deriv
    unfold groupDelay
    rw [d4, e5 _ hcosne, hwarp, hna]
    have hN : ((v ^ 2 - w ^ 2 : ℝ) : ℂ) - ((v / Q * w : ℝ) : ℂ) * Complex.I ≠ 0 := by
      have := hnz (-w)
      intro h
      apply this
      rw [neg_sq, ← h]
      push_cast
      ring
    have hDD := hnz w
    have hnn : (v ^ 2 - w ^ 2) ^ 2 + (v / Q * w) ^ 2 ≠ 0 := by positivity
    have hnn' : (((v ^ 2 - w ^ 2) ^ 2 + (v / Q * w) ^ 2 : ℝ) : ℂ) ≠ 0 := by exact_mod_cast hnn
    have hprod : (((v ^ 2 - w ^ 2) ^ 2 + (v / Q * w) ^ 2 : ℝ) : ℂ) =
        (((v ^ 2 - w ^ 2 : ℝ) : ℂ) - ((v / Q * w : ℝ) : ℂ) * Complex.I) *
        (((v ^ 2 - w ^ 2 : ℝ) : ℂ) + ((v / Q * w : ℝ) : ℂ) * Complex.I) := by
      push_cast
      linear_combination ((v / Q * w) ^ 2 : ℂ) * Complex.I_sq
    have hq : ∀ N N' D D' X : ℂ, N ≠ 0 → D ≠ 0 → X = N * D →
        (N' * D - N * D') / D ^ 2 / (N / D) = (N' * D - N * D') / X := by
      intro N N' D D' X a b e
      rw [e]
      field_simp
    have hcs := cos_half_pos hr h0 h1
    simp only [Pi.sub_apply, Pi.add_apply, hwarp]
    rw [hq _ _ _ _ _ hN hDD hprod]
    have hnum : (((-(2 * w * W') : ℝ) : ℂ) - ((v / Q * W' : ℝ) : ℂ) * Complex.I) *
          (((v ^ 2 - w ^ 2 : ℝ) : ℂ) + ((v / Q * w : ℝ) : ℂ) * Complex.I) -
        (((v ^ 2 - w ^ 2 : ℝ) : ℂ) - ((v / Q * w : ℝ) : ℂ) * Complex.I) *
          (((-(2 * w * W') : ℝ) : ℂ) + ((v / Q * W' : ℝ) : ℂ) * Complex.I) =
        ((-(2 * (v / Q) * (v ^ 2 + w ^ 2) * W') : ℝ) : ℂ) * Complex.I := by
      push_cast
      ring
    rw [hnum, mul_div_right_comm, ← Complex.ofReal_div, Complex.im_ofReal_mul, Complex.I_im, mul_one, neg_div, neg_neg,
      div_eq_iff hnn]
    -- the remaining identity between real numbers
    obtain ⟨e, he⟩ : ∃ e, e = v / Q := ⟨_, rfl⟩
    rw [← he] at q5 ⊢
    have hWw : W' * Real.sin (radians hz rate) = w := by
      have h2 : Real.sin (radians hz rate) =
          2 * Real.sin (radians hz rate / 2) * Real.cos (radians hz rate / 2) := by
        rw [← Real.sin_two_mul]
        ring_nf
      rw [hW', h2, ← hwarp, Real.tan_eq_sin_div_cos]
      field_simp
    have hsum : v ^ 2 + w ^ 2 = k * (w ^ 2 - v ^ 2) := by linear_combination q3
    have hsc := Real.sin_sq_add_cos_sq phase
    have key : (1 + Real.cos phase) ^ 2 * w * (2 * e * (v ^ 2 + w ^ 2) * W') =
        (1 + Real.cos phase) ^ 2 * w * (delay * rate * ((v ^ 2 - w ^ 2) ^ 2 + (e * w) ^ 2)) := by
      have a1 : (1 + Real.cos phase) ^ 2 * w * (2 * e * (v ^ 2 + w ^ 2) * W') =
          2 * (1 + Real.cos phase) * (w ^ 2 - v ^ 2) ^ 2 * (k * Real.sin phase) * W' := by
        rw [hsum]
        linear_combination 2 * (1 + Real.cos phase) * (k * (w ^ 2 - v ^ 2)) * W' * q5
      have a2 : (1 + Real.cos phase) ^ 2 * ((v ^ 2 - w ^ 2) ^ 2 + (e * w) ^ 2) =
          2 * (1 + Real.cos phase) * (w ^ 2 - v ^ 2) ^ 2 := by
        linear_combination (e * w * (1 + Real.cos phase) + Real.sin phase * (w ^ 2 - v ^ 2)) * q5 +
          (w ^ 2 - v ^ 2) ^ 2 * hsc
      rw [a1, hk]
      linear_combination 2 * (1 + Real.cos phase) * (w ^ 2 - v ^ 2) ^ 2 * delay * rate * hWw - w * delay * rate * a2
    exact mul_left_cancel₀ (mul_ne_zero (pow_ne_zero 2 q6) hw.ne') key

example : ∃ rate hz phase delay : ℝ, 0 < hz ∧ hz < rate / 2 ∧ 1 / 10 ^ 5 < |phase| ∧
    1 / 10 ^ 5 < |Real.sin phase| ∧ |Real.sin phase| / rate / Real.sin (radians hz rate) < delay := by
  refine ⟨4, 1, Real.pi / 2, 1, by norm_num, by norm_num, ?_, ?_, ?_⟩
  · rw [abs_of_pos (by positivity)]
    linarith [Real.two_le_pi]
  · rw [Real.sin_pi_div_two]
    norm_num
  · have : radians 1 4 = Real.pi / 2 := by
      unfold radians
      ring
    rw [this, Real.sin_pi_div_two]
    norm_num

/-- C58: the variant without a group delay: unit magnitude everywhere and the requested phase at the corner,
for every phase that passes the checks. -/
theorem C58_allpass_minimum {rate hz phase : ℝ} (h0 : 0 < hz) (h1 : hz < rate / 2) (hp : 1 / 10 ^ 5 < |phase|)
    (hs : 1 / 10 ^ 5 < |Real.sin phase|) :
    ∃ c, allpassMinimum rate hz phase = some c ∧ Stable c ∧ (∀ ω, ‖response c ω‖ = 1) ∧
      response c (radians hz rate) = Complex.exp (phase * Complex.I) ∧
      groupDelay c (radians hz rate) = 1.001 * (|Real.sin phase| / Real.sin (radians hz rate)) := by
  have hr : 0 < rate := by linarith
  have hsin : 0 < Real.sin (radians hz rate) := by
    obtain ⟨a, b⟩ := half_pos hr h0 h1
    exact Real.sin_pos_of_pos_of_lt_pi (by linarith) (by linarith)
  have hpos : 0 < |Real.sin phase| := lt_trans (by norm_num) hs
  have hi : infimalGroupDelay rate hz phase = |Real.sin phase| / rate / Real.sin (radians hz rate) := rfl
  have hd : |Real.sin phase| / rate / Real.sin (radians hz rate) < minimumGroupDelay rate hz phase := by
    unfold minimumGroupDelay
    rw [hi]
    have : 0 < |Real.sin phase| / rate / Real.sin (radians hz rate) := by positivity
    linarith
  obtain ⟨c, e1, e2, e3, e4, e5⟩ := C58_allpass_partial h0 h1 hp hs hd
  refine ⟨c, e1, e2, e3, e4, ?_⟩
  rw [e5]
  unfold minimumGroupDelay
  rw [hi]
  field_simp

example : (0 : ℝ) < 1 ∧ (1 : ℝ) < 4 / 2 ∧ 1 / 10 ^ 5 < |Real.pi / 2| ∧ 1 / 10 ^ 5 < |Real.sin (Real.pi / 2)| := by
  refine ⟨by norm_num, by norm_num, ?_, ?_⟩
  · rw [abs_of_pos (by positivity)]
    linarith [Real.two_le_pi]
  · rw [Real.sin_pi_div_two]
    norm_num

/-- C58 is violated at the smallest group delay, which `CheckAllPassConfiguration` accepts: with a rate of 4
Hz, corner 1 Hz, phase pi/2 and group delay 1/4 s all checks pass and the coefficients are `0 / 0` (not a
number). -/
theorem C58_allpass_violation :
    allpassOk 4 1 (Real.pi / 2) (1 / 4) ∧ allpass 4 1 (Real.pi / 2) (1 / 4) ≠ none ∧
    allpassOmega0 4 1 (Real.pi / 2) (1 / 4) = 0 ∧ allpassQ 4 1 (Real.pi / 2) (1 / 4) = 0 ∧
    allpassDenominator 4 1 (Real.pi / 2) (1 / 4) = 0 := by
  have hrad : 2 * Real.pi * 1 / 4 = Real.pi / 2 := by ring
  have hok : allpassOk 4 1 (Real.pi / 2) (1 / 4) := by
    unfold allpassOk infimalGroupDelay
    rw [hrad, Real.sin_pi_div_two]
    norm_num
  have hk : allpassK 4 1 (Real.pi / 2) (1 / 4) = 1 := by
    unfold allpassK
    rw [hrad, Real.sin_pi_div_two]
    norm_num
  have hw : allpassOmega0 4 1 (Real.pi / 2) (1 / 4) = 0 := by
    unfold allpassOmega0
    rw [hk]
    simp
  have hq : allpassQ 4 1 (Real.pi / 2) (1 / 4) = 0 := by
    unfold allpassQ
    rw [hw]
    simp
  refine ⟨hok, ?_, hw, hq, ?_⟩
  · unfold allpass
    rw [if_pos]
    · simp
    · refine ⟨by norm_num, ?_, ?_, by norm_num, hok⟩
      · rw [abs_of_pos (by positivity)]
        linarith [Real.two_le_pi]
      · rw [Real.sin_pi_div_two]
        norm_num
  · unfold allpassDenominator
    rw [hw, hq]
    simp

end Verif.FilterDesign
