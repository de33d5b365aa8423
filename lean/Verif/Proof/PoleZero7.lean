import Verif.Proof.PoleZero6
import Verif.Proof.IirDesign7
import Verif.Proof.Chebyshev2

/-!
# The four designs of a regular prototype, on the unit circle
-/

namespace Verif.PoleZero
open Verif.BiquadCascade Verif.FilterDesign Verif.LinearFilter.Spec Spec
open Verif.IirDesign.Spec (lowFreq highFreq passFreq stopFreq)

theorem circle_tan {θ : ℝ} (hθ : |θ| < Real.pi) :
    Complex.exp (θ * Complex.I) ≠ 0 ∧ Complex.exp (θ * Complex.I) ≠ -1 ∧
    (Complex.exp (θ * Complex.I) - 1) / (Complex.exp (θ * Complex.I) + 1) = (Real.tan (θ / 2) : ℂ) * Complex.I := by
  obtain ⟨h1, h2, h3⟩ := Verif.IirDesign.circle hθ 1
  refine ⟨h1, h2, ?_⟩
  rw [Complex.ofReal_one, one_mul, one_mul] at h3
  exact h3

theorem circle_one {θ : ℝ} (hθ : |θ| < Real.pi) (h0 : θ ≠ 0) : Complex.exp (θ * Complex.I) ≠ 1 := by
  intro h
  have h1 := (circle_tan hθ).2.2
  rw [h, sub_self, zero_div] at h1
  have := Verif.IirDesign.tan_half_ne hθ h0
  have h2 : (Real.tan (θ / 2) : ℂ) ≠ 0 := by exact_mod_cast this
  exact mul_ne_zero h2 Complex.I_ne_zero h1.symm

theorem exp_pi : Complex.exp ((Real.pi : ℝ) * Complex.I) = -1 := Complex.exp_pi_mul_I

theorem exp_zero' : Complex.exp (((0 : ℝ) : ℂ) * Complex.I) = 1 := by simp

theorem designed_low {f : PZ} (h : Regular f) {H : ℝ → ℝ} (hH : ∀ w : ℝ, ‖analogSystem f (w * Complex.I)‖ ^ 2 = H w)
    {rate corner : ℝ} (hr : 0 < rate) (h0 : 0 < corner) (hc : corner < rate / 2) :
    ∃ cs, lowpassCoefficients (1 / 10 ^ 10) f rate corner = some cs ∧
      Designed cs (f.pairedPoles.length + f.lonePoles.length) {θ | |θ| < Real.pi} (fun θ => H (lowFreq corner rate θ)) ∧
      cascadeResponse cs Real.pi = if f.relativeDegree = 0 then (f.gain : ℂ) else 0 := by
  obtain ⟨cs, e, h1, h2, h3⟩ := regular_lowpass h hr h0 hc
  refine ⟨cs, e, ⟨h1, h2, fun θ hθ => ?_⟩, ?_⟩
  · obtain ⟨c1, c2, c3⟩ := circle_tan hθ
    rw [cascadeResponse, (h3 _ c1).1 c2, c3, ← hH, lowFreq]
    congr 3
    push_cast
    ring
  · rw [cascadeResponse, (h3 _ (Complex.exp_ne_zero _)).2 exp_pi]

theorem designed_high {f : PZ} (h : Regular f) {H : ℝ → ℝ} (hH : ∀ w : ℝ, ‖analogSystem f (w * Complex.I)‖ ^ 2 = H w)
    (hev : ∀ w, H (-w) = H w) {rate corner : ℝ} (hr : 0 < rate) (h0 : 0 < corner) (hc : corner < rate / 2) :
    ∃ cs, highpassCoefficients (1 / 10 ^ 10) f rate corner = some cs ∧
      Designed cs (f.pairedPoles.length + f.lonePoles.length) {θ | |θ| < Real.pi ∧ θ ≠ 0}
        (fun θ => H (highFreq corner rate θ)) ∧
      ‖cascadeResponse cs Real.pi‖ ^ 2 = H 0 ∧
      cascadeResponse cs 0 = if f.relativeDegree = 0 then (f.gain : ℂ) else 0 := by
  obtain ⟨cs, e, h1, h2, h3⟩ := regular_highpass h hr h0 hc
  refine ⟨cs, e, ⟨h1, h2, fun θ hθ => ?_⟩, ?_, ?_⟩
  · obtain ⟨c1, c2, c3⟩ := circle_tan hθ.1
    have c4 := circle_one hθ.1 hθ.2
    have ht := Verif.IirDesign.tan_half_ne hθ.1 hθ.2
    have ht' : (Real.tan (θ / 2) : ℂ) ≠ 0 := by exact_mod_cast ht
    have hm : Complex.exp (θ * Complex.I) - 1 ≠ 0 := sub_ne_zero.2 c4
    have hp : Complex.exp (θ * Complex.I) + 1 ≠ 0 := by rwa [Ne, add_eq_zero_iff_eq_neg]
    rw [cascadeResponse, (h3 _ c1).1 c4, ← hev, ← hH, highFreq]
    congr 3
    rw [mul_div_assoc]
    have e2 : (Complex.exp (θ * Complex.I) + 1) / (Complex.exp (θ * Complex.I) - 1)
        = ((Real.tan (θ / 2) : ℂ) * Complex.I)⁻¹ := by
      rw [← c3, inv_div]
    rw [e2, mul_inv, Complex.inv_I]
    push_cast
    field_simp
  · rw [cascadeResponse, (h3 _ (Complex.exp_ne_zero _)).1 (by rw [exp_pi]; norm_num), exp_pi, ← hH]
    simp
  · rw [cascadeResponse, (h3 _ (Complex.exp_ne_zero _)).2 exp_zero']

theorem designed_pass {f : PZ} (h : Regular f) {H : ℝ → ℝ} (hH : ∀ w : ℝ, ‖analogSystem f (w * Complex.I)‖ ^ 2 = H w)
    {rate low high : ℝ} (hr : 0 < rate) (h0 : 0 < low) (hlh : low < high) (hh : high < rate / 2)
    (hlone : ∀ p ∈ f.lonePoles, BandClear (Real.tan (Real.pi * low / rate)) (Real.tan (Real.pi * high / rate))
      ((Real.tan (Real.pi * high / rate) - Real.tan (Real.pi * low / rate)) * p)) :
    ∃ cs, bandpassCoefficients (1 / 10 ^ 10) f rate low high = some cs ∧
      Designed cs f.polesDegree {θ | |θ| < Real.pi ∧ θ ≠ 0} (fun θ => H (passFreq low high rate θ)) := by
  obtain ⟨cs, e, h1, h2, h3⟩ := regular_bandpass h hr h0 hlh hh _ _ rfl rfl hlone
  refine ⟨cs, e, ⟨h1, h2, fun θ hθ => ?_⟩⟩
  obtain ⟨c1, c2, c3⟩ := circle_tan hθ.1
  have ht := Verif.IirDesign.tan_half_ne hθ.1 hθ.2
  have ht' : (Real.tan (θ / 2) : ℂ) ≠ 0 := by exact_mod_cast ht
  rw [cascadeResponse, h3 _ _ c1 c2 (circle_one hθ.1 hθ.2) c3.symm, ← hH, passFreq]
  congr 3
  generalize Real.tan (Real.pi * low / rate) = t1
  generalize Real.tan (Real.pi * high / rate) = t2
  generalize Real.tan (θ / 2) = t at *
  push_cast
  by_cases hd : (t2 : ℂ) - t1 = 0
  · rw [hd]; simp
  · field_simp
    linear_combination ((t1 : ℂ) * t2) * Complex.I_sq

theorem designed_stop {f : PZ} (h : Regular f) {H : ℝ → ℝ} (hH : ∀ w : ℝ, ‖analogSystem f (w * Complex.I)‖ ^ 2 = H w)
    (hev : ∀ w, H (-w) = H w) {rate low high : ℝ} (hr : 0 < rate) (h0 : 0 < low) (hlh : low < high) (hh : high < rate / 2)
    (hlone : ∀ p ∈ f.lonePoles, BandClear (Real.tan (Real.pi * low / rate)) (Real.tan (Real.pi * high / rate))
      ((Real.tan (Real.pi * high / rate) - Real.tan (Real.pi * low / rate)) / p)) :
    ∃ cs, bandstopCoefficients (1 / 10 ^ 10) f rate low high = some cs ∧
      Designed cs f.polesDegree {θ | |θ| < Real.pi ∧ passFreq low high rate θ ≠ 0}
        (fun θ => H (stopFreq low high rate θ)) ∧ ‖cascadeResponse cs 0‖ ^ 2 = H 0 := by
  obtain ⟨cs, e, h1, h2, h3⟩ := regular_bandstop h hr h0 hlh hh _ _ rfl rfl hlone
  have ht1 := (Verif.IirDesign.prewarp_pos h0 (hlh.trans hh)).1
  have ht2 := (Verif.IirDesign.prewarp_pos (h0.trans hlh) hh).1
  refine ⟨cs, e, ⟨h1, h2, fun θ hθ => ?_⟩, ?_⟩
  · obtain ⟨c1, c2, c3⟩ := circle_tan hθ.1
    have hne := hθ.2
    have hθ0 : θ ≠ 0 := by
      rintro rfl
      apply hne
      simp [passFreq]
    have ht := Verif.IirDesign.tan_half_ne hθ.1 hθ0
    rw [passFreq] at hne
    have hnum : Real.tan (θ / 2) ^ 2 - Real.tan (Real.pi * low / rate) * Real.tan (Real.pi * high / rate) ≠ 0 :=
      fun h => hne (by rw [h, zero_div])
    have e2 : ((Real.tan (θ / 2) : ℂ) * Complex.I) ^ 2
          + (Real.tan (Real.pi * low / rate) : ℂ) * (Real.tan (Real.pi * high / rate) : ℂ)
        = -((Real.tan (θ / 2) ^ 2 - Real.tan (Real.pi * low / rate) * Real.tan (Real.pi * high / rate) : ℝ) : ℂ) := by
      rw [mul_pow, Complex.I_sq]; push_cast; ring
    rw [cascadeResponse, h3 _ _ c1 c2 c3.symm (by rw [e2]; exact neg_ne_zero.2 (by exact_mod_cast hnum)), e2, ← hev, ← hH,
      stopFreq, passFreq, inv_div]
    congr 3
    push_cast
    rw [div_neg, neg_mul, div_mul_eq_mul_div]
    congr 2
    ring
  · rw [cascadeResponse, h3 _ 0 (Complex.exp_ne_zero _) (by rw [exp_zero']; norm_num) (by rw [exp_zero']; simp)
      (by
        rw [zero_pow two_ne_zero, zero_add, ← Complex.ofReal_mul]
        exact_mod_cast (mul_pos ht1 ht2).ne'), ← hH]
    simp

/-! ### The Butterworth prototype -/

theorem butterworth_regular {N : ℕ} (hN : 0 < N) (h45 : N ≤ 45000) : Regular (butterworth N) := by
  obtain ⟨h1, h2, h3, h4⟩ : (butterworth N).pairedPoles = (List.range (N / 2)).map (fun i => butterworthPole N i) ∧
      (butterworth N).lonePoles = (if N % 2 = 1 then [-1] else []) ∧ (butterworth N).pairedZeros = [] ∧
      (butterworth N).loneZeros = [] := ⟨rfl, rfl, rfl, rfl⟩
  have hpi := Real.pi_pos
  have hN' : (0 : ℝ) < N := by exact_mod_cast hN
  refine ⟨butterworth_prototype N, by rw [h2]; split_ifs <;> simp, h4, by rw [h3]; simp, ?_, ?_⟩
  · intro p hp
    rw [h1] at hp
    obtain ⟨i, hi, rfl⟩ := List.mem_map.1 hp
    have hi := List.mem_range.1 hi
    have hn : ‖butterworthPole N i‖ = 1 := by
      have := butter_norm N i
      rw [Complex.mul_conj, Complex.normSq_eq_norm_sq] at this
      have h5 : ‖butterworthPole N i‖ ^ 2 = 1 := by exact_mod_cast this
      nlinarith [norm_nonneg (butterworthPole N i)]
    unfold Margin
    rw [hn, div_one]
    obtain ⟨t, ht1, ht2, hre⟩ : ∃ t, Real.pi / (2 * N) ≤ t ∧ t ≤ Real.pi ∧ (butterworthPole N i).re = -Real.cos t := by
      refine ⟨Verif.IirDesign.theta N (i + 1), (Verif.IirDesign.theta_bounds hi).1, ?_, ?_⟩
      · have := (Verif.IirDesign.theta_bounds hi).2
        have h6 : 0 < Real.pi / (2 * N) := by positivity
        linarith
      · rw [← Real.cos_pi_sub]
        show Real.cos _ = _
        congr 2
        unfold Verif.IirDesign.theta
        congr 1
        push_cast
        rcases Nat.mod_two_eq_zero_or_one N with h | h <;> simp [h]
    rw [hre]
    have hx : 0 < Real.pi / (2 * N) := by positivity
    have hc1 : Real.cos t ≤ Real.cos (Real.pi / (2 * N)) := Real.cos_le_cos_of_nonneg_of_le_pi hx.le ht2 ht1
    have hN1 : (1 : ℝ) ≤ N := by exact_mod_cast hN
    have hc2 := Real.cos_le_one_sub_mul_cos_sq (x := Real.pi / (2 * N)) (by
      rw [abs_of_pos hx, div_le_iff₀ (by positivity)]
      nlinarith)
    have e : 2 / Real.pi ^ 2 * (Real.pi / (2 * N)) ^ 2 = 1 / (2 * (N : ℝ) ^ 2) := by field_simp
    rw [e] at hc2
    have hN45 : (N : ℝ) ≤ 45000 := by exact_mod_cast h45
    have h3 : (N : ℝ) ^ 2 ≤ 45000 ^ 2 := pow_le_pow_left₀ hN'.le hN45 2
    have h4 : 1 / (2 * (45000 : ℝ) ^ 2) ≤ 1 / (2 * (N : ℝ) ^ 2) := by
      apply one_div_le_one_div_of_le (by positivity)
      linarith
    have h5 : (24 / 10 ^ 11 : ℝ) < 1 / (2 * (45000 : ℝ) ^ 2) := by norm_num
    linarith
  · have := butterworth_degree N
    unfold PZ.relativeDegree PZ.zerosDegree at this
    rw [h3, h4] at this
    simp at this
    omega

theorem butterworth_power {N : ℕ} (hN : 0 < N) (w : ℝ) :
    ‖analogSystem (butterworth N) (w * Complex.I)‖ ^ 2 = Verif.IirDesign.Spec.butterworth N w := by
  have h1 := butterworth_hom N (w * Complex.I) 1
  rw [one_pow, hom_eq_analog (butterworth N) (by rw [butterworth_degree]; omega) _ _ one_ne_zero, div_one] at h1
  rw [h1, ← Complex.normSq_eq_norm_sq, Complex.normSq_div]
  have := bw_normSq N hN w 1
  rw [Complex.ofReal_one] at this
  rw [this, one_pow, Complex.normSq_one, Verif.IirDesign.Spec.butterworth, add_comm]

end Verif.PoleZero
