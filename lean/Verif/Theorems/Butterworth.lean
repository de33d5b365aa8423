import Verif.Proof.Butterworth2

/-!
# C59: Butterworth filters of every order

The power response at `z = e^{iθ}` is the one of the textbook Butterworth filter with the frequency warped by the
bilinear transform, `Ω(θ) = tan(θ/2) / tan(π f / rate)`. The order is bounded by 50000: beyond that a stage could fall
under the threshold `1e-10` of `Simplify`.
-/

namespace Verif.PoleZero
open Verif.BiquadCascade Verif.FilterDesign Spec

theorem tan_corner_pos {rate corner : ℝ} (hr : 0 < rate) (h0 : 0 < corner) (h : corner < rate / 2) :
    0 < Real.tan (Real.pi * corner / rate) := by
  have hp := Real.pi_pos
  refine Real.tan_pos_of_pos_of_lt_pi_div_two (by positivity) ?_
  rw [div_lt_iff₀ hr]
  nlinarith

theorem cos_half_ne {θ : ℝ} (hθ : |θ| < Real.pi) : Real.cos (θ / 2) ≠ 0 := by
  obtain ⟨h1, h2⟩ := abs_lt.1 hθ
  exact (Real.cos_pos_of_mem_Ioo ⟨by linarith, by linarith⟩).ne'

theorem low_power {N : ℕ} (hN0 : 0 < N) {t : ℝ} (ht : 0 < t) (θ : ℝ) :
    Complex.normSq ((t * (Complex.exp (θ * Complex.I) + 1)) ^ N
        / bw N (Complex.exp (θ * Complex.I) - 1) (t * (Complex.exp (θ * Complex.I) + 1)))
      = (t * (2 * Real.cos (θ / 2))) ^ (2 * N)
        / ((2 * Real.sin (θ / 2)) ^ (2 * N) + (t * (2 * Real.cos (θ / 2))) ^ (2 * N)) := by
  rw [Complex.normSq_div, bw_circle hN0, map_pow, map_mul, circle_add, map_mul, normSq_exp, one_mul,
    Complex.normSq_ofReal, Complex.normSq_ofReal]
  congr 1
  rw [pow_mul]
  congr 1
  ring

theorem high_power {N : ℕ} (hN0 : 0 < N) {t : ℝ} (ht : 0 < t) (θ : ℝ) :
    Complex.normSq ((Complex.exp (θ * Complex.I) - 1) ^ N
        / bw N (Complex.exp (θ * Complex.I) - 1) (t * (Complex.exp (θ * Complex.I) + 1)))
      = (2 * Real.sin (θ / 2)) ^ (2 * N)
        / ((2 * Real.sin (θ / 2)) ^ (2 * N) + (t * (2 * Real.cos (θ / 2))) ^ (2 * N)) := by
  rw [Complex.normSq_div, bw_circle hN0, map_pow, circle_sub, map_mul, normSq_exp, one_mul, map_mul,
    Complex.normSq_I, mul_one, Complex.normSq_ofReal]
  congr 1
  rw [pow_mul]
  congr 1
  ring

/-- **C59.** For every order below 50000, sampling rate and corner frequency below the Nyquist frequency,
`ButterworthFilterDesign(N).LowpassCoefficients` succeeds and the power response of the cascade is
`1 / (1 + Ω(θ)^(2N))` at every frequency, and 0 at the Nyquist frequency. -/
theorem C59_lowpass (N : ℕ) (hN0 : 0 < N) (hN : N < 50000) (rate corner : ℝ) (hr : 0 < rate) (h0 : 0 < corner)
    (h : corner < rate / 2) :
    ∃ cs, lowpassCoefficients (1 / 10 ^ 10) (butterworth N) rate corner = some cs ∧
      (∀ θ, |θ| < Real.pi → ‖cascadeResponse cs θ‖ ^ 2
        = 1 / (1 + (Real.tan (θ / 2) / Real.tan (Real.pi * corner / rate)) ^ (2 * N))) ∧
      cascadeResponse cs Real.pi = 0 := by
  obtain ⟨e, hev⟩ := butterworth_lowpass hN0 hN hr h0 h
  have ht := tan_corner_pos hr h0 h
  refine ⟨_, e, fun θ hθ => ?_, ?_⟩
  · rw [← Complex.normSq_eq_norm_sq, cascadeResponse, hev _ (Complex.exp_ne_zero _), low_power hN0 ht]
    have hc := cos_half_ne hθ
    have hb := (bw_circle_pos (N := N) _ ht θ).ne'
    generalize Real.tan (Real.pi * corner / rate) = t at *
    rw [Real.tan_eq_sin_div_cos]
    have hx : (t * (2 * Real.cos (θ / 2))) ^ (2 * N) ≠ 0 := pow_ne_zero _ (by positivity)
    have e : Real.sin (θ / 2) / Real.cos (θ / 2) / t = (2 * Real.sin (θ / 2)) / (t * (2 * Real.cos (θ / 2))) := by
      field_simp
    rw [e, div_pow]
    generalize (t * (2 * Real.cos (θ / 2))) ^ (2 * N) = x at *
    generalize (2 * Real.sin (θ / 2)) ^ (2 * N) = y at *
    rw [add_comm y x] at *
    field_simp
  · rw [cascadeResponse, hev _ (Complex.exp_ne_zero _), Complex.exp_pi_mul_I, neg_add_cancel, mul_zero, zero_pow hN0.ne',
      zero_div]

/-- **C59.** The highpass: `1 / (1 + Ω(θ)^(-2N))` at every frequency but 0, and 0 there. -/
theorem C59_highpass (N : ℕ) (hN0 : 0 < N) (hN : N < 50000) (rate corner : ℝ) (hr : 0 < rate) (h0 : 0 < corner)
    (h : corner < rate / 2) :
    ∃ cs, highpassCoefficients (1 / 10 ^ 10) (butterworth N) rate corner = some cs ∧
      (∀ θ, |θ| < Real.pi → θ ≠ 0 → ‖cascadeResponse cs θ‖ ^ 2
        = 1 / (1 + (Real.tan (Real.pi * corner / rate) / Real.tan (θ / 2)) ^ (2 * N))) ∧
      cascadeResponse cs 0 = 0 ∧ ‖cascadeResponse cs Real.pi‖ = 1 := by
  obtain ⟨e, hev⟩ := butterworth_highpass hN0 hN hr h0 h
  have ht := tan_corner_pos hr h0 h
  refine ⟨_, e, fun θ hθ hne => ?_, ?_, ?_⟩
  · rw [← Complex.normSq_eq_norm_sq, cascadeResponse, hev _ (Complex.exp_ne_zero _), high_power hN0 ht]
    have hc := cos_half_ne hθ
    have hs : Real.sin (θ / 2) ≠ 0 := by
      obtain ⟨h1, h2⟩ := abs_lt.1 hθ
      intro h3
      have := (Real.sin_eq_zero_iff_of_lt_of_lt (by linarith [Real.pi_pos]) (by linarith [Real.pi_pos])).1 h3
      exact hne (by linarith)
    have hb := (bw_circle_pos (N := N) _ ht θ).ne'
    generalize Real.tan (Real.pi * corner / rate) = t at *
    rw [Real.tan_eq_sin_div_cos]
    have hx : (2 * Real.sin (θ / 2)) ^ (2 * N) ≠ 0 := pow_ne_zero _ (by positivity)
    have e : t / (Real.sin (θ / 2) / Real.cos (θ / 2)) = (t * (2 * Real.cos (θ / 2))) / (2 * Real.sin (θ / 2)) := by
      field_simp
    rw [e, div_pow]
    generalize (t * (2 * Real.cos (θ / 2))) ^ (2 * N) = x at *
    generalize (2 * Real.sin (θ / 2)) ^ (2 * N) = y at *
    field_simp
  · rw [cascadeResponse, hev _ (Complex.exp_ne_zero _)]
    simp [hN0.ne']
  · have h1 : ‖cascadeResponse (adjustGain (highpassPZ (butterworth N) rate corner).gain
          (stageList 1 (highpassPZ (butterworth N) rate corner).pairedPoles
            (highpassPZ (butterworth N) rate corner).lonePoles)) Real.pi‖ ^ 2 = 1 := by
      rw [← Complex.normSq_eq_norm_sq, cascadeResponse, hev _ (Complex.exp_ne_zero _), high_power hN0 ht]
      rw [Real.cos_pi_div_two, Real.sin_pi_div_two, mul_zero, mul_zero, zero_pow (by omega), add_zero, div_self]
      exact pow_ne_zero _ (by norm_num)
    exact (pow_eq_one_iff_of_nonneg (norm_nonneg _) two_ne_zero).1 h1

/-- **C59.** Lowpass and highpass with the same parameters are power complementary at every frequency, and both are at
half power at the corner frequency. -/
theorem C59_power_complementary (N : ℕ) (hN0 : 0 < N) (hN : N < 50000) (rate corner : ℝ) (hr : 0 < rate)
    (h0 : 0 < corner) (h : corner < rate / 2) :
    ∃ lo hi, lowpassCoefficients (1 / 10 ^ 10) (butterworth N) rate corner = some lo ∧
      highpassCoefficients (1 / 10 ^ 10) (butterworth N) rate corner = some hi ∧
      (∀ θ, ‖cascadeResponse lo θ‖ ^ 2 + ‖cascadeResponse hi θ‖ ^ 2 = 1) ∧
      ‖cascadeResponse lo (2 * Real.pi * corner / rate)‖ ^ 2 = 1 / 2 ∧
      ‖cascadeResponse hi (2 * Real.pi * corner / rate)‖ ^ 2 = 1 / 2 := by
  obtain ⟨e1, hev1⟩ := butterworth_lowpass hN0 hN hr h0 h
  obtain ⟨e2, hev2⟩ := butterworth_highpass hN0 hN hr h0 h
  have ht := tan_corner_pos hr h0 h
  have hang : 2 * Real.pi * corner / rate / 2 = Real.pi * corner / rate := by ring
  have hc : Real.cos (Real.pi * corner / rate) ≠ 0 := by
    intro hc
    rw [Real.tan_eq_sin_div_cos, hc, div_zero] at ht
    exact lt_irrefl _ ht
  have htc : Real.tan (Real.pi * corner / rate) * (2 * Real.cos (Real.pi * corner / rate))
      = 2 * Real.sin (Real.pi * corner / rate) := by
    rw [Real.tan_eq_sin_div_cos]; field_simp
  have hs : (2 * Real.sin (Real.pi * corner / rate)) ^ (2 * N) ≠ 0 := by
    apply pow_ne_zero
    rw [← htc]; positivity
  refine ⟨_, _, e1, e2, fun θ => ?_, ?_, ?_⟩
  · rw [← Complex.normSq_eq_norm_sq, ← Complex.normSq_eq_norm_sq, cascadeResponse, cascadeResponse,
      hev1 _ (Complex.exp_ne_zero _), hev2 _ (Complex.exp_ne_zero _), low_power hN0 ht, high_power hN0 ht, ← add_div,
      add_comm, div_self (bw_circle_pos (N := N) _ ht θ).ne']
  · rw [← Complex.normSq_eq_norm_sq, cascadeResponse, hev1 _ (Complex.exp_ne_zero _), low_power hN0 ht, hang, htc]
    field_simp; norm_num
  · rw [← Complex.normSq_eq_norm_sq, cascadeResponse, hev2 _ (Complex.exp_ne_zero _), high_power hN0 ht, hang, htc]
    field_simp; norm_num

/-- Non-vacuity: order 7, corner 1 kHz at 48 kHz. -/
example : ∃ cs, lowpassCoefficients (1 / 10 ^ 10) (butterworth 7) 48000 1000 = some cs ∧ ‖cascadeResponse cs 0‖ ^ 2 = 1 := by
  obtain ⟨cs, e, h, _⟩ := C59_lowpass 7 (by norm_num) (by norm_num) 48000 1000 (by norm_num) (by norm_num) (by norm_num)
  refine ⟨cs, e, ?_⟩
  rw [h 0 (by simp [Real.pi_pos])]
  simp

end Verif.PoleZero
