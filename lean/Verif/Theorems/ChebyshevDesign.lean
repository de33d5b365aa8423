import Verif.Proof.Chebyshev3
import Verif.Theorems.IirDesignFilters
import Mathlib.Analysis.SpecialFunctions.Log.Base

/-!
# C95: the C++ Chebyshev designs, and the band designs of all prototypes

biquad_filter_design_pole_zero.cc: `LowpassCoefficients`, `HighpassCoefficients`, `BandpassCoefficients` and
`BandstopCoefficients` of `ChebyshevType1FilterDesign`, `ChebyshevType2FilterDesign` and (band designs)
`ButterworthFilterDesign`.
-/

namespace Verif.PoleZero
open Spec
open Verif.IirDesign.Spec (lowFreq highFreq passFreq stopFreq)
open Verif.IirDesign (cheb1_bounds cheb2_bounds low_band high_band pass_band stop_band)

theorem pass_ripple {cs : List (Verif.BiquadCascade.Stage ℝ)} {n N : ℕ} (hN : 0 < N) {ripple : ℝ} (hr : 0 < ripple)
    {S : Set ℝ} {φ : ℝ → ℝ} {pass : ℝ → Prop}
    (h : Designed cs n S fun θ => Verif.IirDesign.Spec.chebyshev1 N ripple (φ θ))
    (hp : ∀ θ ∈ S, |φ θ| ≤ 1 ↔ pass θ) : PassRipple cs ripple S pass := by
  intro θ hθ
  rw [h.power θ hθ, ← hp θ hθ]
  obtain ⟨b1, b2, -⟩ := cheb1_bounds hN hr (φ θ)
  exact ⟨b1, b2⟩

theorem stop_ripple {cs : List (Verif.BiquadCascade.Stage ℝ)} {n N : ℕ} (hN : 0 < N) {ripple : ℝ} (hr : 0 < ripple)
    {S : Set ℝ} {φ : ℝ → ℝ} {pass : ℝ → Prop}
    (h : Designed cs n S fun θ => Verif.IirDesign.Spec.chebyshev2 N ripple (φ θ))
    (hp : ∀ θ ∈ S, |φ θ| < 1 ↔ pass θ) : StopRipple cs ripple S pass := by
  intro θ hθ
  rw [h.power θ hθ, ← hp θ hθ]
  obtain ⟨b1, b2, -⟩ := cheb2_bounds hN hr (φ θ)
  exact ⟨b1, b2⟩

/-- **C95, partial.** Chebyshev type 1 lowpass of every order up to 45000, positive ripple and corner frequency below
the Nyquist frequency: `ceil(order / 2)` stable stages with exactly the Chebyshev power response at the warped frequency;
so the gain stays within `ripple` dB up to the corner frequency, is lower above, and 0 at the Nyquist frequency.
Missing: larger orders. -/
theorem C95_type1_lowpass_partial {N : ℕ} (hN : 0 < N) (h45 : N ≤ 45000) {ripple rate corner : ℝ} (hrip : 0 < ripple)
    (hr : 0 < rate) (h0 : 0 < corner) (hc : corner < rate / 2) :
    ∃ cs, lowpassCoefficients (1 / 10 ^ 10) (chebyshev1 N ripple) rate corner = some cs ∧
      Designed cs ((N + 1) / 2) {θ | |θ| < Real.pi}
        (fun θ => Verif.IirDesign.Spec.chebyshev1 N ripple (lowFreq corner rate θ)) ∧
      PassRipple cs ripple {θ | |θ| < Real.pi} (fun θ => |θ| ≤ 2 * Real.pi * corner / rate) ∧
      cascadeResponse cs Real.pi = 0 := by
  obtain ⟨cs, e, h1, h2⟩ := designed_low (chebyshev1_regular hN h45 hrip) (chebyshev1_power hN hrip) hr h0 hc
  rw [(chebyshev1_length N ripple).1, (chebyshev1_length N ripple).2, show N / 2 + N % 2 = (N + 1) / 2 by omega] at h1
  refine ⟨cs, e, h1, pass_ripple hN hrip h1 fun θ hθ => (low_band h0 hc hθ).1, ?_⟩
  rw [h2, (chebyshev1_degree N ripple).1, if_neg (by omega)]

/-- **C95, partial.** Chebyshev type 1 highpass, likewise; the gain is 0 at frequency 0. -/
theorem C95_type1_highpass_partial {N : ℕ} (hN : 0 < N) (h45 : N ≤ 45000) {ripple rate corner : ℝ} (hrip : 0 < ripple)
    (hr : 0 < rate) (h0 : 0 < corner) (hc : corner < rate / 2) :
    ∃ cs, highpassCoefficients (1 / 10 ^ 10) (chebyshev1 N ripple) rate corner = some cs ∧
      Designed cs ((N + 1) / 2) {θ | |θ| < Real.pi ∧ θ ≠ 0}
        (fun θ => Verif.IirDesign.Spec.chebyshev1 N ripple (highFreq corner rate θ)) ∧
      PassRipple cs ripple {θ | |θ| < Real.pi ∧ θ ≠ 0} (fun θ => 2 * Real.pi * corner / rate ≤ |θ|) ∧
      ‖cascadeResponse cs Real.pi‖ ^ 2 = Verif.IirDesign.Spec.chebyshev1 N ripple 0 ∧ cascadeResponse cs 0 = 0 := by
  obtain ⟨cs, e, h1, h2, h3⟩ := designed_high (chebyshev1_regular hN h45 hrip) (chebyshev1_power hN hrip)
    (cheb1_even N ripple) hr h0 hc
  rw [(chebyshev1_length N ripple).1, (chebyshev1_length N ripple).2, show N / 2 + N % 2 = (N + 1) / 2 by omega] at h1
  refine ⟨cs, e, h1, pass_ripple hN hrip h1 fun θ hθ => (high_band h0 hc hθ).1, h2, ?_⟩
  rw [h3, (chebyshev1_degree N ripple).1, if_neg (by omega)]

/-- **C95, partial.** Chebyshev type 1 bandpass: `order` stable stages with the Chebyshev response. Missing: for odd
orders, wide bands (`BandClear`; the design is wrong there, `C95_bandpass_violation`), and orders above 45000. -/
theorem C95_type1_bandpass_partial {N : ℕ} (hN : 0 < N) (h45 : N ≤ 45000) {ripple rate low high : ℝ} (hrip : 0 < ripple)
    (hr : 0 < rate) (h0 : 0 < low) (hlh : low < high) (hh : high < rate / 2)
    (hodd : N % 2 = 1 → BandClear (Real.tan (Real.pi * low / rate)) (Real.tan (Real.pi * high / rate))
      ((Real.tan (Real.pi * high / rate) - Real.tan (Real.pi * low / rate))
        * -Real.sinh (Real.arsinh (1 / √((10 : ℝ) ^ (ripple / 10) - 1)) / N))) :
    ∃ cs, bandpassCoefficients (1 / 10 ^ 10) (chebyshev1 N ripple) rate low high = some cs ∧
      Designed cs N {θ | |θ| < Real.pi ∧ θ ≠ 0}
        (fun θ => Verif.IirDesign.Spec.chebyshev1 N ripple (passFreq low high rate θ)) ∧
      PassRipple cs ripple {θ | |θ| < Real.pi ∧ θ ≠ 0}
        (fun θ => 2 * Real.pi * low / rate ≤ |θ| ∧ |θ| ≤ 2 * Real.pi * high / rate) := by
  obtain ⟨cs, e, h1⟩ := designed_pass (chebyshev1_regular hN h45 hrip) (chebyshev1_power hN hrip) hr h0 hlh hh
    (by
      intro p hp
      obtain ⟨ho, rfl⟩ := chebyshev1_lone hp
      exact hodd ho)
  rw [(chebyshev1_degree N ripple).2] at h1
  exact ⟨cs, e, h1, pass_ripple hN hrip h1 fun θ hθ => (pass_band h0 hlh hh hθ).1⟩

/-- **C95, partial.** Chebyshev type 1 bandstop, likewise. -/
theorem C95_type1_bandstop_partial {N : ℕ} (hN : 0 < N) (h45 : N ≤ 45000) {ripple rate low high : ℝ} (hrip : 0 < ripple)
    (hr : 0 < rate) (h0 : 0 < low) (hlh : low < high) (hh : high < rate / 2)
    (hodd : N % 2 = 1 → BandClear (Real.tan (Real.pi * low / rate)) (Real.tan (Real.pi * high / rate))
      ((Real.tan (Real.pi * high / rate) - Real.tan (Real.pi * low / rate))
        / -Real.sinh (Real.arsinh (1 / √((10 : ℝ) ^ (ripple / 10) - 1)) / N))) :
    ∃ cs, bandstopCoefficients (1 / 10 ^ 10) (chebyshev1 N ripple) rate low high = some cs ∧
      Designed cs N {θ | |θ| < Real.pi ∧ passFreq low high rate θ ≠ 0}
        (fun θ => Verif.IirDesign.Spec.chebyshev1 N ripple (stopFreq low high rate θ)) ∧
      PassRipple cs ripple {θ | |θ| < Real.pi ∧ passFreq low high rate θ ≠ 0}
        (fun θ => |θ| ≤ 2 * Real.pi * low / rate ∨ 2 * Real.pi * high / rate ≤ |θ|) ∧
      ‖cascadeResponse cs 0‖ ^ 2 = Verif.IirDesign.Spec.chebyshev1 N ripple 0 := by
  obtain ⟨cs, e, h1, h2⟩ := designed_stop (chebyshev1_regular hN h45 hrip) (chebyshev1_power hN hrip)
    (cheb1_even N ripple) hr h0 hlh hh
    (by
      intro p hp
      obtain ⟨ho, rfl⟩ := chebyshev1_lone hp
      exact hodd ho)
  rw [(chebyshev1_degree N ripple).2] at h1
  exact ⟨cs, e, h1, pass_ripple hN hrip h1 fun θ hθ => (stop_band h0 hlh hh hθ).1, h2⟩

/-- **C95, partial.** Chebyshev type 2 lowpass of every order up to 45000: `ceil(order / 2)` stable stages with exactly
the inverse Chebyshev power response; the gain is above `-ripple` dB below the corner frequency and at most `-ripple` dB
above, which is the gain at the Nyquist frequency for even orders (0 for odd orders). Missing: larger orders. -/
theorem C95_type2_lowpass_partial {N : ℕ} (hN : 0 < N) (h45 : N ≤ 45000) {ripple rate corner : ℝ} (hrip : 0 < ripple)
    (hr : 0 < rate) (h0 : 0 < corner) (hc : corner < rate / 2) :
    ∃ cs, lowpassCoefficients (1 / 10 ^ 10) (chebyshev2 N ripple) rate corner = some cs ∧
      Designed cs ((N + 1) / 2) {θ | |θ| < Real.pi}
        (fun θ => Verif.IirDesign.Spec.chebyshev2 N ripple (lowFreq corner rate θ)) ∧
      StopRipple cs ripple {θ | |θ| < Real.pi} (fun θ => |θ| < 2 * Real.pi * corner / rate) ∧
      ‖cascadeResponse cs Real.pi‖ ^ 2 = if N % 2 = 0 then (10 : ℝ) ^ (-ripple / 10) else 0 := by
  obtain ⟨cs, e, h1, h2⟩ := designed_low (chebyshev2_regular hN h45 hrip) (chebyshev2_power hN hrip) hr h0 hc
  rw [(chebyshev2_length N ripple).1, (chebyshev2_length N ripple).2.1, show N / 2 + N % 2 = (N + 1) / 2 by omega] at h1
  refine ⟨cs, e, h1, stop_ripple hN hrip h1 fun θ hθ => (low_band h0 hc hθ).2, ?_⟩
  rw [h2, (chebyshev2_degree N ripple).1]
  split_ifs with ha hb hb
  · rw [Complex.norm_real, Real.norm_eq_abs, sq_abs, chebyshev2_gain_even hN hb hrip]
  · omega
  · omega
  · simp

/-- **C95, partial.** Chebyshev type 2 highpass, likewise. -/
theorem C95_type2_highpass_partial {N : ℕ} (hN : 0 < N) (h45 : N ≤ 45000) {ripple rate corner : ℝ} (hrip : 0 < ripple)
    (hr : 0 < rate) (h0 : 0 < corner) (hc : corner < rate / 2) :
    ∃ cs, highpassCoefficients (1 / 10 ^ 10) (chebyshev2 N ripple) rate corner = some cs ∧
      Designed cs ((N + 1) / 2) {θ | |θ| < Real.pi ∧ θ ≠ 0}
        (fun θ => Verif.IirDesign.Spec.chebyshev2 N ripple (highFreq corner rate θ)) ∧
      StopRipple cs ripple {θ | |θ| < Real.pi ∧ θ ≠ 0} (fun θ => 2 * Real.pi * corner / rate < |θ|) ∧
      ‖cascadeResponse cs Real.pi‖ = 1 ∧
      ‖cascadeResponse cs 0‖ ^ 2 = if N % 2 = 0 then (10 : ℝ) ^ (-ripple / 10) else 0 := by
  obtain ⟨cs, e, h1, h2, h3⟩ := designed_high (chebyshev2_regular hN h45 hrip) (chebyshev2_power hN hrip)
    (cheb2_even N ripple) hr h0 hc
  rw [(chebyshev2_length N ripple).1, (chebyshev2_length N ripple).2.1, show N / 2 + N % 2 = (N + 1) / 2 by omega] at h1
  refine ⟨cs, e, h1, stop_ripple hN hrip h1 fun θ hθ => (high_band h0 hc hθ).2, ?_, ?_⟩
  · rw [Verif.IirDesign.Spec.chebyshev2, if_pos rfl] at h2
    nlinarith [norm_nonneg (cascadeResponse cs Real.pi)]
  rw [h3, (chebyshev2_degree N ripple).1]
  split_ifs with ha hb hb
  · rw [Complex.norm_real, Real.norm_eq_abs, sq_abs, chebyshev2_gain_even hN hb hrip]
  · omega
  · omega
  · simp

/-- **C95, partial.** Chebyshev type 2 bandpass. Missing as for type 1. -/
theorem C95_type2_bandpass_partial {N : ℕ} (hN : 0 < N) (h45 : N ≤ 45000) {ripple rate low high : ℝ} (hrip : 0 < ripple)
    (hr : 0 < rate) (h0 : 0 < low) (hlh : low < high) (hh : high < rate / 2)
    (hodd : N % 2 = 1 → BandClear (Real.tan (Real.pi * low / rate)) (Real.tan (Real.pi * high / rate))
      ((Real.tan (Real.pi * high / rate) - Real.tan (Real.pi * low / rate))
        * (-1 / Real.sinh (Real.arsinh (√((10 : ℝ) ^ (ripple / 10) - 1)) / N)))) :
    ∃ cs, bandpassCoefficients (1 / 10 ^ 10) (chebyshev2 N ripple) rate low high = some cs ∧
      Designed cs N {θ | |θ| < Real.pi ∧ θ ≠ 0}
        (fun θ => Verif.IirDesign.Spec.chebyshev2 N ripple (passFreq low high rate θ)) ∧
      StopRipple cs ripple {θ | |θ| < Real.pi ∧ θ ≠ 0}
        (fun θ => 2 * Real.pi * low / rate < |θ| ∧ |θ| < 2 * Real.pi * high / rate) := by
  obtain ⟨cs, e, h1⟩ := designed_pass (chebyshev2_regular hN h45 hrip) (chebyshev2_power hN hrip) hr h0 hlh hh
    (by
      intro p hp
      obtain ⟨ho, rfl⟩ := chebyshev2_lone hp
      exact hodd ho)
  rw [(chebyshev2_degree N ripple).2] at h1
  exact ⟨cs, e, h1, stop_ripple hN hrip h1 fun θ hθ => (pass_band h0 hlh hh hθ).2⟩

/-- **C95, partial.** Chebyshev type 2 bandstop, likewise. -/
theorem C95_type2_bandstop_partial {N : ℕ} (hN : 0 < N) (h45 : N ≤ 45000) {ripple rate low high : ℝ} (hrip : 0 < ripple)
    (hr : 0 < rate) (h0 : 0 < low) (hlh : low < high) (hh : high < rate / 2)
    (hodd : N % 2 = 1 → BandClear (Real.tan (Real.pi * low / rate)) (Real.tan (Real.pi * high / rate))
      ((Real.tan (Real.pi * high / rate) - Real.tan (Real.pi * low / rate))
        / (-1 / Real.sinh (Real.arsinh (√((10 : ℝ) ^ (ripple / 10) - 1)) / N)))) :
    ∃ cs, bandstopCoefficients (1 / 10 ^ 10) (chebyshev2 N ripple) rate low high = some cs ∧
      Designed cs N {θ | |θ| < Real.pi ∧ passFreq low high rate θ ≠ 0}
        (fun θ => Verif.IirDesign.Spec.chebyshev2 N ripple (stopFreq low high rate θ)) ∧
      StopRipple cs ripple {θ | |θ| < Real.pi ∧ passFreq low high rate θ ≠ 0}
        (fun θ => |θ| < 2 * Real.pi * low / rate ∨ 2 * Real.pi * high / rate < |θ|) ∧ ‖cascadeResponse cs 0‖ = 1 := by
  obtain ⟨cs, e, h1, h2⟩ := designed_stop (chebyshev2_regular hN h45 hrip) (chebyshev2_power hN hrip)
    (cheb2_even N ripple) hr h0 hlh hh
    (by
      intro p hp
      obtain ⟨ho, rfl⟩ := chebyshev2_lone hp
      exact hodd ho)
  rw [(chebyshev2_degree N ripple).2] at h1
  refine ⟨cs, e, h1, stop_ripple hN hrip h1 fun θ hθ => (stop_band h0 hlh hh hθ).2, ?_⟩
  rw [Verif.IirDesign.Spec.chebyshev2, if_pos rfl] at h2
  nlinarith [norm_nonneg (cascadeResponse cs 0)]

theorem butterworth_lone {N : ℕ} {p : ℝ} (hp : p ∈ (butterworth N).lonePoles) : N % 2 = 1 ∧ p = -1 := by
  have hp : p ∈ (if N % 2 = 1 then [-1] else []) := hp
  split_ifs at hp with h
  · exact ⟨h, List.mem_singleton.1 hp⟩
  · simp at hp

theorem butterworth_polesDegree (N : ℕ) : (butterworth N).polesDegree = N := by
  have := butterworth_degree N
  unfold PZ.relativeDegree PZ.zerosDegree at this
  have h3 : (butterworth N).pairedZeros = [] := rfl
  have h4 : (butterworth N).loneZeros = [] := rfl
  rw [h3, h4] at this
  simpa using this

/-- **C95, partial.** Butterworth bandpass: `order` stable stages with the Butterworth response, gain `1/√2` at both
edges. Missing: for odd orders wide bands, and orders above 45000. -/
theorem C95_butterworth_bandpass_partial {N : ℕ} (hN : 0 < N) (h45 : N ≤ 45000) {rate low high : ℝ}
    (hr : 0 < rate) (h0 : 0 < low) (hlh : low < high) (hh : high < rate / 2)
    (hodd : N % 2 = 1 → BandClear (Real.tan (Real.pi * low / rate)) (Real.tan (Real.pi * high / rate))
      (Real.tan (Real.pi * low / rate) - Real.tan (Real.pi * high / rate))) :
    ∃ cs, bandpassCoefficients (1 / 10 ^ 10) (butterworth N) rate low high = some cs ∧
      Designed cs N {θ | |θ| < Real.pi ∧ θ ≠ 0}
        (fun θ => Verif.IirDesign.Spec.butterworth N (passFreq low high rate θ)) ∧
      ‖cascadeResponse cs (2 * Real.pi * low / rate)‖ ^ 2 = 1 / 2 ∧
      ‖cascadeResponse cs (2 * Real.pi * high / rate)‖ ^ 2 = 1 / 2 := by
  obtain ⟨cs, e, h1⟩ := designed_pass (butterworth_regular hN h45) (butterworth_power hN) hr h0 hlh hh
    (by
      intro p hp
      obtain ⟨ho, rfl⟩ := butterworth_lone hp
      rw [mul_neg_one, neg_sub]
      exact hodd ho)
  rw [butterworth_polesDegree N] at h1
  obtain ⟨a1, a2, -⟩ := Verif.IirDesign.edge_angle h0 (hlh.trans hh)
  obtain ⟨b1, b2, -⟩ := Verif.IirDesign.edge_angle (h0.trans hlh) hh
  refine ⟨cs, e, h1, ?_, ?_⟩
  · rw [h1.power _ ⟨a1, a2⟩, (Verif.IirDesign.band_edge h0 hlh hh).1, (Verif.IirDesign.butterworth_one N).2]
  · rw [h1.power _ ⟨b1, b2⟩, (Verif.IirDesign.band_edge h0 hlh hh).2, (Verif.IirDesign.butterworth_one N).1]

/-- **C95, partial.** Butterworth bandstop, likewise. -/
theorem C95_butterworth_bandstop_partial {N : ℕ} (hN : 0 < N) (h45 : N ≤ 45000) {rate low high : ℝ}
    (hr : 0 < rate) (h0 : 0 < low) (hlh : low < high) (hh : high < rate / 2)
    (hodd : N % 2 = 1 → BandClear (Real.tan (Real.pi * low / rate)) (Real.tan (Real.pi * high / rate))
      (Real.tan (Real.pi * low / rate) - Real.tan (Real.pi * high / rate))) :
    ∃ cs, bandstopCoefficients (1 / 10 ^ 10) (butterworth N) rate low high = some cs ∧
      Designed cs N {θ | |θ| < Real.pi ∧ passFreq low high rate θ ≠ 0}
        (fun θ => Verif.IirDesign.Spec.butterworth N (stopFreq low high rate θ)) ∧ ‖cascadeResponse cs 0‖ = 1 := by
  obtain ⟨cs, e, h1, h2⟩ := designed_stop (butterworth_regular hN h45) (butterworth_power hN) (butterworth_even N) hr h0 hlh hh
    (by
      intro p hp
      obtain ⟨ho, rfl⟩ := butterworth_lone hp
      rw [div_neg, div_one, neg_sub]
      exact hodd ho)
  rw [butterworth_polesDegree N] at h1
  refine ⟨cs, e, h1, ?_⟩
  rw [Verif.IirDesign.Spec.butterworth, zero_pow (by omega), add_zero, div_one] at h2
  nlinarith [norm_nonneg (cascadeResponse cs 0)]

theorem ripple_two : (10 : ℝ) ^ (10 * Real.logb 10 2 / 10) = 2 := by
  rw [mul_div_cancel_left₀ _ (by norm_num), Real.rpow_logb (by norm_num) (by norm_num) (by norm_num)]

/-- With a ripple of `10 log10 2` dB the first-order prototype is the Butterworth one. -/
theorem chebyshev1_one : chebyshev1 1 (10 * Real.logb 10 2) = butterworth 1 := by
  have hrip : 0 < 10 * Real.logb 10 2 := by
    have := Real.logb_pos (b := 10) (x := 2) (by norm_num) (by norm_num)
    positivity
  obtain ⟨h1, h2, h3, h4⟩ := chebyshev1_shape 1 (10 * Real.logb 10 2)
  obtain ⟨g1, g2⟩ := chebyshev1_gain 1 (10 * Real.logb 10 2) one_pos hrip
  have l1 : (chebyshev1 1 (10 * Real.logb 10 2)).lonePoles = [-1] := by
    have hl := (chebyshev1_length 1 (10 * Real.logb 10 2)).2
    obtain ⟨p, hp⟩ := List.length_eq_one_iff.1 hl
    obtain ⟨-, e⟩ := chebyshev1_lone (N := 1) (r := 10 * Real.logb 10 2) (p := p) (by rw [hp]; simp)
    rw [ripple_two] at e
    rw [hp, e, show (2 : ℝ) - 1 = 1 by norm_num, Real.sqrt_one]
    simp
  have l2 : (chebyshev1 1 (10 * Real.logb 10 2)).pairedPoles = [] := by
    have hl := (chebyshev1_length 1 (10 * Real.logb 10 2)).1
    exact List.length_eq_zero_iff.1 hl
  have g3 : (chebyshev1 1 (10 * Real.logb 10 2)).gain = 1 := by
    rw [poles, l1, l2] at g2
    simp [Verif.IirDesign.nrm] at g2
    exact g2.resolve_right (by linarith)
  rw [butterworth_one]
  generalize chebyshev1 1 (10 * Real.logb 10 2) = f at *
  obtain ⟨a, b, c, d, e⟩ := f
  simp only at l1 l2 h3 h4 g3
  rw [l1, l2, h3, h4, g3]

/-- **C95, finding.** The type 1 bandpass of order 1 with a ripple of about 3 dB (`10 log10 2`), sampling rate 1 and edges
`arctan(1/6)/π` and `1/4`: at the upper edge the power is `9/16`, not `10^(-ripple/10) = 1/2`. -/
theorem C95_bandpass_violation : ∃ cs, bandpassCoefficients (1 / 10 ^ 10) (chebyshev1 1 (10 * Real.logb 10 2)) 1
      (Real.arctan (1 / 6) / Real.pi) (1 / 4) = some cs ∧
    ‖cascadeResponse cs (2 * Real.pi * (1 / 4) / 1)‖ ^ 2 = 9 / 16 ∧
    Verif.IirDesign.Spec.chebyshev1 1 (10 * Real.logb 10 2)
      (passFreq (Real.arctan (1 / 6) / Real.pi) (1 / 4) 1 (2 * Real.pi * (1 / 4) / 1)) = 1 / 2 := by
  obtain ⟨cs, h1, h2, -⟩ := C60_bandpass_violation
  refine ⟨cs, by rw [chebyshev1_one]; exact h1, ?_, ?_⟩
  · rw [cascadeResponse, ← Complex.normSq_eq_norm_sq, ← h2]
    congr 2
    rw [show (2 * Real.pi * (1 / 4) / 1 : ℝ) = Real.pi / 2 by ring]
    push_cast
    exact Complex.exp_pi_div_two_mul_I
  · have hpi := Real.pi_pos
    have ha : 0 < Real.arctan (1 / 6) := by
      rw [← Real.arctan_zero]; exact Real.arctan_strictMono (by norm_num)
    have hb : Real.arctan (1 / 6) < Real.pi / 4 := by
      rw [← Real.arctan_one]; exact Real.arctan_strictMono (by norm_num)
    rw [(Verif.IirDesign.band_edge (by positivity) (by rw [div_lt_iff₀ hpi]; linarith) (by norm_num)).2]
    rw [Verif.IirDesign.Spec.chebyshev1, ripple_two]
    norm_num

/-! ### Witnesses -/

example : ∃ cs, lowpassCoefficients (1 / 10 ^ 10) (chebyshev1 5 1) 48000 1000 = some cs ∧ cs.length = 3 ∧
    cascadeResponse cs Real.pi = 0 := by
  obtain ⟨cs, e, h, -, h2⟩ := C95_type1_lowpass_partial (N := 5) (ripple := 1) (rate := 48000) (corner := 1000)
    (by norm_num) (by norm_num) (by norm_num) (by norm_num) (by norm_num) (by norm_num)
  exact ⟨cs, e, h.count, h2⟩

example : ∃ cs, highpassCoefficients (1 / 10 ^ 10) (chebyshev1 4 1) 48000 1000 = some cs ∧ cs.length = 2 ∧
    cascadeResponse cs 0 = 0 := by
  obtain ⟨cs, e, h, -, -, h2⟩ := C95_type1_highpass_partial (N := 4) (ripple := 1) (rate := 48000) (corner := 1000)
    (by norm_num) (by norm_num) (by norm_num) (by norm_num) (by norm_num) (by norm_num)
  exact ⟨cs, e, h.count, h2⟩

example : ∃ cs, lowpassCoefficients (1 / 10 ^ 10) (chebyshev2 4 40) 48000 1000 = some cs ∧ cs.length = 2 ∧
    ‖cascadeResponse cs Real.pi‖ ^ 2 = 1 / 10 ^ 4 := by
  obtain ⟨cs, e, h, -, h2⟩ := C95_type2_lowpass_partial (N := 4) (ripple := 40) (rate := 48000) (corner := 1000)
    (by norm_num) (by norm_num) (by norm_num) (by norm_num) (by norm_num) (by norm_num)
  refine ⟨cs, e, h.count, ?_⟩
  rw [h2, if_pos (by norm_num), show (-40 / 10 : ℝ) = ((-4 : ℤ) : ℝ) by norm_num, Real.rpow_intCast]
  norm_num

example : ∃ cs, highpassCoefficients (1 / 10 ^ 10) (chebyshev2 3 40) 48000 1000 = some cs ∧ cs.length = 2 ∧
    ‖cascadeResponse cs Real.pi‖ = 1 := by
  obtain ⟨cs, e, h, -, h2, -⟩ := C95_type2_highpass_partial (N := 3) (ripple := 40) (rate := 48000) (corner := 1000)
    (by norm_num) (by norm_num) (by norm_num) (by norm_num) (by norm_num) (by norm_num)
  exact ⟨cs, e, h.count, h2⟩

/-- Even orders need no condition on the band. -/
example : (∃ cs, bandpassCoefficients (1 / 10 ^ 10) (chebyshev1 4 1) 48000 20 20000 = some cs ∧ cs.length = 4) ∧
    (∃ cs, bandstopCoefficients (1 / 10 ^ 10) (chebyshev1 4 1) 48000 20 20000 = some cs ∧ cs.length = 4) ∧
    (∃ cs, bandpassCoefficients (1 / 10 ^ 10) (chebyshev2 4 40) 48000 20 20000 = some cs ∧ cs.length = 4) ∧
    ∃ cs, bandstopCoefficients (1 / 10 ^ 10) (chebyshev2 4 40) 48000 20 20000 = some cs ∧ cs.length = 4 := by
  refine ⟨?_, ?_, ?_, ?_⟩
  · obtain ⟨cs, e, h, -⟩ := C95_type1_bandpass_partial (N := 4) (ripple := 1) (rate := 48000) (low := 20) (high := 20000)
      (by norm_num) (by norm_num) (by norm_num) (by norm_num) (by norm_num) (by norm_num) (by norm_num) (by norm_num)
    exact ⟨cs, e, h.count⟩
  · obtain ⟨cs, e, h, -⟩ := C95_type1_bandstop_partial (N := 4) (ripple := 1) (rate := 48000) (low := 20) (high := 20000)
      (by norm_num) (by norm_num) (by norm_num) (by norm_num) (by norm_num) (by norm_num) (by norm_num) (by norm_num)
    exact ⟨cs, e, h.count⟩
  · obtain ⟨cs, e, h, -⟩ := C95_type2_bandpass_partial (N := 4) (ripple := 40) (rate := 48000) (low := 20) (high := 20000)
      (by norm_num) (by norm_num) (by norm_num) (by norm_num) (by norm_num) (by norm_num) (by norm_num) (by norm_num)
    exact ⟨cs, e, h.count⟩
  · obtain ⟨cs, e, h, -⟩ := C95_type2_bandstop_partial (N := 4) (ripple := 40) (rate := 48000) (low := 20) (high := 20000)
      (by norm_num) (by norm_num) (by norm_num) (by norm_num) (by norm_num) (by norm_num) (by norm_num) (by norm_num)
    exact ⟨cs, e, h.count⟩

/-- A real pole: the third-order Butterworth band from 1 kHz to 2 kHz at 6 kHz. -/
example : (∃ cs, bandpassCoefficients (1 / 10 ^ 10) (butterworth 3) 6000 1000 2000 = some cs ∧ cs.length = 3) ∧
    ∃ cs, bandstopCoefficients (1 / 10 ^ 10) (butterworth 3) 6000 1000 2000 = some cs ∧ cs.length = 3 := by
  have hb : BandClear (Real.tan (Real.pi * 1000 / 6000)) (Real.tan (Real.pi * 2000 / 6000))
      (Real.tan (Real.pi * 1000 / 6000) - Real.tan (Real.pi * 2000 / 6000)) := by
    obtain ⟨e1, e2⟩ := Verif.IirDesign.band_example (rate := 6000) (by norm_num)
    obtain ⟨hs, hp⟩ := Verif.IirDesign.sqrt3
    rw [show (6000 : ℝ) / 6 = 1000 by norm_num] at e1
    rw [show (6000 : ℝ) / 3 = 2000 by norm_num] at e2
    rw [e1, e2]
    have e3 : √3 * (1 / √3) = 1 := by field_simp
    have e4 : 1 / √3 = √3 / 3 := by field_simp; linarith
    have hlt : √3 < 2 := by nlinarith
    refine ⟨?_, ?_⟩
    · rw [e3, e4]
      nlinarith
    · rw [e3, e4, lt_div_iff₀ (by linarith)]
      linarith
  constructor
  · obtain ⟨cs, e, h, -⟩ := C95_butterworth_bandpass_partial (N := 3) (rate := 6000) (low := 1000) (high := 2000)
      (by norm_num) (by norm_num) (by norm_num) (by norm_num) (by norm_num) (by norm_num) (fun _ => hb)
    exact ⟨cs, e, h.count⟩
  · obtain ⟨cs, e, h, -⟩ := C95_butterworth_bandstop_partial (N := 3) (rate := 6000) (low := 1000) (high := 2000)
      (by norm_num) (by norm_num) (by norm_num) (by norm_num) (by norm_num) (by norm_num) (fun _ => hb)
    exact ⟨cs, e, h.count⟩

end Verif.PoleZero
