import Verif.Proof.Crossover
import Verif.Proof.PoleZero3

/-! # Butterworth lowpass and highpass designs: coefficients and response -/

namespace Verif.PoleZero
open Verif.BiquadCascade Verif.FilterDesign Spec Finset
open scoped ComplexConjugate

theorem bw_homogeneous (N : ℕ) (c x y : ℂ) : bw N (c * x) (c * y) = c ^ N * bw N x y := by
  rw [bw_expand, bw_expand]
  have h : ∀ i ∈ range (N / 2), ((c * x - butterworthPole N i * (c * y)) * (c * x - conj (butterworthPole N i) * (c * y)))
      = c ^ 2 * ((x - butterworthPole N i * y) * (x - conj (butterworthPole N i) * y)) := by
    intro i _; ring
  rw [Finset.prod_congr rfl h, Finset.prod_mul_distrib, Finset.prod_const, Finset.card_range]
  have hN : c ^ N = (if N % 2 = 1 then c else 1) * (c ^ 2) ^ (N / 2) := by
    split_ifs with h
    · rw [← pow_mul, ← pow_succ']; congr 1; omega
    · rw [← pow_mul, one_mul]; congr 1; omega
  rw [hN]
  split_ifs <;> ring

theorem bw_symm (N : ℕ) (x y : ℂ) : bw N x y = bw N y x := by
  rw [bw_expand, bw_expand]
  congr 1
  · split_ifs <;> ring
  · apply Finset.prod_congr rfl
    intro i _
    have := butter_norm N i
    linear_combination (y ^ 2 - x ^ 2) * this

theorem bw_shape (N : ℕ) : (butterworth N).pairedPoles.length = N / 2 ∧
    (butterworth N).lonePoles.length = N % 2 ∧ (butterworth N).loneZeros = [] ∧ (butterworth N).pairedZeros = [] := by
  refine ⟨by simp [butterworth, PZ.normalizeGain], ?_, rfl, rfl⟩
  simp only [butterworth, PZ.normalizeGain]
  split_ifs with h
  · rw [h]; rfl
  · have : N % 2 = 0 := by omega
    rw [this]; rfl

theorem mem_bw_paired {N : ℕ} {p : ℂ} (hp : p ∈ (butterworth N).pairedPoles) :
    ∃ i, i < N / 2 ∧ p = ⟨Real.cos (bwAngle N i), Real.sin (bwAngle N i)⟩ := by
  obtain ⟨i, hi, rfl⟩ := List.mem_map.1 hp
  exact ⟨i, List.mem_range.1 hi, rfl⟩

/-- Lowpass poles and zeros. -/
theorem lowpassPZ_shape (N : ℕ) (rate corner : ℝ) :
    (lowpassPZ (butterworth N) rate corner).pairedPoles.length = N / 2 ∧
    (lowpassPZ (butterworth N) rate corner).lonePoles.length = N % 2 ∧
    (lowpassPZ (butterworth N) rate corner).pairedZeros = [] ∧
    (lowpassPZ (butterworth N) rate corner).loneZeros = List.replicate N (-1) := by
  obtain ⟨h1, h2, h3, h4⟩ := bw_shape N
  refine ⟨?_, ?_, ?_, ?_⟩
  · simp [lowpassPZ, PZ.bilinear, PZ.mapFrequency, h1]
  · simp [lowpassPZ, PZ.bilinear, PZ.mapFrequency, h2]
  · simp [lowpassPZ, PZ.bilinear, PZ.mapFrequency, h4]
  · simp [lowpassPZ, PZ.bilinear, PZ.mapFrequency, h1, h2, h3, h4, PZ.relativeDegree, PZ.polesDegree, PZ.zerosDegree]
    omega

/-- Highpass poles and zeros. -/
theorem highpassPZ_shape (N : ℕ) {rate : ℝ} (hr : 0 < rate) (corner : ℝ) :
    (highpassPZ (butterworth N) rate corner).pairedPoles.length = N / 2 ∧
    (highpassPZ (butterworth N) rate corner).lonePoles.length = N % 2 ∧
    (highpassPZ (butterworth N) rate corner).pairedZeros = [] ∧
    (highpassPZ (butterworth N) rate corner).loneZeros = List.replicate N 1 := by
  obtain ⟨h1, h2, h3, h4⟩ := bw_shape N
  have hK := (computeK_pos hr (le_refl 0) (by linarith)).ne'
  refine ⟨?_, ?_, ?_, ?_⟩
  · simp [highpassPZ, PZ.bilinear, PZ.mapFrequency, h1]
  · simp [highpassPZ, PZ.bilinear, PZ.mapFrequency, h2]
  · simp [highpassPZ, PZ.bilinear, PZ.mapFrequency, h4]
  · simp [highpassPZ, PZ.bilinear, PZ.mapFrequency, h1, h2, h3, h4, PZ.relativeDegree, PZ.polesDegree,
      PZ.zerosDegree, hK]
    omega

theorem lowpass_pole_big {N : ℕ} (hN : N < 50000) {rate corner : ℝ} (hr : 0 < rate) (h0 : 0 < corner)
    (h : corner < rate / 2) : ∀ p ∈ (lowpassPZ (butterworth N) rate corner).pairedPoles,
      (1 / 10 ^ 10 : ℝ) < Complex.normSq p := by
  have hK := computeK_pos hr (le_refl 0) (by linarith)
  intro q hq
  obtain ⟨q', hq', rfl⟩ := List.mem_map.1 hq
  obtain ⟨p, hp, rfl⟩ := List.mem_map.1 hq'
  obtain ⟨i, hi, rfl⟩ := mem_bw_paired hp
  exact (bw_pole_margin hi hN).trans_le (digital_pole_bound hK (prewarp_pos hr h0 h).le (bw_re_neg hi)
    (by linarith [Real.cos_sq_add_sin_sq (bwAngle N i)]))

theorem highpass_pole_big {N : ℕ} (hN : N < 50000) {rate corner : ℝ} (hr : 0 < rate) (h0 : 0 < corner)
    (h : corner < rate / 2) : ∀ p ∈ (highpassPZ (butterworth N) rate corner).pairedPoles,
      (1 / 10 ^ 10 : ℝ) < Complex.normSq p := by
  have hK := computeK_pos hr (le_refl 0) (by linarith)
  intro q hq
  obtain ⟨q', hq', rfl⟩ := List.mem_map.1 hq
  obtain ⟨p, hp, rfl⟩ := List.mem_map.1 hq'
  obtain ⟨i, hi, rfl⟩ := mem_bw_paired hp
  have hcs : Real.cos (bwAngle N i) ^ 2 + (-Real.sin (bwAngle N i)) ^ 2 = 1 := by
    linarith [Real.cos_sq_add_sin_sq (bwAngle N i)]
  have hb := digital_pole_bound hK (prewarp_pos hr h0 h).le (bw_re_neg hi) hcs
  have hinv : (prewarp corner rate : ℂ) / (⟨Real.cos (bwAngle N i), Real.sin (bwAngle N i)⟩ : ℂ)
      = prewarp corner rate * (⟨Real.cos (bwAngle N i), -Real.sin (bwAngle N i)⟩ : ℂ) := by
    have := butter_norm N i
    rw [butterworthPole_eq] at this
    rw [div_eq_mul_inv, inv_eq_of_mul_eq_one_right (b := conj (⟨Real.cos (bwAngle N i), Real.sin (bwAngle N i)⟩ : ℂ))
      this]
    rfl
  rw [hinv]
  exact (bw_pole_margin hi hN).trans_le hb

/-- Lowpass coefficients in explicit form, and their transfer function. -/
theorem butterworth_lowpass {N : ℕ} (hN0 : 0 < N) (hN : N < 50000) {rate corner : ℝ} (hr : 0 < rate)
    (h0 : 0 < corner) (h : corner < rate / 2) :
    lowpassCoefficients (1 / 10 ^ 10) (butterworth N) rate corner
      = some (adjustGain (lowpassPZ (butterworth N) rate corner).gain
          (stageList (-1) (lowpassPZ (butterworth N) rate corner).pairedPoles
            (lowpassPZ (butterworth N) rate corner).lonePoles)) ∧
    ∀ z : ℂ, z ≠ 0 → evalCascade Complex.ofRealHom (adjustGain (lowpassPZ (butterworth N) rate corner).gain
          (stageList (-1) (lowpassPZ (butterworth N) rate corner).pairedPoles
            (lowpassPZ (butterworth N) rate corner).lonePoles)) z
      = (Real.tan (Real.pi * corner / rate) * (z + 1)) ^ N
        / bw N (z - 1) (Real.tan (Real.pi * corner / rate) * (z + 1)) := by
  obtain ⟨s1, s2, s3, s4⟩ := lowpassPZ_shape N rate corner
  obtain ⟨e1, _, e3⟩ := explicit_coefficients (ε := 1 / 10 ^ 10) (by norm_num) (by norm_num) (r := -1) (by norm_num)
    (lowpassPZ (butterworth N) rate corner) s3 (by rw [s4, s1, s2]; congr 1; omega) (by omega)
    (lowpass_pole_big hN hr h0 h) (by omega)
  refine ⟨?_, fun z hz => ?_⟩
  · unfold lowpassCoefficients; rw [if_pos ⟨hr, h0.le, h⟩]; exact e1
  · have hK := computeK_pos hr (le_refl 0) (by linarith)
    have hKc : (computeK 0 rate : ℂ) ≠ 0 := by exact_mod_cast hK.ne'
    have hp := butterworth_prototype N
    have hw : prewarp corner rate = computeK 0 rate * Real.tan (Real.pi * corner / rate) := by
      unfold prewarp computeK; rw [if_pos (by positivity)]
    rw [e3 z hz]
    have : lowpassPZ (butterworth N) rate corner
      = (lowpassAnalog (butterworth N) (prewarp corner rate)).bilinear (computeK 0 rate) := rfl
    rw [this, bilinear_hom (lowpassAnalog_proper hp (prewarp_pos hr h0 h).le hK) z hz, lowpassAnalog_hom hp.degree,
      butterworth_hom, hw]
    push_cast
    rw [mul_assoc (computeK 0 rate : ℂ), bw_homogeneous, mul_pow (computeK 0 rate : ℂ),
      mul_div_mul_left _ _ (pow_ne_zero N hKc)]

/-- Highpass coefficients in explicit form, and their transfer function. -/
theorem butterworth_highpass {N : ℕ} (hN0 : 0 < N) (hN : N < 50000) {rate corner : ℝ} (hr : 0 < rate)
    (h0 : 0 < corner) (h : corner < rate / 2) :
    highpassCoefficients (1 / 10 ^ 10) (butterworth N) rate corner
      = some (adjustGain (highpassPZ (butterworth N) rate corner).gain
          (stageList 1 (highpassPZ (butterworth N) rate corner).pairedPoles
            (highpassPZ (butterworth N) rate corner).lonePoles)) ∧
    ∀ z : ℂ, z ≠ 0 → evalCascade Complex.ofRealHom (adjustGain (highpassPZ (butterworth N) rate corner).gain
          (stageList 1 (highpassPZ (butterworth N) rate corner).pairedPoles
            (highpassPZ (butterworth N) rate corner).lonePoles)) z
      = (z - 1) ^ N / bw N (z - 1) (Real.tan (Real.pi * corner / rate) * (z + 1)) := by
  obtain ⟨s1, s2, s3, s4⟩ := highpassPZ_shape N hr corner
  obtain ⟨e1, _, e3⟩ := explicit_coefficients (ε := 1 / 10 ^ 10) (by norm_num) (by norm_num) (r := 1) (by norm_num)
    (highpassPZ (butterworth N) rate corner) s3 (by rw [s4, s1, s2]; congr 1; omega) (by omega)
    (highpass_pole_big hN hr h0 h) (by omega)
  refine ⟨?_, fun z hz => ?_⟩
  · unfold highpassCoefficients; rw [if_pos ⟨hr, h0.le, h⟩]; exact e1
  · have hK := computeK_pos hr (le_refl 0) (by linarith)
    have hKc : (computeK 0 rate : ℂ) ≠ 0 := by exact_mod_cast hK.ne'
    have hp := butterworth_prototype N
    have hw : prewarp corner rate = computeK 0 rate * Real.tan (Real.pi * corner / rate) := by
      unfold prewarp computeK; rw [if_pos (by positivity)]
    rw [e3 z hz]
    have : highpassPZ (butterworth N) rate corner
      = (highpassAnalog (butterworth N) (prewarp corner rate)).bilinear (computeK 0 rate) := rfl
    rw [this, bilinear_hom (highpassAnalog_proper hp (prewarp_pos hr h0 h).le hK) z hz, highpassAnalog_hom hp,
      butterworth_hom, hw, bw_symm]
    push_cast
    rw [mul_assoc (computeK 0 rate : ℂ), bw_homogeneous, mul_pow (computeK 0 rate : ℂ),
      mul_div_mul_left _ _ (pow_ne_zero N hKc)]

/-- Points of the unit circle. -/
theorem circle_sub (θ : ℝ) : Complex.exp (θ * Complex.I) - 1
    = Complex.exp ((θ / 2 : ℝ) * Complex.I) * ((2 * Real.sin (θ / 2) : ℝ) * Complex.I) := by
  have e : (θ : ℂ) * Complex.I = ((θ / 2 : ℝ) : ℂ) * Complex.I + ((θ / 2 : ℝ) : ℂ) * Complex.I := by push_cast; ring
  rw [e, Complex.exp_add, Complex.exp_mul_I, ← Complex.ofReal_cos, ← Complex.ofReal_sin]
  have h : ((Real.cos (θ / 2) : ℝ) : ℂ) ^ 2 + ((Real.sin (θ / 2) : ℝ) : ℂ) ^ 2 = 1 := by
    exact_mod_cast Real.cos_sq_add_sin_sq (θ / 2)
  push_cast at h ⊢
  linear_combination h + -((Complex.sin (θ / 2)) ^ 2) * Complex.I_mul_I

theorem circle_add (θ : ℝ) : Complex.exp (θ * Complex.I) + 1
    = Complex.exp ((θ / 2 : ℝ) * Complex.I) * ((2 * Real.cos (θ / 2) : ℝ)) := by
  have e : (θ : ℂ) * Complex.I = ((θ / 2 : ℝ) : ℂ) * Complex.I + ((θ / 2 : ℝ) : ℂ) * Complex.I := by push_cast; ring
  rw [e, Complex.exp_add, Complex.exp_mul_I, ← Complex.ofReal_cos, ← Complex.ofReal_sin]
  have h : ((Real.cos (θ / 2) : ℝ) : ℂ) ^ 2 + ((Real.sin (θ / 2) : ℝ) : ℂ) ^ 2 = 1 := by
    exact_mod_cast Real.cos_sq_add_sin_sq (θ / 2)
  push_cast at h ⊢
  linear_combination -h + (Complex.sin (θ / 2)) ^ 2 * Complex.I_mul_I

theorem normSq_exp (θ : ℝ) : Complex.normSq (Complex.exp ((θ : ℝ) * Complex.I)) = 1 := by
  rw [Complex.normSq_eq_norm_sq, Complex.norm_exp_ofReal_mul_I, one_pow]

/-- The power response of the denominator on the unit circle. -/
theorem bw_circle {N : ℕ} (hN0 : 0 < N) (t θ : ℝ) :
    Complex.normSq (bw N (Complex.exp (θ * Complex.I) - 1) (t * (Complex.exp (θ * Complex.I) + 1)))
      = (2 * Real.sin (θ / 2)) ^ (2 * N) + (t * (2 * Real.cos (θ / 2))) ^ (2 * N) := by
  rw [circle_sub, circle_add, show (t : ℂ) * (Complex.exp ((θ / 2 : ℝ) * Complex.I) * (2 * Real.cos (θ / 2) : ℝ))
    = Complex.exp ((θ / 2 : ℝ) * Complex.I) * ((t * (2 * Real.cos (θ / 2)) : ℝ)) by push_cast; ring, bw_homogeneous,
    map_mul, map_pow, normSq_exp, one_pow, one_mul, bw_normSq N hN0]

/-- `sin` and `t cos` do not vanish together. -/
theorem bw_circle_pos {N : ℕ} (t : ℝ) (ht : 0 < t) (θ : ℝ) :
    0 < (2 * Real.sin (θ / 2)) ^ (2 * N) + (t * (2 * Real.cos (θ / 2))) ^ (2 * N) := by
  have h1 : 0 ≤ (2 * Real.sin (θ / 2)) ^ (2 * N) := by rw [pow_mul]; positivity
  have h2 : 0 ≤ (t * (2 * Real.cos (θ / 2))) ^ (2 * N) := by rw [pow_mul]; positivity
  rcases eq_or_ne (Real.cos (θ / 2)) 0 with hc | hc
  · have hs : Real.sin (θ / 2) ≠ 0 := by
      intro hs
      have := Real.cos_sq_add_sin_sq (θ / 2)
      rw [hc, hs] at this; norm_num at this
    have : 0 < (2 * Real.sin (θ / 2)) ^ (2 * N) := by rw [pow_mul]; positivity
    linarith
  · have : 0 < (t * (2 * Real.cos (θ / 2))) ^ (2 * N) := by rw [pow_mul]; positivity
    linarith

end Verif.PoleZero
