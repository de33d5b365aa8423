import Verif.Proof.PortableButterworth
import Verif.Theorems.IirDesignFilters
import Verif.Theorems.Biquad

/-!
# C87: second-order Butterworth designs in C

The specification is that of the C85 designs: `Verif/Spec/IirDesign.lean`.
-/

namespace Verif.PortableButterworth
open Verif.PortableComplex Verif.IirDesign Verif.IirDesign.Spec Verif.Stream Verif.LinearFilter.Spec
open scoped ComplexConjugate

theorem warp_pos {rate hz : ℝ} (h0 : 0 < hz) (h : hz < rate / 2) : 0 < bilinearPrewarp hz rate ∧ 0 < rate :=
  ⟨(prewarp_pos h0 h).2.1, (prewarp_pos h0 h).2.2⟩

theorem power_low {w Ω : ℝ} (hw : 0 < w) :
    ‖(w : ℂ) ^ 2 / ((Ω * Complex.I) ^ 2 + √2 * w * (Ω * Complex.I) + (w : ℂ) ^ 2)‖ ^ 2 = butterworth 2 (Ω / w) := by
  rw [norm_div, div_pow, quartic, norm_pow, Complex.norm_real, Real.norm_of_nonneg hw.le, butterworth,
    show 2 * 2 = 4 from rfl]
  rw [div_eq_div_iff (by positivity) (by positivity), div_pow]
  field_simp

theorem power_high {w Ω : ℝ} (hw : 0 < w) (hΩ : Ω ≠ 0) :
    ‖((Ω : ℂ) * Complex.I) ^ 2 / ((Ω * Complex.I) ^ 2 + √2 * w * (Ω * Complex.I) + (w : ℂ) ^ 2)‖ ^ 2
      = butterworth 2 (w / Ω) := by
  rw [norm_div, div_pow, quartic, norm_pow, norm_mul, Complex.norm_I, mul_one, Complex.norm_real, butterworth,
    Real.norm_eq_abs, sq_abs, show 2 * 2 = 4 from rfl]
  have h4 : 0 < Ω ^ 4 := by positivity
  rw [div_eq_div_iff (by positivity) (by positivity), div_pow]
  field_simp
  ring

theorem with_low_edge {cs : List Coeffs} {n : ℕ} {corner rate : ℝ} (h0 : 0 < corner) (hc : corner < rate / 2)
    (hd : Designed cs n {θ | |θ| < Real.pi} (fun θ => butterworth 2 (lowFreq corner rate θ))) :
    Designed cs n {θ | |θ| < Real.pi} (fun θ => butterworth 2 (lowFreq corner rate θ)) ∧
      ‖response cs (2 * Real.pi * corner / rate)‖ ^ 2 = 1 / 2 :=
  ⟨hd, by rw [hd.power _ (edge_angle h0 hc).1, (low_edge h0 hc).1, (butterworth_one 2).1]⟩

theorem with_high_edge {cs : List Coeffs} {n : ℕ} {corner rate : ℝ} (h0 : 0 < corner) (hc : corner < rate / 2)
    (hd : Designed cs n {θ | |θ| < Real.pi ∧ θ ≠ 0} (fun θ => butterworth 2 (highFreq corner rate θ)))
    (hz : response cs 0 = 0) :
    Designed cs n {θ | |θ| < Real.pi ∧ θ ≠ 0} (fun θ => butterworth 2 (highFreq corner rate θ)) ∧
      response cs 0 = 0 ∧ ‖response cs (2 * Real.pi * corner / rate)‖ ^ 2 = 1 / 2 :=
  ⟨hd, hz, by rw [hd.power _ ⟨(edge_angle h0 hc).1, (edge_angle h0 hc).2.1⟩, (low_edge h0 hc).2, (butterworth_one 2).1]⟩

theorem with_band_edge {cs : List Coeffs} {n : ℕ} {low high rate : ℝ} (h0 : 0 < low) (hl : low < high)
    (hc : high < rate / 2)
    (hd : Designed cs n {θ | |θ| < Real.pi ∧ θ ≠ 0} (fun θ => butterworth 2 (passFreq low high rate θ)))
    (hz : response cs 0 = 0) :
    Designed cs n {θ | |θ| < Real.pi ∧ θ ≠ 0} (fun θ => butterworth 2 (passFreq low high rate θ)) ∧
      response cs 0 = 0 ∧ ‖response cs (2 * Real.pi * low / rate)‖ ^ 2 = 1 / 2 ∧
      ‖response cs (2 * Real.pi * high / rate)‖ ^ 2 = 1 / 2 :=
  ⟨hd, hz,
    by rw [hd.power _ ⟨(edge_angle h0 (hl.trans hc)).1, (edge_angle h0 (hl.trans hc)).2.1⟩, (band_edge h0 hl hc).1,
      (butterworth_one 2).2],
    by rw [hd.power _ ⟨(edge_angle (h0.trans hl) hc).1, (edge_angle (h0.trans hl) hc).2.1⟩, (band_edge h0 hl hc).2,
      (butterworth_one 2).1]⟩

theorem power_band {b l h Ω : ℝ} (hb : 0 < b) (hΩ : Ω ≠ 0) {D : ℂ}
    (hD : D = (((Ω : ℂ) * Complex.I) ^ 2 + (h * l : ℝ)) ^ 2
      + √2 * (b : ℝ) * (((Ω : ℂ) * Complex.I) ^ 2 + (h * l : ℝ)) * (Ω * Complex.I) + b ^ 2 * ((Ω : ℂ) * Complex.I) ^ 2) :
    ‖(b : ℂ) ^ 2 * ((Ω : ℂ) * Complex.I) ^ 2 / D‖ ^ 2 = butterworth 2 ((Ω ^ 2 - l * h) / (Ω * b)) := by
  obtain ⟨hs, -⟩ := sqrt2
  have e : D = ⟨(h * l - Ω ^ 2) ^ 2 - (b * Ω) ^ 2, √2 * (b * Ω) * (h * l - Ω ^ 2)⟩ := by
    rw [hD]
    apply Complex.ext
    · simp [pow_two]; ring
    · simp [pow_two]; ring
  have e2 : ‖D‖ ^ 2 = (Ω ^ 2 - l * h) ^ 4 + (Ω * b) ^ 4 := by
    rw [e, ← Complex.normSq_eq_norm_sq, Complex.normSq_apply]
    dsimp only
    linear_combination (b * Ω) ^ 2 * (h * l - Ω ^ 2) ^ 2 * hs
  have h4 : 0 < (Ω * b) ^ 4 := by positivity
  rw [norm_div, div_pow, e2, norm_mul, norm_pow, norm_pow, norm_mul, Complex.norm_I, mul_one, Complex.norm_real,
    Complex.norm_real, butterworth, Real.norm_eq_abs, Real.norm_eq_abs, sq_abs, sq_abs, show 2 * 2 = 4 from rfl]
  generalize Ω ^ 2 - l * h = x
  rw [div_eq_div_iff (by positivity) (by positivity), div_pow]
  field_simp
  ring

/-- **C87.** The lowpass: one stable biquad with the second-order Butterworth gain at every frequency, half power at
the corner. -/
theorem C87_lowpass {corner rate : ℝ} (h0 : 0 < corner) (hc : corner < rate / 2) :
    ∃ c, lowpass corner rate false = some c ∧
      Designed [c] 1 {θ | |θ| < Real.pi} (fun θ => butterworth 2 (lowFreq corner rate θ)) ∧
      ‖response [c] (2 * Real.pi * corner / rate)‖ ^ 2 = 1 / 2 := by
  obtain ⟨hw, hr⟩ := warp_pos h0 hc
  have hK : 0 < 2 * rate := by linarith
  have hs := pole_left hw one_pos
  refine ⟨_, by rw [lowpass, if_neg (by push Not; exact ⟨⟨h0, hc⟩, by simp⟩)], with_low_edge h0 hc ⟨rfl, ?_, ?_⟩⟩
  · intro c hc z hz
    rw [List.mem_singleton] at hc
    subst hc
    exact stable_section hK hs z hz
  · intro θ hθ
    rw [low_section hK hs hθ rfl, pair_eq]
    have hp0 := pair_eq (w := bilinearPrewarp corner rate) 0
    rw [show ∀ z : ℂ, z * conj z = (0 - z) * (0 - conj z) from fun z => by ring, hp0,
      show (0 : ℂ) ^ 2 + √2 * (bilinearPrewarp corner rate : ℝ) * 0 + (bilinearPrewarp corner rate : ℝ) ^ 2
        = ((bilinearPrewarp corner rate : ℝ) : ℂ) ^ 2 by ring, power_low hw]
    congr 1
    rw [lowFreq, bilinearPrewarp, mul_div_mul_left _ _ hK.ne']

/-- **C87.** The highpass. -/
theorem C87_highpass {corner rate : ℝ} (h0 : 0 < corner) (hc : corner < rate / 2) :
    ∃ c, highpass corner rate false = some c ∧
      Designed [c] 1 {θ | |θ| < Real.pi ∧ θ ≠ 0} (fun θ => butterworth 2 (highFreq corner rate θ)) ∧
      response [c] 0 = 0 ∧ ‖response [c] (2 * Real.pi * corner / rate)‖ ^ 2 = 1 / 2 := by
  obtain ⟨hw, hr⟩ := warp_pos h0 hc
  have hK : 0 < 2 * rate := by linarith
  have hs := pole_left hw one_pos
  refine ⟨_, by rw [highpass, if_neg (by push Not; exact ⟨⟨h0, hc⟩, by simp⟩)],
    with_high_edge h0 hc ⟨rfl, ?_, ?_⟩ ?_⟩
  · intro c hc z hz
    rw [List.mem_singleton] at hc
    subst hc
    exact stable_section hK hs z hz
  · intro θ hθ
    have htθ := tan_half_ne hθ.1 hθ.2
    rw [high_section hK hs hθ.1 rfl, pair_eq, power_high hw (mul_ne_zero hK.ne' htθ)]
    congr 1
    rw [highFreq, bilinearPrewarp, mul_div_mul_left _ _ hK.ne']
  · rw [high_section hK hs (by rw [abs_zero]; exact Real.pi_pos) rfl]
    simp

/-- **C87.** The bandpass: two stable biquads, half power at both edges, nothing at frequency 0. -/
theorem C87_bandpass {low high rate : ℝ} (h0 : 0 < low) (hl : low < high) (hc : high < rate / 2) :
    ∃ cs, bandpass low high rate false = some cs ∧
      Designed cs 2 {θ | |θ| < Real.pi ∧ θ ≠ 0} (fun θ => butterworth 2 (passFreq low high rate θ)) ∧
      response cs 0 = 0 ∧ ‖response cs (2 * Real.pi * low / rate)‖ ^ 2 = 1 / 2 ∧
      ‖response cs (2 * Real.pi * high / rate)‖ ^ 2 = 1 / 2 := by
  obtain ⟨hwl, hr⟩ := warp_pos h0 (hl.trans hc)
  obtain ⟨hwh, -⟩ := warp_pos (h0.trans hl) hc
  have hwlt : bilinearPrewarp low rate < bilinearPrewarp high rate := (prewarp_lt h0 hl hc).2
  have hK : 0 < 2 * rate := by linarith
  have hbw : 0 < bilinearPrewarp high rate - bilinearPrewarp low rate := sub_pos.2 hwlt
  obtain ⟨hs2, hs0⟩ := sqrt2
  have hp : (⟨-(0.5 / √2) * (bilinearPrewarp high rate - bilinearPrewarp low rate),
      0.5 / √2 * (bilinearPrewarp high rate - bilinearPrewarp low rate)⟩ : CD).val
      = (⟨-(1 / √2), 1 / √2⟩ : ℂ) * ((bilinearPrewarp high rate - bilinearPrewarp low rate : ℝ) : ℂ) / 2 := by
    apply Complex.ext
    · simp [CD.val]; ring
    · simp [CD.val]; ring
  have hq : (⟨-(1 / √2), 1 / √2⟩ : ℂ).re < 0 := by
    show -(1 / √2) < 0
    have : 0 < 1 / √2 := by positivity
    linarith
  obtain ⟨l1, l2, key⟩ := shifted hbw (mul_pos hwh hwl) hp hq
  refine ⟨_, by rw [bandpass, if_neg (by push Not; exact ⟨⟨h0, hl, hc⟩, by simp⟩)],
    with_band_edge h0 hl hc ⟨rfl, ?_, ?_⟩ ?_⟩
  · intro c hc z hz
    simp only [List.mem_cons, List.not_mem_nil, or_false] at hc
    rcases hc with rfl | rfl
    · exact stable_section hK l1 z hz
    · exact stable_section hK l2 z hz
  · intro θ hθ
    have htθ := tan_half_ne hθ.1 hθ.2
    rw [band_section hK l1 l2 hθ.1 rfl]
    have hc2 := congrArg conj (key (conj (((2 * rate * Real.tan (θ / 2) : ℝ) : ℂ) * Complex.I)))
    have hk := key (((2 * rate * Real.tan (θ / 2) : ℝ) : ℂ) * Complex.I)
    rw [map_mul, map_sub, map_sub, Complex.conj_conj] at hc2
    refine (power_band (h := bilinearPrewarp high rate) (l := bilinearPrewarp low rate) hbw
      (mul_ne_zero hK.ne' htθ) ?_).trans ?_
    · refine (congrArg₂ (· * ·) hk hc2).trans ?_
      have hq2 : conj (⟨-(1 / √2), 1 / √2⟩ : ℂ) + ⟨-(1 / √2), 1 / √2⟩ = -√2 ∧
          conj (⟨-(1 / √2), 1 / √2⟩ : ℂ) * ⟨-(1 / √2), 1 / √2⟩ = 1 := by
        constructor
        · apply Complex.ext
          · simp; field_simp; linarith
          · simp
        · apply Complex.ext
          · simp; field_simp; linarith
          · simp
      obtain ⟨q1, q2⟩ := hq2
      generalize (⟨-(1 / √2), 1 / √2⟩ : ℂ) = q at *
      generalize ((2 * rate * Real.tan (θ / 2) : ℝ) : ℂ) * Complex.I = σ at *
      generalize bilinearPrewarp high rate - bilinearPrewarp low rate = b at *
      generalize bilinearPrewarp high rate * bilinearPrewarp low rate = c at *
      simp only [map_add, map_sub, map_mul, map_pow, Complex.conj_ofReal, Complex.conj_conj]
      linear_combination (-(σ ^ 2 + c) * b * σ) * q1 + b ^ 2 * σ ^ 2 * q2
    · congr 1
      rw [passFreq, bilinearPrewarp, bilinearPrewarp]
      field_simp
  · rw [band_section hK l1 l2 (by rw [abs_zero]; exact Real.pi_pos) rfl]
    simp

/-- **C87.** All three return 0 exactly for frequencies out of range or a `NULL` array. -/
theorem C87_failure (low high rate : ℝ) (isNull : Bool) :
    (lowpass low rate isNull = none ↔ ¬ (0 < low ∧ low < rate / 2) ∨ isNull = true) ∧
    (highpass low rate isNull = none ↔ ¬ (0 < low ∧ low < rate / 2) ∨ isNull = true) ∧
    (bandpass low high rate isNull = none ↔ ¬ (0 < low ∧ low < high ∧ high < rate / 2) ∨ isNull = true) := by
  refine ⟨?_, ?_, ?_⟩
  · rw [lowpass]; split <;> simp_all
  · rw [highpass]; split <;> simp_all
  · rw [bandpass]; split <;> simp_all

/-- **C87.** `BiquadFilterProcessOneSample` from zeroed state computes the difference equation of the coefficients, for
every input signal. -/
theorem C87_process (c : Coeffs) (xs : List ℝ) :
    DiffEq [c.b0, c.b1, c.b2] [1, c.a1, c.a2] xs (runSamples (processOneSample c) (0, 0) xs).2 := by
  have e : processOneSample c = Biquad.portableStep ⟨c.b0, c.b1, c.b2, c.a1, c.a2⟩ := rfl
  rw [e, Biquad.C21_portable_same]
  exact Biquad.step_diffEq (c := ⟨c.b0, c.b1, c.b2, 1, c.a1, c.a2⟩) (by simp [Biquad.init]) xs

example : ∃ c, lowpass 1000 48000 false = some c ∧ ‖response [c] (2 * Real.pi * 1000 / 48000)‖ ^ 2 = 1 / 2 := by
  obtain ⟨c, h1, -, h2⟩ := C87_lowpass (corner := 1000) (rate := 48000) (by norm_num) (by norm_num)
  exact ⟨c, h1, h2⟩

example : ∃ cs, bandpass 1000 2000 48000 false = some cs ∧ ‖response cs (2 * Real.pi * 2000 / 48000)‖ ^ 2 = 1 / 2 := by
  obtain ⟨cs, h1, -, -, -, h2⟩ := C87_bandpass (low := 1000) (high := 2000) (rate := 48000) (by norm_num) (by norm_num)
    (by norm_num)
  exact ⟨cs, h1, h2⟩

end Verif.PortableButterworth
