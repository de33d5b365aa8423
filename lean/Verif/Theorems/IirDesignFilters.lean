import Verif.Theorems.IirDesign
import Mathlib.Analysis.SpecialFunctions.Trigonometric.Chebyshev.RootsExtrema

/-!
# C85, C86: the Butterworth and Chebyshev designs of the portable library
-/

namespace Verif.IirDesign
open Verif.PortableComplex Verif.IirDesign.Spec
open scoped ComplexConjugate

theorem sep_cutoff {cutoff rate : ℝ} (hr : 0 < rate) (h1 : rate / 10 ^ 9 ≤ cutoff)
    (h2 : cutoff ≤ rate / 2 - rate / 10 ^ 9) : 0 < cutoff ∧ cutoff < rate / 2 ∧
      0 < Real.tan (Real.pi * cutoff / rate) := by
  have h3 : 0 < rate / 10 ^ 9 := by positivity
  have h4 : 0 < cutoff := h3.trans_le h1
  have h5 : cutoff < rate / 2 := by linarith
  exact ⟨h4, h5, (prewarp_pos h4 h5).1⟩

theorem low_clear {f : Zpk} {n : ℕ} {H : ℝ → ℝ} (h : Proto f n H)
    (hs : ∀ r, r ∈ zeros f ∨ r ∈ poles f → Spread (1 / 45000) r) {cutoff rate : ℝ} (hr : 0 < rate)
    (h1 : rate / 10 ^ 9 ≤ cutoff) (h2 : cutoff ≤ rate / 2 - rate / 10 ^ 9) (r : ℂ) (hm : r ∈ zeros f ∨ r ∈ poles f) :
    Clear ((1 + (Real.tan (Real.pi * cutoff / rate) : ℂ) * r) / (1 - (Real.tan (Real.pi * cutoff / rate) : ℂ) * r)) ∧
    Clear ((r + (Real.tan (Real.pi * cutoff / rate) : ℂ)) / (r - (Real.tan (Real.pi * cutoff / rate) : ℂ))) := by
  have hre : r.re ≤ 0 := by
    rcases hm with hm | hm
    · exact (h.zeros_im r hm).1.le
    · exact (h.poles_left r hm).le
  have hr0 : r ≠ 0 := by
    rcases hm with hm | hm
    · exact (h.zeros_im r hm).2
    · rintro rfl
      exact absurd (h.poles_left 0 hm) (by simp)
  have ht := (sep_cutoff hr h1 h2).2.2
  exact ⟨clear_low (hs r hm) hre ht (by norm_num) (sep_bound hr h1 h2),
    clear_high (hs r hm) hre hr0 ht (by norm_num) (sep_bound hr h1 h2)⟩

/-! ## At the edges -/

theorem edge_angle {hz rate : ℝ} (h0 : 0 < hz) (h : hz < rate / 2) : |2 * Real.pi * hz / rate| < Real.pi ∧
    2 * Real.pi * hz / rate ≠ 0 ∧ 2 * Real.pi * hz / rate / 2 = Real.pi * hz / rate := by
  have hr : 0 < rate := by linarith
  have hp := Real.pi_pos
  have h1 : 0 < 2 * Real.pi * hz / rate := by positivity
  refine ⟨?_, h1.ne', by ring⟩
  rw [abs_of_pos h1, div_lt_iff₀ hr]
  nlinarith

theorem low_edge {cutoff rate : ℝ} (h0 : 0 < cutoff) (h : cutoff < rate / 2) :
    lowFreq cutoff rate (2 * Real.pi * cutoff / rate) = 1 ∧ highFreq cutoff rate (2 * Real.pi * cutoff / rate) = 1 := by
  rw [lowFreq, highFreq, (edge_angle h0 h).2.2]
  exact ⟨div_self (prewarp_pos h0 h).1.ne', div_self (prewarp_pos h0 h).1.ne'⟩

theorem band_edge {low high rate : ℝ} (h0 : 0 < low) (hl : low < high) (h : high < rate / 2) :
    passFreq low high rate (2 * Real.pi * low / rate) = -1 ∧ passFreq low high rate (2 * Real.pi * high / rate) = 1 := by
  have hlt := (prewarp_lt h0 hl h).1
  have h1 := (prewarp_pos h0 (hl.trans h)).1
  have h2 := (prewarp_pos (h0.trans hl) h).1
  have h3 : Real.tan (Real.pi * high / rate) - Real.tan (Real.pi * low / rate) ≠ 0 := (sub_pos.2 hlt).ne'
  rw [passFreq, passFreq, (edge_angle h0 (hl.trans h)).2.2, (edge_angle (h0.trans hl) h).2.2]
  generalize Real.tan (Real.pi * high / rate) = b at *
  generalize Real.tan (Real.pi * low / rate) = a at *
  constructor
  · rw [div_eq_iff (mul_ne_zero h1.ne' h3)]; ring
  · rw [div_eq_iff (mul_ne_zero h2.ne' h3)]; ring

theorem stop_edge {low high rate : ℝ} (h0 : 0 < low) (hl : low < high) (h : high < rate / 2) :
    stopFreq low high rate (2 * Real.pi * low / rate) = -1 ∧ stopFreq low high rate (2 * Real.pi * high / rate) = 1 := by
  rw [stopFreq, stopFreq, (band_edge h0 hl h).1, (band_edge h0 hl h).2]
  norm_num

theorem tan_abs {θ : ℝ} (hθ : |θ| < Real.pi) : |Real.tan (θ / 2)| = Real.tan (|θ| / 2) ∧ 0 ≤ Real.tan (|θ| / 2) := by
  have h0 : 0 ≤ Real.tan (|θ| / 2) :=
    Real.tan_nonneg_of_nonneg_of_le_pi_div_two (by linarith [abs_nonneg θ]) (by linarith)
  refine ⟨?_, h0⟩
  rcases le_total 0 θ with h | h
  · rw [abs_of_nonneg h] at h0 ⊢
    exact abs_of_nonneg h0
  · rw [abs_of_nonpos h, neg_div, Real.tan_neg] at h0 ⊢
    exact abs_of_nonpos (by linarith)

/-- The bilinear transform keeps the order of the frequencies. -/
theorem tan_order {hz rate θ : ℝ} (h0 : 0 < hz) (h : hz < rate / 2) (hθ : |θ| < Real.pi) :
    (Real.tan (|θ| / 2) ≤ Real.tan (Real.pi * hz / rate) ↔ |θ| ≤ 2 * Real.pi * hz / rate) ∧
    (Real.tan (|θ| / 2) < Real.tan (Real.pi * hz / rate) ↔ |θ| < 2 * Real.pi * hz / rate) := by
  obtain ⟨-, -, hr⟩ := prewarp_pos h0 h
  have ha := (edge_angle h0 h).1
  have hp := Real.pi_pos
  have hx : 0 < 2 * Real.pi * hz / rate := by positivity
  rw [abs_of_pos hx] at ha
  rw [← (edge_angle h0 h).2.2]
  have m1 : |θ| / 2 ∈ Set.Ioo (-(Real.pi / 2)) (Real.pi / 2) := ⟨by linarith [abs_nonneg θ], by linarith⟩
  have m2 : 2 * Real.pi * hz / rate / 2 ∈ Set.Ioo (-(Real.pi / 2)) (Real.pi / 2) := ⟨by linarith, by linarith⟩
  rw [Real.strictMonoOn_tan.le_iff_le m1 m2, Real.strictMonoOn_tan.lt_iff_lt m1 m2]
  refine ⟨⟨fun h => by linarith, fun h => by linarith⟩, ⟨fun h => by linarith, fun h => by linarith⟩⟩

theorem tan_order' {hz rate θ : ℝ} (h0 : 0 < hz) (h : hz < rate / 2) (hθ : |θ| < Real.pi) :
    (Real.tan (Real.pi * hz / rate) ≤ Real.tan (|θ| / 2) ↔ 2 * Real.pi * hz / rate ≤ |θ|) ∧
    (Real.tan (Real.pi * hz / rate) < Real.tan (|θ| / 2) ↔ 2 * Real.pi * hz / rate < |θ|) :=
  ⟨not_lt.symm.trans ((not_congr (tan_order h0 h hθ).2).trans not_lt),
    not_le.symm.trans ((not_congr (tan_order h0 h hθ).1).trans not_le)⟩

theorem tan_pos' {θ : ℝ} (hθ : |θ| < Real.pi) (h0 : θ ≠ 0) : 0 < Real.tan (|θ| / 2) :=
  Real.tan_pos_of_pos_of_lt_pi_div_two (by have := abs_pos.2 h0; linarith) (by linarith)

theorem low_band {cutoff rate θ : ℝ} (h0 : 0 < cutoff) (h : cutoff < rate / 2) (hθ : |θ| < Real.pi) :
    (|lowFreq cutoff rate θ| ≤ 1 ↔ |θ| ≤ 2 * Real.pi * cutoff / rate) ∧
    (|lowFreq cutoff rate θ| < 1 ↔ |θ| < 2 * Real.pi * cutoff / rate) := by
  have ht := (prewarp_pos h0 h).1
  rw [lowFreq, abs_div, abs_of_pos ht, div_le_one ht, div_lt_one ht, (tan_abs hθ).1]
  exact tan_order h0 h hθ

theorem high_band {cutoff rate θ : ℝ} (h0 : 0 < cutoff) (h : cutoff < rate / 2) (hθ : |θ| < Real.pi ∧ θ ≠ 0) :
    (|highFreq cutoff rate θ| ≤ 1 ↔ 2 * Real.pi * cutoff / rate ≤ |θ|) ∧
    (|highFreq cutoff rate θ| < 1 ↔ 2 * Real.pi * cutoff / rate < |θ|) := by
  have ht := (prewarp_pos h0 h).1
  have h1 := tan_pos' hθ.1 hθ.2
  rw [highFreq, abs_div, abs_of_pos ht, (tan_abs hθ.1).1, div_le_one h1, div_lt_one h1]
  exact tan_order' h0 h hθ.1

theorem pass_band {low high rate θ : ℝ} (h0 : 0 < low) (hl : low < high) (h : high < rate / 2)
    (hθ : |θ| < Real.pi ∧ θ ≠ 0) :
    (|passFreq low high rate θ| ≤ 1 ↔ 2 * Real.pi * low / rate ≤ |θ| ∧ |θ| ≤ 2 * Real.pi * high / rate) ∧
    (|passFreq low high rate θ| < 1 ↔ 2 * Real.pi * low / rate < |θ| ∧ |θ| < 2 * Real.pi * high / rate) := by
  have hlt := (prewarp_lt h0 hl h).1
  have h1 := (prewarp_pos h0 (hl.trans h)).1
  have h2 := (prewarp_pos (h0.trans hl) h).1
  have h3 := tan_pos' hθ.1 hθ.2
  have o1 := tan_order' h0 (hl.trans h) hθ.1
  have o2 := tan_order (h0.trans hl) h hθ.1
  rw [passFreq, abs_div, abs_mul, ← sq_abs (Real.tan (θ / 2)), (tan_abs hθ.1).1, abs_of_pos (sub_pos.2 hlt),
    div_le_one (mul_pos h3 (sub_pos.2 hlt)), div_lt_one (mul_pos h3 (sub_pos.2 hlt)), abs_le, abs_lt,
    ← o2.1, ← o2.2, ← o1.1, ← o1.2]
  generalize Real.tan (Real.pi * high / rate) = b at *
  generalize Real.tan (Real.pi * low / rate) = a at *
  generalize Real.tan (|θ| / 2) = t at *
  refine ⟨⟨fun ⟨u, v⟩ => ⟨?_, ?_⟩, fun ⟨u, v⟩ => ⟨?_, ?_⟩⟩, ⟨fun ⟨u, v⟩ => ⟨?_, ?_⟩, fun ⟨u, v⟩ => ⟨?_, ?_⟩⟩⟩
  · by_contra hh; push Not at hh; nlinarith
  · by_contra hh; push Not at hh; nlinarith
  · nlinarith
  · nlinarith
  · by_contra hh; push Not at hh; nlinarith
  · by_contra hh; push Not at hh; nlinarith
  · nlinarith
  · nlinarith

theorem stop_band {low high rate θ : ℝ} (h0 : 0 < low) (hl : low < high) (h : high < rate / 2)
    (hθ : |θ| < Real.pi ∧ passFreq low high rate θ ≠ 0) :
    (|stopFreq low high rate θ| ≤ 1 ↔ |θ| ≤ 2 * Real.pi * low / rate ∨ 2 * Real.pi * high / rate ≤ |θ|) ∧
    (|stopFreq low high rate θ| < 1 ↔ |θ| < 2 * Real.pi * low / rate ∨ 2 * Real.pi * high / rate < |θ|) := by
  have hθ0 : θ ≠ 0 := by
    rintro rfl
    exact hθ.2 (by rw [passFreq, zero_div, Real.tan_zero, zero_mul, div_zero])
  obtain ⟨p1, p2⟩ := pass_band h0 hl h ⟨hθ.1, hθ0⟩
  have hp := abs_pos.2 hθ.2
  rw [stopFreq, abs_inv, inv_le_one₀ hp, inv_lt_one₀ hp]
  refine ⟨not_lt.symm.trans ((not_congr p2).trans ?_), not_le.symm.trans ((not_congr p1).trans ?_)⟩
  · rw [not_and_or, not_lt, not_lt]
  · rw [not_and_or, not_le, not_le]

theorem butterworth_one (n : ℕ) : butterworth n 1 = 1 / 2 ∧ butterworth n (-1) = 1 / 2 := by
  unfold butterworth
  constructor
  · norm_num
  · rw [pow_mul]; norm_num

/-! ## Butterworth -/

/-- **C85.** The Butterworth lowpass of every order up to 30: `ceil(order / 2)` stable biquads, the power gain
`1 / (1 + w^(2 order))` at every frequency, and half power at the cutoff. -/
theorem C85_lowpass_partial (q : QSort) (mem : Zpk) {n : ℕ} (h1 : 1 ≤ n) (h2 : n ≤ 30) {cutoff rate : ℝ} (hr : 0 < rate)
    (hlo : rate / 10 ^ 9 ≤ cutoff) (hhi : cutoff ≤ rate / 2 - rate / 10 ^ 9) {maxB : ℤ}
    (hm : (((n + 1) / 2 : ℕ) : ℤ) ≤ maxB) :
    ∃ cs, designButterworthLowpass q mem n cutoff rate false maxB = .ok cs ∧
      Designed cs ((n + 1) / 2) {θ | |θ| < Real.pi} (fun θ => butterworth n (lowFreq cutoff rate θ)) ∧
      ‖response cs (2 * Real.pi * cutoff / rate)‖ ^ 2 = 1 / 2 := by
  obtain ⟨f, e, h, hz, hp⟩ := butterworth_proto n h1 h2 mem
  obtain ⟨c0, c1, -⟩ := sep_cutoff hr hlo hhi
  obtain ⟨cs, e2, hd⟩ := lowpass_designed h h1 q c0 c1 hm fun r hr' => (low_clear h (by
    intro r hr'
    rw [hz, hp] at hr'
    exact (bw_spread h1 h2 (hr'.resolve_left List.not_mem_nil)).mono (by norm_num)) hr hlo hhi r hr').1
  refine ⟨cs, by rw [designButterworthLowpass, e]; exact e2, hd, ?_⟩
  rw [hd.power _ (edge_angle c0 c1).1]
  rw [(low_edge c0 c1).1, (butterworth_one n).1]

/-- **C85.** The Butterworth highpass. -/
theorem C85_highpass_partial (q : QSort) (mem : Zpk) {n : ℕ} (h1 : 1 ≤ n) (h2 : n ≤ 30) {cutoff rate : ℝ} (hr : 0 < rate)
    (hlo : rate / 10 ^ 9 ≤ cutoff) (hhi : cutoff ≤ rate / 2 - rate / 10 ^ 9) {maxB : ℤ}
    (hm : (((n + 1) / 2 : ℕ) : ℤ) ≤ maxB) :
    ∃ cs, designButterworthHighpass q mem n cutoff rate false maxB = .ok cs ∧
      Designed cs ((n + 1) / 2) {θ | |θ| < Real.pi ∧ θ ≠ 0} (fun θ => butterworth n (highFreq cutoff rate θ)) ∧
      ‖response cs (2 * Real.pi * cutoff / rate)‖ ^ 2 = 1 / 2 := by
  obtain ⟨f, e, h, hz, hp⟩ := butterworth_proto n h1 h2 mem
  obtain ⟨c0, c1, -⟩ := sep_cutoff hr hlo hhi
  obtain ⟨cs, e2, hd⟩ := highpass_designed h h1 q c0 c1 hm fun r hr' => (low_clear h (by
    intro r hr'
    rw [hz, hp] at hr'
    exact (bw_spread h1 h2 (hr'.resolve_left List.not_mem_nil)).mono (by norm_num)) hr hlo hhi r hr').2
  refine ⟨cs, by rw [designButterworthHighpass, e]; exact e2, hd, ?_⟩
  rw [hd.power _ ⟨(edge_angle c0 c1).1, (edge_angle c0 c1).2.1⟩]
  rw [(low_edge c0 c1).2, (butterworth_one n).1]

/-- **C85.** The Butterworth bandpass of every order up to 15: `order` stable biquads, the gain of the prototype at
the transformed frequency, and half power at both edges. -/
theorem C85_bandpass_partial (q : QSort) (mem : Zpk) {n : ℕ} (h1 : 1 ≤ n) (h15 : n ≤ 15) {low high rate : ℝ}
    (h0 : 0 < low) (hl : low < high) (hc : high < rate / 2) {maxB : ℤ} (hm : (n : ℤ) ≤ maxB)
    (hsep : ∀ f, butterworthPrototype n mem = .ok f → PassClear f low high rate) :
    ∃ cs, designButterworthBandpass q mem n low high rate false maxB = .ok cs ∧
      Designed cs n {θ | |θ| < Real.pi ∧ θ ≠ 0} (fun θ => butterworth n (passFreq low high rate θ)) ∧
      ‖response cs (2 * Real.pi * low / rate)‖ ^ 2 = 1 / 2 ∧ ‖response cs (2 * Real.pi * high / rate)‖ ^ 2 = 1 / 2 := by
  obtain ⟨f, e, h, hz, hp⟩ := butterworth_proto n h1 (by omega) mem
  obtain ⟨cs, e2, hd⟩ := bandpass_designed h h1 h15 q h0 hl hc hm (hsep f e)
  refine ⟨cs, by rw [designButterworthBandpass, e]; exact e2, hd, ?_, ?_⟩
  · rw [hd.power _ ⟨(edge_angle h0 (hl.trans hc)).1, (edge_angle h0 (hl.trans hc)).2.1⟩]
    rw [(band_edge h0 hl hc).1, (butterworth_one n).2]
  · rw [hd.power _ ⟨(edge_angle (h0.trans hl) hc).1, (edge_angle (h0.trans hl) hc).2.1⟩]
    rw [(band_edge h0 hl hc).2, (butterworth_one n).1]

/-- **C85.** The Butterworth bandstop of every order up to 15. -/
theorem C85_bandstop_partial (q : QSort) (mem : Zpk) {n : ℕ} (h1 : 1 ≤ n) (h15 : n ≤ 15) {low high rate : ℝ}
    (h0 : 0 < low) (hl : low < high) (hc : high < rate / 2) {maxB : ℤ} (hm : (n : ℤ) ≤ maxB)
    (hsep : ∀ f, butterworthPrototype n mem = .ok f → StopClear f low high rate) :
    ∃ cs, designButterworthBandstop q mem n low high rate false maxB = .ok cs ∧
      Designed cs n {θ | |θ| < Real.pi ∧ passFreq low high rate θ ≠ 0}
        (fun θ => butterworth n (stopFreq low high rate θ)) ∧
      ‖response cs (2 * Real.pi * low / rate)‖ ^ 2 = 1 / 2 ∧ ‖response cs (2 * Real.pi * high / rate)‖ ^ 2 = 1 / 2 := by
  obtain ⟨f, e, h, hz, hp⟩ := butterworth_proto n h1 (by omega) mem
  obtain ⟨cs, e2, hd⟩ := bandstop_designed h h1 h15 q h0 hl hc hm (hsep f e).1 (hsep f e).2
  refine ⟨cs, by rw [designButterworthBandstop, e]; exact e2, hd, ?_, ?_⟩
  · rw [hd.power _ ⟨(edge_angle h0 (hl.trans hc)).1, by rw [(band_edge h0 hl hc).1]; norm_num⟩]
    rw [(stop_edge h0 hl hc).1, (butterworth_one n).2]
  · rw [hd.power _ ⟨(edge_angle (h0.trans hl) hc).1, by rw [(band_edge h0 hl hc).2]; norm_num⟩]
    rw [(stop_edge h0 hl hc).2, (butterworth_one n).1]

theorem proto_low {order : ℤ} (h : order < 1) (mem : Zpk) (ripple : ℝ) :
    butterworthPrototype order mem = .error .fail ∧ chebyshev1Prototype order ripple mem = .error .fail ∧
    chebyshev2Prototype order ripple mem = .error .fail := by
  refine ⟨?_, ?_, ?_⟩
  · rw [butterworthPrototype, if_pos h]
  · rw [chebyshev1Prototype, if_pos h]
  · rw [chebyshev2Prototype, if_pos h]

theorem proto_high {order : ℤ} (h : 30 < order) (mem : Zpk) (ripple : ℝ) :
    butterworthPrototype order mem = .error .ub ∧ chebyshev1Prototype order ripple mem = .error .ub ∧
    chebyshev2Prototype order ripple mem = .error .ub := by
  have h2 : order.toNat > maxDegree := by unfold maxDegree; omega
  refine ⟨?_, ?_, ?_⟩
  · rw [butterworthPrototype, if_neg (by omega)]
    dsimp only
    rw [if_pos h2]
  · rw [chebyshev1Prototype, if_neg (by omega)]
    dsimp only
    rw [if_pos h2]
  · rw [chebyshev2Prototype, if_neg (by omega)]
    dsimp only
    rw [if_pos h2]

/-- **C85.** The lowpass and highpass designs return 0 for a wrong order, cutoff or output array. -/
theorem C85_failure (q : QSort) (mem : Zpk) {order : ℤ} (h30 : order ≤ 30) {cutoff rate : ℝ} {isNull : Bool} {maxB : ℤ}
    (h : order < 1 ∨ ¬ (0 ≤ cutoff ∧ cutoff < rate / 2) ∨ isNull = true ∨ maxB < (order + 1) / 2) :
    designButterworthLowpass q mem order cutoff rate isNull maxB = .error .fail ∧
    designButterworthHighpass q mem order cutoff rate isNull maxB = .error .fail := by
  by_cases h1 : order < 1
  · rw [designButterworthLowpass, designButterworthHighpass, (proto_low h1 mem 0).1]
    exact ⟨rfl, rfl⟩
  obtain ⟨n, rfl⟩ : ∃ n : ℕ, order = n := ⟨order.toNat, by omega⟩
  obtain ⟨f, e, hp, -⟩ := butterworth_proto n (by omega) (by omega) mem
  have hc := hp.count
  have h' : ¬ (0 ≤ cutoff ∧ cutoff < rate / 2) ∨ isNull = true ∨ maxB < (((f.numPoles + 1) / 2 : ℕ) : ℤ) := by
    rw [hc]
    push_cast
    exact h.resolve_left h1
  rw [designButterworthLowpass, designButterworthHighpass, e]
  exact ⟨lowpass_error q (by omega) h', highpass_error q (by omega) h'⟩

/-- **C85.** So do the bandpass and bandstop designs, up to order 15. -/
theorem C85_band_failure (q : QSort) (mem : Zpk) {order : ℤ} (h15 : order ≤ 15) {low high rate : ℝ} {isNull : Bool}
    {maxB : ℤ} (h : order < 1 ∨ ¬ (0 ≤ low ∧ low ≤ high ∧ high < rate / 2) ∨ isNull = true ∨ maxB < order) :
    designButterworthBandpass q mem order low high rate isNull maxB = .error .fail ∧
    designButterworthBandstop q mem order low high rate isNull maxB = .error .fail := by
  by_cases h1 : order < 1
  · rw [designButterworthBandpass, designButterworthBandstop, (proto_low h1 mem 0).1]
    exact ⟨rfl, rfl⟩
  obtain ⟨n, rfl⟩ : ∃ n : ℕ, order = n := ⟨order.toNat, by omega⟩
  obtain ⟨f, e, hp, -⟩ := butterworth_proto n (by omega) (by omega) mem
  have hc := hp.count
  have hpr := hp.proper
  have h' : ¬ (0 ≤ low ∧ low ≤ high ∧ high < rate / 2) ∨ isNull = true ∨ maxB < f.numPoles := by
    rw [hc]
    exact h.resolve_left h1
  rw [designButterworthBandpass, designButterworthBandstop, e]
  exact ⟨bandpass_error q (by omega) (by omega) (by omega) h', bandstop_error q (by omega) (by omega) (by omega) h'⟩

/-- **C85, violated.** An order above 30 is not rejected: the poles are written past the end of the array. -/
theorem C85_order_violation (q : QSort) (mem : Zpk) {order : ℤ} (h : 30 < order) (low high rate : ℝ) (isNull : Bool)
    (maxB : ℤ) :
    designButterworthLowpass q mem order low rate isNull maxB = .error .ub ∧
    designButterworthHighpass q mem order low rate isNull maxB = .error .ub ∧
    designButterworthBandpass q mem order low high rate isNull maxB = .error .ub ∧
    designButterworthBandstop q mem order low high rate isNull maxB = .error .ub := by
  rw [designButterworthLowpass, designButterworthHighpass, designButterworthBandpass, designButterworthBandstop,
    (proto_high h mem 0).1]
  exact ⟨rfl, rfl, rfl, rfl⟩

/-- **C85, violated.** Bandpass designs of the orders 16 to 30 report success with `ceil(order / 2)` biquads of a
lowpass filter whose gain at frequency 0 is `2^order` (iir_design.c:288). -/
theorem C85_bandpass_violation (q : QSort) (mem : Zpk) {n : ℕ} (h16 : 16 ≤ n) (h30 : n ≤ 30) {rate : ℝ} (hr : 0 < rate)
    {maxB : ℤ} (hm : (((n + 1) / 2 : ℕ) : ℤ) ≤ maxB) :
    ∃ cs, designButterworthBandpass q mem n (rate / 6) (rate / 3) rate false maxB = .ok cs ∧
      cs.length = (n + 1) / 2 ∧ ‖response cs 0‖ = 2 ^ n := by
  obtain ⟨f, e, h, hz, hp⟩ := butterworth_proto n (by omega) h30 mem
  have hnz : f.numZeros = 0 := by
    have := congrArg List.length hz
    rwa [zeros, entries_length] at this
  obtain ⟨cs, e2, h3, h4⟩ := bandpass_wrong h h16 q (low := rate / 6) (high := rate / 3) (by linarith) (by linarith)
    (by linarith) hm (σ := 1 / 30) (by norm_num) (by
      intro r hr'
      rw [hz, hp] at hr'
      exact bw_spread (by omega) h30 (hr'.resolve_left List.not_mem_nil)) (band_bound hr (by norm_num))
  refine ⟨cs, by rw [designButterworthBandpass, e]; exact e2, h3, ?_⟩
  have hb : butterworth n 0 = 1 := by
    rw [butterworth, zero_pow (by omega)]; norm_num
  rw [hb, hnz, Nat.sub_zero, mul_one] at h4
  exact (sq_eq_sq₀ (norm_nonneg _) (by positivity)).1 h4

/-- **C85, violated.** Bandstop designs of the orders 16 to 30 report success with a highpass filter: it removes
frequency 0 (iir_design.c:322). -/
theorem C85_bandstop_violation (q : QSort) (mem : Zpk) {n : ℕ} (h16 : 16 ≤ n) (h30 : n ≤ 30) {rate : ℝ} (hr : 0 < rate)
    {maxB : ℤ} (hm : (((n + 1) / 2 : ℕ) : ℤ) ≤ maxB) :
    ∃ cs, designButterworthBandstop q mem n (rate / 6) (rate / 3) rate false maxB = .ok cs ∧
      cs.length = (n + 1) / 2 ∧ response cs 0 = 0 := by
  obtain ⟨f, e, h, hz, hp⟩ := butterworth_proto n (by omega) h30 mem
  have hnz : f.numZeros = 0 := by
    have := congrArg List.length hz
    rwa [zeros, entries_length] at this
  obtain ⟨cs, e2, h3, h4⟩ := bandstop_wrong h h16 q (low := rate / 6) (high := rate / 3) (by linarith) (by linarith)
    (by linarith) hm (σ := 1 / 30) (by norm_num) hz hnz (by
      intro r hr'
      rw [hz, hp] at hr'
      exact bw_spread (by omega) h30 (hr'.resolve_left List.not_mem_nil)) (band_bound hr (by norm_num))
  exact ⟨cs, by rw [designButterworthBandstop, e]; exact e2, h3, h4⟩

/-- **C85, violated.** The cutoff 0 is documented as valid; the result has a pole on the unit circle and no output. -/
theorem C85_cutoff_violation (q : QSort) (mem : Zpk) {n : ℕ} (h1 : 1 ≤ n) (h30 : n ≤ 30) {rate : ℝ} (hr : 0 < rate)
    {maxB : ℤ} (hm : (((n + 1) / 2 : ℕ) : ℤ) ≤ maxB) :
    ∃ cs, designButterworthLowpass q mem n 0 rate false maxB = .ok cs ∧ ¬ Stable cs ∧
      ∀ θ : ℝ, |θ| < Real.pi → θ ≠ 0 → response cs θ = 0 := by
  obtain ⟨f, e, h, hz, hp⟩ := butterworth_proto n h1 h30 mem
  have hnz : f.numZeros = 0 := by
    have := congrArg List.length hz
    rwa [zeros, entries_length] at this
  obtain ⟨cs, e2, h3⟩ := lowpass_zero h h1 hnz q hr hm
  exact ⟨cs, by rw [designButterworthLowpass, e]; exact e2, h3⟩

example : ∃ cs, designButterworthLowpass mergeSort onePole 5 1000 48000 false 3 = .ok cs ∧ cs.length = 3 ∧
    ‖response cs (2 * Real.pi * 1000 / 48000)‖ ^ 2 = 1 / 2 := by
  obtain ⟨cs, e, h, h2⟩ := C85_lowpass_partial mergeSort onePole (n := 5) (by norm_num) (by norm_num)
    (cutoff := 1000) (rate := 48000) (maxB := 3) (by norm_num) (by norm_num) (by norm_num) (by norm_num)
  exact ⟨cs, e, h.count, h2⟩

theorem clear_unit {v : ℂ} (h : ‖v‖ = 1) : Clear ((1 + v) / (1 - v)) := by
  have hre : ((1 + v) / (1 - v)).re = 0 := by
    rw [Complex.div_re]
    have : v.re * v.re + v.im * v.im = 1 := by
      rw [← Complex.normSq_apply, Complex.normSq_eq_norm_sq, h, one_pow]
    rw [← add_div]
    simp only [Complex.add_re, Complex.one_re, Complex.sub_re, Complex.add_im, Complex.one_im, Complex.sub_im, zero_add,
      zero_sub]
    rw [show (1 + v.re) * (1 - v.re) + v.im * -v.im = 0 by linarith, zero_div]
  generalize (1 + v) / (1 - v) = z at *
  by_cases h0 : z.im = 0
  · exact Or.inl h0
  · right
    have e : ‖z‖ = |z.im| := by
      rw [Complex.norm_eq_sqrt_sq_add_sq, hre]
      rw [zero_pow two_ne_zero, zero_add, Real.sqrt_sq_eq_abs]
    rw [e]
    have := abs_pos.2 h0
    norm_num
    linarith

/-- The roots of a quadratic with complex roots and constant term 1 lie on the unit circle. -/
theorem unit_root {b : ℝ} (hb : b ^ 2 < 4) {v : ℂ} (h : v ^ 2 + b * v + 1 = 0) : ‖v‖ = 1 := by
  have hi := congrArg Complex.im h
  have hr := congrArg Complex.re h
  simp only [pow_two, Complex.add_re, Complex.add_im, Complex.mul_re, Complex.mul_im, Complex.ofReal_re,
    Complex.ofReal_im, Complex.one_re, Complex.one_im, Complex.zero_re, Complex.zero_im] at hi hr
  have him : v.im ≠ 0 := by
    intro h0
    rw [h0] at hr
    nlinarith [sq_nonneg (v.re + b / 2)]
  have hre : 2 * v.re + b = 0 := by
    have : v.im * (2 * v.re + b) = 0 := by linarith
    exact (mul_eq_zero.1 this).resolve_left him
  have hn : ‖v‖ ^ 2 = 1 := by
    rw [← Complex.normSq_eq_norm_sq, Complex.normSq_apply]
    have : b = -2 * v.re := by linarith
    rw [this] at hr
    linarith
  nlinarith [norm_nonneg v]

theorem example_root {rate : ℝ} (hr : 0 < rate) {r v : ℂ} (hrr : r = 1 ∨ r = -1)
    (h : v ^ 2 - r * ((Real.tan (Real.pi * (rate / 3) / rate) : ℂ) - (Real.tan (Real.pi * (rate / 6) / rate) : ℂ)) * v
      + (Real.tan (Real.pi * (rate / 6) / rate) : ℂ) * (Real.tan (Real.pi * (rate / 3) / rate) : ℂ) = 0) : ‖v‖ = 1 := by
  obtain ⟨e1, e2⟩ := band_example hr
  obtain ⟨hs, hp⟩ := sqrt3
  rw [e1, e2, ← Complex.ofReal_mul, ← Complex.ofReal_sub] at h
  have e3 : (1 / √3) * √3 = 1 := by field_simp
  have e4 : (√3 - 1 / √3) ^ 2 < 4 := by
    have : (√3 - 1 / √3) ^ 2 = √3 * √3 - 2 * (1 / √3 * √3) + 1 / (√3 * √3) := by
      field_simp; ring
    rw [this, e3, hs]; norm_num
  rw [e3, Complex.ofReal_one] at h
  generalize √3 - 1 / √3 = b at *
  rcases hrr with rfl | rfl
  · exact unit_root (b := -b) (by rw [neg_pow]; simpa using e4) (by rw [← h]; push_cast; ring)
  · exact unit_root e4 (by rw [← h]; ring)

theorem butterworth_one_root {mem f : Zpk} (h : butterworthPrototype 1 mem = .ok f) :
    zeros f = [] ∧ poles f = [-1] := by
  obtain ⟨g, e, -, hz, hp⟩ := butterworth_proto 1 le_rfl (by norm_num) mem
  have e' : butterworthPrototype 1 mem = .ok g := e
  rw [h] at e'
  rw [Except.ok.inj e']
  refine ⟨hz, ?_⟩
  rw [hp]
  simp [full, rootPairs, bwRoot, CD.val, Complex.ext_iff]

example : ∃ cs, designButterworthBandpass mergeSort onePole 1 1000 2000 6000 false 4 = .ok cs ∧ cs.length = 1 ∧
    ‖response cs (2 * Real.pi * 1000 / 6000)‖ ^ 2 = 1 / 2 := by
  obtain ⟨cs, e, h, h2, -⟩ := C85_bandpass_partial mergeSort onePole (n := 1) (by norm_num) (by norm_num)
    (low := 1000) (high := 2000) (rate := 6000) (maxB := 4) (by norm_num) (by norm_num) (by norm_num) (by norm_num)
    (by
      intro f hf r hr v hv
      obtain ⟨hz, hp⟩ := butterworth_one_root hf
      rw [hz, hp] at hr
      have hr' : r = -1 := List.mem_singleton.1 (hr.resolve_left List.not_mem_nil)
      refine clear_unit (example_root (rate := 6000) (by norm_num) (Or.inr hr') ?_)
      norm_num at hv ⊢
      exact hv)
  exact ⟨cs, e, h.count, h2⟩

example : ∃ cs, designButterworthBandstop mergeSort onePole 1 1000 2000 6000 false 4 = .ok cs ∧ cs.length = 1 ∧
    ‖response cs (2 * Real.pi * 1000 / 6000)‖ ^ 2 = 1 / 2 := by
  obtain ⟨e1, e2⟩ := band_example (rate := 6000) (by norm_num)
  obtain ⟨hs, hp3⟩ := sqrt3
  obtain ⟨cs, e, h, h2, -⟩ := C85_bandstop_partial mergeSort onePole (n := 1) (by norm_num) (by norm_num)
    (low := 1000) (high := 2000) (rate := 6000) (maxB := 4) (by norm_num) (by norm_num) (by norm_num) (by norm_num)
    (by
      intro f hf
      obtain ⟨hz, hp⟩ := butterworth_one_root hf
      constructor
      · intro r hr v hv
        rw [hz, hp] at hr
        have hr' : r = -1 := List.mem_singleton.1 (hr.resolve_left List.not_mem_nil)
        refine clear_unit (example_root (rate := 6000) (by norm_num) (Or.inr hr') ?_)
        subst hr'
        norm_num at hv ⊢
        rw [← hv]
        ring
      · intro v hv
        apply clear_unit
        have e3 : (1 / √3) * √3 = 1 := by field_simp
        norm_num at e1 e2
        rw [e1, e2, ← Complex.ofReal_mul, ← one_div, e3, Complex.ofReal_one] at hv
        have h4 := congrArg norm (eq_neg_of_add_eq_zero_left hv)
        rw [norm_pow, norm_neg, norm_one] at h4
        nlinarith [norm_nonneg v])
  exact ⟨cs, e, h.count, h2⟩

/-! ## Chebyshev -/

theorem ripple_pos {ripple : ℝ} (h : 0 < ripple) : 0 < (10 : ℝ) ^ (ripple / 10) - 1 ∧
    (10 : ℝ) ^ (-ripple / 10) = 1 / (1 + ((10 : ℝ) ^ (ripple / 10) - 1)) := by
  constructor
  · rw [sub_pos]
    exact Real.one_lt_rpow (by norm_num) (by positivity)
  · rw [neg_div, Real.rpow_neg (by norm_num), add_sub_cancel, one_div]

theorem cheb_one (n : ℕ) : (Polynomial.Chebyshev.T ℝ n).eval 1 ^ 2 = 1 ∧ (Polynomial.Chebyshev.T ℝ n).eval (-1) ^ 2 = 1 := by
  have h : ∀ w : ℝ, |w| = 1 → (Polynomial.Chebyshev.T ℝ n).eval w ^ 2 = 1 := by
    intro w hw
    have h1 := Polynomial.Chebyshev.abs_eval_T_real_le_one n hw.le
    have h2 := Polynomial.Chebyshev.one_le_abs_eval_T_real n hw.ge
    rw [← sq_abs, le_antisymm h1 h2, one_pow]
  exact ⟨h 1 (by norm_num), h (-1) (by norm_num)⟩

theorem cheb_sq {n : ℕ} (h1 : 1 ≤ n) (w : ℝ) : (|w| ≤ 1 → (Polynomial.Chebyshev.T ℝ n).eval w ^ 2 ≤ 1) ∧
    (1 < |w| → 1 < (Polynomial.Chebyshev.T ℝ n).eval w ^ 2) := by
  rw [← sq_abs]
  constructor
  · intro h
    exact pow_le_one₀ (abs_nonneg _) (Polynomial.Chebyshev.abs_eval_T_real_le_one n h)
  · intro h
    exact one_lt_pow₀ (Polynomial.Chebyshev.one_lt_abs_eval_T_real (n := n) (by omega) h) two_ne_zero

theorem cheb1_bounds {n : ℕ} (h1 : 1 ≤ n) {ripple : ℝ} (hr : 0 < ripple) (w : ℝ) :
    (|w| ≤ 1 → (10 : ℝ) ^ (-ripple / 10) ≤ chebyshev1 n ripple w ∧ chebyshev1 n ripple w ≤ 1) ∧
    (¬ |w| ≤ 1 → chebyshev1 n ripple w < (10 : ℝ) ^ (-ripple / 10)) ∧
    chebyshev1 n ripple 1 = (10 : ℝ) ^ (-ripple / 10) ∧ chebyshev1 n ripple (-1) = (10 : ℝ) ^ (-ripple / 10) := by
  obtain ⟨hk, e⟩ := ripple_pos hr
  obtain ⟨c1, c2⟩ := cheb_sq h1 w
  have c3 := sq_nonneg ((Polynomial.Chebyshev.T ℝ n).eval w)
  rw [e]
  unfold chebyshev1
  rw [(cheb_one n).1, (cheb_one n).2, mul_one]
  generalize (10 : ℝ) ^ (ripple / 10) - 1 = k at *
  generalize (Polynomial.Chebyshev.T ℝ n).eval w ^ 2 = t at *
  refine ⟨fun h => ⟨?_, ?_⟩, fun h => ?_, rfl, rfl⟩
  · exact one_div_le_one_div_of_le (by positivity) (by nlinarith [c1 h])
  · rw [div_le_one (by positivity)]; nlinarith
  · exact one_div_lt_one_div_of_lt (by positivity) (by nlinarith [c2 (not_le.1 h)])

theorem cheb2_bounds {n : ℕ} (h1 : 1 ≤ n) {ripple : ℝ} (hr : 0 < ripple) (w : ℝ) :
    (|w| < 1 → (10 : ℝ) ^ (-ripple / 10) < chebyshev2 n ripple w ∧ chebyshev2 n ripple w ≤ 1) ∧
    (¬ |w| < 1 → chebyshev2 n ripple w ≤ (10 : ℝ) ^ (-ripple / 10)) ∧
    chebyshev2 n ripple 1 = (10 : ℝ) ^ (-ripple / 10) ∧ chebyshev2 n ripple (-1) = (10 : ℝ) ^ (-ripple / 10) := by
  obtain ⟨hk, e⟩ := ripple_pos hr
  obtain ⟨c1, c2⟩ := cheb_sq h1 w⁻¹
  have c3 := sq_nonneg ((Polynomial.Chebyshev.T ℝ n).eval w⁻¹)
  rw [e]
  unfold chebyshev2
  rw [if_neg one_ne_zero, if_neg (neg_ne_zero.2 one_ne_zero), inv_one, inv_neg, inv_one, (cheb_one n).1, (cheb_one n).2]
  rw [abs_inv] at c1 c2
  generalize (10 : ℝ) ^ (ripple / 10) - 1 = k at *
  generalize (Polynomial.Chebyshev.T ℝ n).eval w⁻¹ ^ 2 = t at *
  refine ⟨fun h => ?_, fun h => ?_, by rw [add_comm], by rw [add_comm]⟩
  · split
    · refine ⟨?_, le_rfl⟩
      rw [div_lt_one (by positivity)]; linarith
    · rename_i h0
      have ht := c2 ((one_lt_inv₀ (abs_pos.2 h0)).2 h)
      constructor
      · rw [div_lt_div_iff₀ (by positivity) (by positivity)]; nlinarith
      · rw [div_le_one (by positivity)]; linarith
  · rw [if_neg (by rintro rfl; exact h (by norm_num))]
    have ht := c1 (inv_le_one_of_one_le₀ (not_lt.1 h))
    rw [div_le_div_iff₀ (by positivity) (by positivity)]; nlinarith

theorem passRipple_of {cs : List Coeffs} {k n : ℕ} {S : Set ℝ} {F : ℝ → ℝ} {ripple : ℝ} (h1 : 1 ≤ n) (hr : 0 < ripple)
    (hd : Designed cs k S (fun θ => chebyshev1 n ripple (F θ))) {pass : ℝ → Prop}
    (hp : ∀ θ ∈ S, (|F θ| ≤ 1 ↔ pass θ)) : PassRipple cs ripple S pass := by
  intro θ hθ
  rw [hd.power θ hθ, ← hp θ hθ]
  exact ⟨(cheb1_bounds h1 hr _).1, (cheb1_bounds h1 hr _).2.1⟩

theorem stopRipple_of {cs : List Coeffs} {k n : ℕ} {S : Set ℝ} {F : ℝ → ℝ} {ripple : ℝ} (h1 : 1 ≤ n) (hr : 0 < ripple)
    (hd : Designed cs k S (fun θ => chebyshev2 n ripple (F θ))) {pass : ℝ → Prop}
    (hp : ∀ θ ∈ S, (|F θ| < 1 ↔ pass θ)) : StopRipple cs ripple S pass := by
  intro θ hθ
  rw [hd.power θ hθ, ← hp θ hθ]
  exact ⟨(cheb2_bounds h1 hr _).1, (cheb2_bounds h1 hr _).2.1⟩

/-- **C86.** The Chebyshev type 1 lowpass of every order up to 30, with its ripple in the passband and the gain
`-ripple` dB at the cutoff. -/
theorem C86_chebyshev1_lowpass_partial (q : QSort) (mem : Zpk) {n : ℕ} (h1 : 1 ≤ n) (h2 : n ≤ 30) {ripple : ℝ}
    (hrip : 1 / 10 ^ 11 ≤ ripple) {cutoff rate : ℝ} (hr : 0 < rate)
    (hlo : rate / 10 ^ 9 ≤ cutoff) (hhi : cutoff ≤ rate / 2 - rate / 10 ^ 9) {maxB : ℤ}
    (hm : (((n + 1) / 2 : ℕ) : ℤ) ≤ maxB) :
    ∃ cs, designChebyshev1Lowpass q mem n ripple cutoff rate false maxB = .ok cs ∧
      Designed cs ((n + 1) / 2) {θ | |θ| < Real.pi} (fun θ => chebyshev1 n ripple (lowFreq cutoff rate θ)) ∧
      PassRipple cs ripple {θ | |θ| < Real.pi} (fun θ => |θ| ≤ 2 * Real.pi * cutoff / rate) ∧
      ‖response cs (2 * Real.pi * cutoff / rate)‖ ^ 2 = (10 : ℝ) ^ (-ripple / 10) := by
  have hrip0 : 0 < ripple := lt_of_lt_of_le (by norm_num) hrip
  obtain ⟨f, e, h, hz, hp⟩ := chebyshev1_proto n h1 h2 hrip0 mem
  obtain ⟨c0, c1, -⟩ := sep_cutoff hr hlo hhi
  obtain ⟨cs, e2, hd⟩ := lowpass_designed h h1 q c0 c1 hm fun r hr' => (low_clear h (by
    intro r hr'
    rw [hz, hp] at hr'
    exact c1_sep h1 h2 hrip (hr'.resolve_left List.not_mem_nil)) hr hlo hhi r hr').1
  refine ⟨cs, by rw [designChebyshev1Lowpass, e]; exact e2, hd, passRipple_of h1 hrip0 hd fun θ hθ => (low_band c0 c1 hθ).1, ?_⟩
  rw [hd.power _ (edge_angle c0 c1).1, (low_edge c0 c1).1]
  exact (cheb1_bounds h1 hrip0 0).2.2.1

/-- **C86.** The Chebyshev type 1 highpass of every order up to 30, with its ripple in the passband and the gain
`-ripple` dB at the cutoff. -/
theorem C86_chebyshev1_highpass_partial (q : QSort) (mem : Zpk) {n : ℕ} (h1 : 1 ≤ n) (h2 : n ≤ 30) {ripple : ℝ}
    (hrip : 1 / 10 ^ 11 ≤ ripple) {cutoff rate : ℝ} (hr : 0 < rate)
    (hlo : rate / 10 ^ 9 ≤ cutoff) (hhi : cutoff ≤ rate / 2 - rate / 10 ^ 9) {maxB : ℤ}
    (hm : (((n + 1) / 2 : ℕ) : ℤ) ≤ maxB) :
    ∃ cs, designChebyshev1Highpass q mem n ripple cutoff rate false maxB = .ok cs ∧
      Designed cs ((n + 1) / 2) {θ | |θ| < Real.pi ∧ θ ≠ 0} (fun θ => chebyshev1 n ripple (highFreq cutoff rate θ)) ∧
      PassRipple cs ripple {θ | |θ| < Real.pi ∧ θ ≠ 0} (fun θ => 2 * Real.pi * cutoff / rate ≤ |θ|) ∧
      ‖response cs (2 * Real.pi * cutoff / rate)‖ ^ 2 = (10 : ℝ) ^ (-ripple / 10) := by
  have hrip0 : 0 < ripple := lt_of_lt_of_le (by norm_num) hrip
  obtain ⟨f, e, h, hz, hp⟩ := chebyshev1_proto n h1 h2 hrip0 mem
  obtain ⟨c0, c1, -⟩ := sep_cutoff hr hlo hhi
  obtain ⟨cs, e2, hd⟩ := highpass_designed h h1 q c0 c1 hm fun r hr' => (low_clear h (by
    intro r hr'
    rw [hz, hp] at hr'
    exact c1_sep h1 h2 hrip (hr'.resolve_left List.not_mem_nil)) hr hlo hhi r hr').2
  refine ⟨cs, by rw [designChebyshev1Highpass, e]; exact e2, hd, passRipple_of h1 hrip0 hd fun θ hθ => (high_band c0 c1 hθ).1, ?_⟩
  rw [hd.power _ ⟨(edge_angle c0 c1).1, (edge_angle c0 c1).2.1⟩, (low_edge c0 c1).2]
  exact (cheb1_bounds h1 hrip0 0).2.2.1

/-- **C86.** The Chebyshev type 1 bandpass of every order up to 15. -/
theorem C86_chebyshev1_bandpass_partial (q : QSort) (mem : Zpk) {n : ℕ} (h1 : 1 ≤ n) (h15 : n ≤ 15) {ripple : ℝ}
    (hrip0 : 0 < ripple) {low high rate : ℝ} (h0 : 0 < low) (hl : low < high) (hc : high < rate / 2) {maxB : ℤ}
    (hm : (n : ℤ) ≤ maxB) (hsep : ∀ f, chebyshev1Prototype n ripple mem = .ok f → PassClear f low high rate) :
    ∃ cs, designChebyshev1Bandpass q mem n ripple low high rate false maxB = .ok cs ∧
      Designed cs n {θ | |θ| < Real.pi ∧ θ ≠ 0} (fun θ => chebyshev1 n ripple (passFreq low high rate θ)) ∧
      PassRipple cs ripple {θ | |θ| < Real.pi ∧ θ ≠ 0} (fun θ => 2 * Real.pi * low / rate ≤ |θ| ∧ |θ| ≤ 2 * Real.pi * high / rate) ∧
      ‖response cs (2 * Real.pi * low / rate)‖ ^ 2 = (10 : ℝ) ^ (-ripple / 10) ∧
      ‖response cs (2 * Real.pi * high / rate)‖ ^ 2 = (10 : ℝ) ^ (-ripple / 10) := by
  obtain ⟨f, e, h, hz, hp⟩ := chebyshev1_proto n h1 (by omega) hrip0 mem
  obtain ⟨cs, e2, hd⟩ := bandpass_designed h h1 h15 q h0 hl hc hm (hsep f e)
  refine ⟨cs, by rw [designChebyshev1Bandpass, e]; exact e2, hd,
    passRipple_of h1 hrip0 hd fun θ hθ => (pass_band h0 hl hc hθ).1, ?_, ?_⟩
  · rw [hd.power _ ⟨(edge_angle h0 (hl.trans hc)).1, (edge_angle h0 (hl.trans hc)).2.1⟩, (band_edge h0 hl hc).1]
    exact (cheb1_bounds h1 hrip0 0).2.2.2
  · rw [hd.power _ ⟨(edge_angle (h0.trans hl) hc).1, (edge_angle (h0.trans hl) hc).2.1⟩, (band_edge h0 hl hc).2]
    exact (cheb1_bounds h1 hrip0 0).2.2.1

/-- **C86.** The Chebyshev type 1 bandstop of every order up to 15. -/
theorem C86_chebyshev1_bandstop_partial (q : QSort) (mem : Zpk) {n : ℕ} (h1 : 1 ≤ n) (h15 : n ≤ 15) {ripple : ℝ}
    (hrip0 : 0 < ripple) {low high rate : ℝ} (h0 : 0 < low) (hl : low < high) (hc : high < rate / 2) {maxB : ℤ}
    (hm : (n : ℤ) ≤ maxB) (hsep : ∀ f, chebyshev1Prototype n ripple mem = .ok f → StopClear f low high rate) :
    ∃ cs, designChebyshev1Bandstop q mem n ripple low high rate false maxB = .ok cs ∧
      Designed cs n {θ | |θ| < Real.pi ∧ passFreq low high rate θ ≠ 0} (fun θ => chebyshev1 n ripple (stopFreq low high rate θ)) ∧
      PassRipple cs ripple {θ | |θ| < Real.pi ∧ passFreq low high rate θ ≠ 0} (fun θ => |θ| ≤ 2 * Real.pi * low / rate ∨ 2 * Real.pi * high / rate ≤ |θ|) ∧
      ‖response cs (2 * Real.pi * low / rate)‖ ^ 2 = (10 : ℝ) ^ (-ripple / 10) ∧
      ‖response cs (2 * Real.pi * high / rate)‖ ^ 2 = (10 : ℝ) ^ (-ripple / 10) := by
  obtain ⟨f, e, h, hz, hp⟩ := chebyshev1_proto n h1 (by omega) hrip0 mem
  obtain ⟨cs, e2, hd⟩ := bandstop_designed h h1 h15 q h0 hl hc hm (hsep f e).1 (hsep f e).2
  refine ⟨cs, by rw [designChebyshev1Bandstop, e]; exact e2, hd,
    passRipple_of h1 hrip0 hd fun θ hθ => (stop_band h0 hl hc hθ).1, ?_, ?_⟩
  · rw [hd.power _ ⟨(edge_angle h0 (hl.trans hc)).1, by rw [(band_edge h0 hl hc).1]; norm_num⟩, (stop_edge h0 hl hc).1]
    exact (cheb1_bounds h1 hrip0 0).2.2.2
  · rw [hd.power _ ⟨(edge_angle (h0.trans hl) hc).1, by rw [(band_edge h0 hl hc).2]; norm_num⟩, (stop_edge h0 hl hc).2]
    exact (cheb1_bounds h1 hrip0 0).2.2.1

/-- **C86.** The Chebyshev type 2 lowpass of every order up to 30, with its ripple in the stopband and the gain
`-ripple` dB at the cutoff. -/
theorem C86_chebyshev2_lowpass_partial (q : QSort) (mem : Zpk) {n : ℕ} (h1 : 1 ≤ n) (h2 : n ≤ 30) {ripple : ℝ}
    (hrip0 : 0 < ripple) (hrip : ripple ≤ 120) {cutoff rate : ℝ} (hr : 0 < rate)
    (hlo : rate / 10 ^ 9 ≤ cutoff) (hhi : cutoff ≤ rate / 2 - rate / 10 ^ 9) {maxB : ℤ}
    (hm : (((n + 1) / 2 : ℕ) : ℤ) ≤ maxB) :
    ∃ cs, designChebyshev2Lowpass q mem n ripple cutoff rate false maxB = .ok cs ∧
      Designed cs ((n + 1) / 2) {θ | |θ| < Real.pi} (fun θ => chebyshev2 n ripple (lowFreq cutoff rate θ)) ∧
      StopRipple cs ripple {θ | |θ| < Real.pi} (fun θ => |θ| < 2 * Real.pi * cutoff / rate) ∧
      ‖response cs (2 * Real.pi * cutoff / rate)‖ ^ 2 = (10 : ℝ) ^ (-ripple / 10) := by
  obtain ⟨f, e, h, hz, hp⟩ := chebyshev2_proto n h1 h2 hrip0 mem
  obtain ⟨c0, c1, -⟩ := sep_cutoff hr hlo hhi
  obtain ⟨cs, e2, hd⟩ := lowpass_designed h h1 q c0 c1 hm fun r hr' => (low_clear h (by
    intro r hr'
    rw [hz, hp] at hr'
    exact c2_sep h1 h2 hrip0 hrip hr') hr hlo hhi r hr').1
  refine ⟨cs, by rw [designChebyshev2Lowpass, e]; exact e2, hd, stopRipple_of h1 hrip0 hd fun θ hθ => (low_band c0 c1 hθ).2, ?_⟩
  rw [hd.power _ (edge_angle c0 c1).1, (low_edge c0 c1).1]
  exact (cheb2_bounds h1 hrip0 0).2.2.1

/-- **C86.** The Chebyshev type 2 highpass of every order up to 30, with its ripple in the stopband and the gain
`-ripple` dB at the cutoff. -/
theorem C86_chebyshev2_highpass_partial (q : QSort) (mem : Zpk) {n : ℕ} (h1 : 1 ≤ n) (h2 : n ≤ 30) {ripple : ℝ}
    (hrip0 : 0 < ripple) (hrip : ripple ≤ 120) {cutoff rate : ℝ} (hr : 0 < rate)
    (hlo : rate / 10 ^ 9 ≤ cutoff) (hhi : cutoff ≤ rate / 2 - rate / 10 ^ 9) {maxB : ℤ}
    (hm : (((n + 1) / 2 : ℕ) : ℤ) ≤ maxB) :
    ∃ cs, designChebyshev2Highpass q mem n ripple cutoff rate false maxB = .ok cs ∧
      Designed cs ((n + 1) / 2) {θ | |θ| < Real.pi ∧ θ ≠ 0} (fun θ => chebyshev2 n ripple (highFreq cutoff rate θ)) ∧
      StopRipple cs ripple {θ | |θ| < Real.pi ∧ θ ≠ 0} (fun θ => 2 * Real.pi * cutoff / rate < |θ|) ∧
      ‖response cs (2 * Real.pi * cutoff / rate)‖ ^ 2 = (10 : ℝ) ^ (-ripple / 10) := by
  obtain ⟨f, e, h, hz, hp⟩ := chebyshev2_proto n h1 h2 hrip0 mem
  obtain ⟨c0, c1, -⟩ := sep_cutoff hr hlo hhi
  obtain ⟨cs, e2, hd⟩ := highpass_designed h h1 q c0 c1 hm fun r hr' => (low_clear h (by
    intro r hr'
    rw [hz, hp] at hr'
    exact c2_sep h1 h2 hrip0 hrip hr') hr hlo hhi r hr').2
  refine ⟨cs, by rw [designChebyshev2Highpass, e]; exact e2, hd, stopRipple_of h1 hrip0 hd fun θ hθ => (high_band c0 c1 hθ).2, ?_⟩
  rw [hd.power _ ⟨(edge_angle c0 c1).1, (edge_angle c0 c1).2.1⟩, (low_edge c0 c1).2]
  exact (cheb2_bounds h1 hrip0 0).2.2.1

/-- **C86.** The Chebyshev type 2 bandpass of every order up to 15. -/
theorem C86_chebyshev2_bandpass_partial (q : QSort) (mem : Zpk) {n : ℕ} (h1 : 1 ≤ n) (h15 : n ≤ 15) {ripple : ℝ}
    (hrip0 : 0 < ripple) {low high rate : ℝ} (h0 : 0 < low) (hl : low < high) (hc : high < rate / 2) {maxB : ℤ}
    (hm : (n : ℤ) ≤ maxB) (hsep : ∀ f, chebyshev2Prototype n ripple mem = .ok f → PassClear f low high rate) :
    ∃ cs, designChebyshev2Bandpass q mem n ripple low high rate false maxB = .ok cs ∧
      Designed cs n {θ | |θ| < Real.pi ∧ θ ≠ 0} (fun θ => chebyshev2 n ripple (passFreq low high rate θ)) ∧
      StopRipple cs ripple {θ | |θ| < Real.pi ∧ θ ≠ 0} (fun θ => 2 * Real.pi * low / rate < |θ| ∧ |θ| < 2 * Real.pi * high / rate) ∧
      ‖response cs (2 * Real.pi * low / rate)‖ ^ 2 = (10 : ℝ) ^ (-ripple / 10) ∧
      ‖response cs (2 * Real.pi * high / rate)‖ ^ 2 = (10 : ℝ) ^ (-ripple / 10) := by
  obtain ⟨f, e, h, hz, hp⟩ := chebyshev2_proto n h1 (by omega) hrip0 mem
  obtain ⟨cs, e2, hd⟩ := bandpass_designed h h1 h15 q h0 hl hc hm (hsep f e)
  refine ⟨cs, by rw [designChebyshev2Bandpass, e]; exact e2, hd,
    stopRipple_of h1 hrip0 hd fun θ hθ => (pass_band h0 hl hc hθ).2, ?_, ?_⟩
  · rw [hd.power _ ⟨(edge_angle h0 (hl.trans hc)).1, (edge_angle h0 (hl.trans hc)).2.1⟩, (band_edge h0 hl hc).1]
    exact (cheb2_bounds h1 hrip0 0).2.2.2
  · rw [hd.power _ ⟨(edge_angle (h0.trans hl) hc).1, (edge_angle (h0.trans hl) hc).2.1⟩, (band_edge h0 hl hc).2]
    exact (cheb2_bounds h1 hrip0 0).2.2.1

/-- **C86.** The Chebyshev type 2 bandstop of every order up to 15. -/
theorem C86_chebyshev2_bandstop_partial (q : QSort) (mem : Zpk) {n : ℕ} (h1 : 1 ≤ n) (h15 : n ≤ 15) {ripple : ℝ}
    (hrip0 : 0 < ripple) {low high rate : ℝ} (h0 : 0 < low) (hl : low < high) (hc : high < rate / 2) {maxB : ℤ}
    (hm : (n : ℤ) ≤ maxB) (hsep : ∀ f, chebyshev2Prototype n ripple mem = .ok f → StopClear f low high rate) :
    ∃ cs, designChebyshev2Bandstop q mem n ripple low high rate false maxB = .ok cs ∧
      Designed cs n {θ | |θ| < Real.pi ∧ passFreq low high rate θ ≠ 0} (fun θ => chebyshev2 n ripple (stopFreq low high rate θ)) ∧
      StopRipple cs ripple {θ | |θ| < Real.pi ∧ passFreq low high rate θ ≠ 0} (fun θ => |θ| < 2 * Real.pi * low / rate ∨ 2 * Real.pi * high / rate < |θ|) ∧
      ‖response cs (2 * Real.pi * low / rate)‖ ^ 2 = (10 : ℝ) ^ (-ripple / 10) ∧
      ‖response cs (2 * Real.pi * high / rate)‖ ^ 2 = (10 : ℝ) ^ (-ripple / 10) := by
  obtain ⟨f, e, h, hz, hp⟩ := chebyshev2_proto n h1 (by omega) hrip0 mem
  obtain ⟨cs, e2, hd⟩ := bandstop_designed h h1 h15 q h0 hl hc hm (hsep f e).1 (hsep f e).2
  refine ⟨cs, by rw [designChebyshev2Bandstop, e]; exact e2, hd,
    stopRipple_of h1 hrip0 hd fun θ hθ => (stop_band h0 hl hc hθ).2, ?_, ?_⟩
  · rw [hd.power _ ⟨(edge_angle h0 (hl.trans hc)).1, by rw [(band_edge h0 hl hc).1]; norm_num⟩, (stop_edge h0 hl hc).1]
    exact (cheb2_bounds h1 hrip0 0).2.2.2
  · rw [hd.power _ ⟨(edge_angle (h0.trans hl) hc).1, by rw [(band_edge h0 hl hc).2]; norm_num⟩, (stop_edge h0 hl hc).2]
    exact (cheb2_bounds h1 hrip0 0).2.2.1

/-- **C86.** The type 1 designs return 0 for a wrong order, cutoff or output array. -/
theorem C86_chebyshev1_failure (q : QSort) (mem : Zpk) {order : ℤ} (h30 : order ≤ 30) {ripple : ℝ} (hrip : 0 < ripple)
    {cutoff rate : ℝ} {isNull : Bool} {maxB : ℤ}
    (h : order < 1 ∨ ¬ (0 ≤ cutoff ∧ cutoff < rate / 2) ∨ isNull = true ∨ maxB < (order + 1) / 2) :
    designChebyshev1Lowpass q mem order ripple cutoff rate isNull maxB = .error .fail ∧
    designChebyshev1Highpass q mem order ripple cutoff rate isNull maxB = .error .fail := by
  by_cases h1 : order < 1
  · rw [designChebyshev1Lowpass, designChebyshev1Highpass, (proto_low h1 mem ripple).2.1]
    exact ⟨rfl, rfl⟩
  obtain ⟨n, rfl⟩ : ∃ n : ℕ, order = n := ⟨order.toNat, by omega⟩
  obtain ⟨f, e, hp, -⟩ := chebyshev1_proto n (by omega) (by omega) hrip mem
  have hc := hp.count
  have h' : ¬ (0 ≤ cutoff ∧ cutoff < rate / 2) ∨ isNull = true ∨ maxB < (((f.numPoles + 1) / 2 : ℕ) : ℤ) := by
    rw [hc]
    push_cast
    exact h.resolve_left h1
  rw [designChebyshev1Lowpass, designChebyshev1Highpass, e]
  exact ⟨lowpass_error q (by omega) h', highpass_error q (by omega) h'⟩

/-- **C86.** So do the type 1 bandpass and bandstop designs, up to order 15. -/
theorem C86_chebyshev1_band_failure (q : QSort) (mem : Zpk) {order : ℤ} (h15 : order ≤ 15) {ripple : ℝ} (hrip : 0 < ripple)
    {low high rate : ℝ} {isNull : Bool} {maxB : ℤ}
    (h : order < 1 ∨ ¬ (0 ≤ low ∧ low ≤ high ∧ high < rate / 2) ∨ isNull = true ∨ maxB < order) :
    designChebyshev1Bandpass q mem order ripple low high rate isNull maxB = .error .fail ∧
    designChebyshev1Bandstop q mem order ripple low high rate isNull maxB = .error .fail := by
  by_cases h1 : order < 1
  · rw [designChebyshev1Bandpass, designChebyshev1Bandstop, (proto_low h1 mem ripple).2.1]
    exact ⟨rfl, rfl⟩
  obtain ⟨n, rfl⟩ : ∃ n : ℕ, order = n := ⟨order.toNat, by omega⟩
  obtain ⟨f, e, hp, -⟩ := chebyshev1_proto n (by omega) (by omega) hrip mem
  have hc := hp.count
  have hpr := hp.proper
  have h' : ¬ (0 ≤ low ∧ low ≤ high ∧ high < rate / 2) ∨ isNull = true ∨ maxB < f.numPoles := by
    rw [hc]
    exact h.resolve_left h1
  rw [designChebyshev1Bandpass, designChebyshev1Bandstop, e]
  exact ⟨bandpass_error q (by omega) (by omega) (by omega) h', bandstop_error q (by omega) (by omega) (by omega) h'⟩

/-- **C86, violated.** An order above 30 is not rejected: the roots are written past the end of the arrays. -/
theorem C86_chebyshev1_order_violation (q : QSort) (mem : Zpk) {order : ℤ} (h : 30 < order) (ripple low high rate : ℝ)
    (isNull : Bool) (maxB : ℤ) :
    designChebyshev1Lowpass q mem order ripple low rate isNull maxB = .error .ub ∧
    designChebyshev1Highpass q mem order ripple low rate isNull maxB = .error .ub ∧
    designChebyshev1Bandpass q mem order ripple low high rate isNull maxB = .error .ub ∧
    designChebyshev1Bandstop q mem order ripple low high rate isNull maxB = .error .ub := by
  rw [designChebyshev1Lowpass, designChebyshev1Highpass, designChebyshev1Bandpass, designChebyshev1Bandstop, (proto_high h mem ripple).2.1]
  exact ⟨rfl, rfl, rfl, rfl⟩

/-- **C86.** The type 2 designs return 0 for a wrong order, cutoff or output array. -/
theorem C86_chebyshev2_failure (q : QSort) (mem : Zpk) {order : ℤ} (h30 : order ≤ 30) {ripple : ℝ} (hrip : 0 < ripple)
    {cutoff rate : ℝ} {isNull : Bool} {maxB : ℤ}
    (h : order < 1 ∨ ¬ (0 ≤ cutoff ∧ cutoff < rate / 2) ∨ isNull = true ∨ maxB < (order + 1) / 2) :
    designChebyshev2Lowpass q mem order ripple cutoff rate isNull maxB = .error .fail ∧
    designChebyshev2Highpass q mem order ripple cutoff rate isNull maxB = .error .fail := by
  by_cases h1 : order < 1
  · rw [designChebyshev2Lowpass, designChebyshev2Highpass, (proto_low h1 mem ripple).2.2]
    exact ⟨rfl, rfl⟩
  obtain ⟨n, rfl⟩ : ∃ n : ℕ, order = n := ⟨order.toNat, by omega⟩
  obtain ⟨f, e, hp, -⟩ := chebyshev2_proto n (by omega) (by omega) hrip mem
  have hc := hp.count
  have h' : ¬ (0 ≤ cutoff ∧ cutoff < rate / 2) ∨ isNull = true ∨ maxB < (((f.numPoles + 1) / 2 : ℕ) : ℤ) := by
    rw [hc]
    push_cast
    exact h.resolve_left h1
  rw [designChebyshev2Lowpass, designChebyshev2Highpass, e]
  exact ⟨lowpass_error q (by omega) h', highpass_error q (by omega) h'⟩

/-- **C86.** So do the type 2 bandpass and bandstop designs, up to order 15. -/
theorem C86_chebyshev2_band_failure (q : QSort) (mem : Zpk) {order : ℤ} (h15 : order ≤ 15) {ripple : ℝ} (hrip : 0 < ripple)
    {low high rate : ℝ} {isNull : Bool} {maxB : ℤ}
    (h : order < 1 ∨ ¬ (0 ≤ low ∧ low ≤ high ∧ high < rate / 2) ∨ isNull = true ∨ maxB < order) :
    designChebyshev2Bandpass q mem order ripple low high rate isNull maxB = .error .fail ∧
    designChebyshev2Bandstop q mem order ripple low high rate isNull maxB = .error .fail := by
  by_cases h1 : order < 1
  · rw [designChebyshev2Bandpass, designChebyshev2Bandstop, (proto_low h1 mem ripple).2.2]
    exact ⟨rfl, rfl⟩
  obtain ⟨n, rfl⟩ : ∃ n : ℕ, order = n := ⟨order.toNat, by omega⟩
  obtain ⟨f, e, hp, -⟩ := chebyshev2_proto n (by omega) (by omega) hrip mem
  have hc := hp.count
  have hpr := hp.proper
  have h' : ¬ (0 ≤ low ∧ low ≤ high ∧ high < rate / 2) ∨ isNull = true ∨ maxB < f.numPoles := by
    rw [hc]
    exact h.resolve_left h1
  rw [designChebyshev2Bandpass, designChebyshev2Bandstop, e]
  exact ⟨bandpass_error q (by omega) (by omega) (by omega) h', bandstop_error q (by omega) (by omega) (by omega) h'⟩

/-- **C86, violated.** An order above 30 is not rejected: the roots are written past the end of the arrays. -/
theorem C86_chebyshev2_order_violation (q : QSort) (mem : Zpk) {order : ℤ} (h : 30 < order) (ripple low high rate : ℝ)
    (isNull : Bool) (maxB : ℤ) :
    designChebyshev2Lowpass q mem order ripple low rate isNull maxB = .error .ub ∧
    designChebyshev2Highpass q mem order ripple low rate isNull maxB = .error .ub ∧
    designChebyshev2Bandpass q mem order ripple low high rate isNull maxB = .error .ub ∧
    designChebyshev2Bandstop q mem order ripple low high rate isNull maxB = .error .ub := by
  rw [designChebyshev2Lowpass, designChebyshev2Highpass, designChebyshev2Bandpass, designChebyshev2Bandstop, (proto_high h mem ripple).2.2]
  exact ⟨rfl, rfl, rfl, rfl⟩

/-- **C86, violated.** A type 1 bandpass of an order from 16 to 30 reports success with `ceil(order / 2)` biquads; the
passband gain is above 0 dB: `2^order` times `-ripple` dB or 0 dB at frequency 0. -/
theorem C86_bandpass_violation (q : QSort) (mem : Zpk) {n : ℕ} (h16 : 16 ≤ n) (h30 : n ≤ 30) {ripple : ℝ}
    (hrip : 1 / 10 ^ 11 ≤ ripple) {rate : ℝ} (hr : 0 < rate) {maxB : ℤ} (hm : (((n + 1) / 2 : ℕ) : ℤ) ≤ maxB) :
    ∃ cs, designChebyshev1Bandpass q mem n ripple (rate / 6) (rate / 3) rate false maxB = .ok cs ∧
      cs.length = (n + 1) / 2 ∧ (2 ^ n) ^ 2 * (10 : ℝ) ^ (-ripple / 10) ≤ ‖response cs 0‖ ^ 2 := by
  have hrip0 : 0 < ripple := lt_of_lt_of_le (by norm_num) hrip
  obtain ⟨f, e, h, hz, hp⟩ := chebyshev1_proto n (by omega) h30 hrip0 mem
  have hnz : f.numZeros = 0 := by
    have := congrArg List.length hz
    rwa [zeros, entries_length] at this
  obtain ⟨cs, e2, h3, h4⟩ := bandpass_wrong h h16 q (low := rate / 6) (high := rate / 3) (by linarith) (by linarith)
    (by linarith) hm (σ := 1 / 45000) (by norm_num) (by
      intro r hr'
      rw [hz, hp] at hr'
      exact c1_sep (by omega) h30 hrip (hr'.resolve_left List.not_mem_nil)) (band_bound hr le_rfl)
  refine ⟨cs, by rw [designChebyshev1Bandpass, e]; exact e2, h3, ?_⟩
  rw [h4, hnz, Nat.sub_zero]
  exact mul_le_mul_of_nonneg_left ((cheb1_bounds (by omega) hrip0 0).1 (by norm_num)).1 (by positivity)

/-- **C86, violated.** A type 1 bandstop of an order from 16 to 30 removes frequency 0, which lies in the passband. -/
theorem C86_bandstop_violation (q : QSort) (mem : Zpk) {n : ℕ} (h16 : 16 ≤ n) (h30 : n ≤ 30) {ripple : ℝ}
    (hrip : 1 / 10 ^ 11 ≤ ripple) {rate : ℝ} (hr : 0 < rate) {maxB : ℤ} (hm : (((n + 1) / 2 : ℕ) : ℤ) ≤ maxB) :
    ∃ cs, designChebyshev1Bandstop q mem n ripple (rate / 6) (rate / 3) rate false maxB = .ok cs ∧
      cs.length = (n + 1) / 2 ∧ response cs 0 = 0 := by
  have hrip0 : 0 < ripple := lt_of_lt_of_le (by norm_num) hrip
  obtain ⟨f, e, h, hz, hp⟩ := chebyshev1_proto n (by omega) h30 hrip0 mem
  have hnz : f.numZeros = 0 := by
    have := congrArg List.length hz
    rwa [zeros, entries_length] at this
  obtain ⟨cs, e2, h3, h4⟩ := bandstop_wrong h h16 q (low := rate / 6) (high := rate / 3) (by linarith) (by linarith)
    (by linarith) hm (σ := 1 / 45000) (by norm_num) hz hnz (by
      intro r hr'
      rw [hz, hp] at hr'
      exact c1_sep (by omega) h30 hrip (hr'.resolve_left List.not_mem_nil)) (band_bound hr le_rfl)
  exact ⟨cs, by rw [designChebyshev1Bandstop, e]; exact e2, h3, h4⟩

/-- **C86, violated.** A type 2 bandpass of an order from 16 to 30 also reports success with `ceil(order / 2)` biquads
and a gain of at least 0 dB at frequency 0, which is in the stopband. -/
theorem C86_bandpass2_violation (q : QSort) (mem : Zpk) {n : ℕ} (h16 : 16 ≤ n) (h30 : n ≤ 30) {ripple : ℝ}
    (hrip0 : 0 < ripple) (hrip : ripple ≤ 120) {rate : ℝ} (hr : 0 < rate) {maxB : ℤ}
    (hm : (((n + 1) / 2 : ℕ) : ℤ) ≤ maxB) :
    ∃ cs, designChebyshev2Bandpass q mem n ripple (rate / 6) (rate / 3) rate false maxB = .ok cs ∧
      cs.length = (n + 1) / 2 ∧ 1 ≤ ‖response cs 0‖ ^ 2 := by
  obtain ⟨f, e, h, hz, hp⟩ := chebyshev2_proto n (by omega) h30 hrip0 mem
  obtain ⟨cs, e2, h3, h4⟩ := bandpass_wrong h h16 q (low := rate / 6) (high := rate / 3) (by linarith) (by linarith)
    (by linarith) hm (σ := 1 / 45000) (by norm_num) (by
      intro r hr'
      rw [hz, hp] at hr'
      exact c2_sep (by omega) h30 hrip0 hrip hr') (band_bound hr le_rfl)
  refine ⟨cs, by rw [designChebyshev2Bandpass, e]; exact e2, h3, ?_⟩
  rw [h4, chebyshev2, if_pos rfl, mul_one]
  exact one_le_pow₀ (one_le_pow₀ (by norm_num))

example : ∃ cs, designChebyshev1Lowpass mergeSort onePole 4 1 1000 48000 false 2 = .ok cs ∧ cs.length = 2 ∧
    ‖response cs (2 * Real.pi * 1000 / 48000)‖ ^ 2 = (10 : ℝ) ^ (-(1 : ℝ) / 10) := by
  obtain ⟨cs, e, h, -, h2⟩ := C86_chebyshev1_lowpass_partial mergeSort onePole (n := 4) (by norm_num) (by norm_num)
    (ripple := 1) (by norm_num) (cutoff := 1000) (rate := 48000) (maxB := 2) (by norm_num) (by norm_num) (by norm_num)
    (by norm_num)
  exact ⟨cs, e, h.count, h2⟩

example : ∃ cs, designChebyshev2Highpass mergeSort onePole 5 40 1000 48000 false 3 = .ok cs ∧ cs.length = 3 ∧
    ‖response cs (2 * Real.pi * 1000 / 48000)‖ ^ 2 = (10 : ℝ) ^ (-(40 : ℝ) / 10) := by
  obtain ⟨cs, e, h, -, h2⟩ := C86_chebyshev2_highpass_partial mergeSort onePole (n := 5) (by norm_num) (by norm_num)
    (ripple := 40) (by norm_num) (by norm_num) (cutoff := 1000) (rate := 48000) (maxB := 3) (by norm_num) (by norm_num)
    (by norm_num) (by norm_num)
  exact ⟨cs, e, h.count, h2⟩

end Verif.IirDesign
