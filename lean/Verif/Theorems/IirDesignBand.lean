import Verif.Proof.IirDesign13

/-!
# C85, C86: Butterworth and Chebyshev bandpass and bandstop designs, without a condition on the roots for even orders
-/

namespace Verif.IirDesign
open Verif.PortableComplex Spec

/-- **C85, partial.** The Butterworth bandpass of every order up to 15: `order` stable biquads, the Butterworth response and
half power at both edges. The edges keep a distance of 10⁻⁹ of the sampling rate from 0, from half the rate and from each
other. For even orders nothing else is needed; for odd orders `RealClear` excludes a sliver of bands for which the two
roots that come from the real pole are not real, but so close to the real axis that the code takes them for real. -/
theorem C85_bandpass_clear_partial (q : QSort) (mem : Zpk) {n : ℕ} (h1 : 1 ≤ n) (h15 : n ≤ 15) {low high rate : ℝ}
    (hr : 0 < rate) (hlo : rate / 10 ^ 9 ≤ low) (hhi : high ≤ rate / 2 - rate / 10 ^ 9) (hbw : rate / 10 ^ 9 ≤ high - low)
    {maxB : ℤ} (hm : (n : ℤ) ≤ maxB) (hodd : n % 2 = 1 → RealClear (-1) low high rate) :
    ∃ cs, designButterworthBandpass q mem n low high rate false maxB = .ok cs ∧
      Designed cs n {θ | |θ| < Real.pi ∧ θ ≠ 0} (fun θ => butterworth n (passFreq low high rate θ)) ∧
      ‖response cs (2 * Real.pi * low / rate)‖ ^ 2 = 1 / 2 ∧ ‖response cs (2 * Real.pi * high / rate)‖ ^ 2 = 1 / 2 := by
  obtain ⟨c0, c1, c2⟩ := margins hr hlo hhi hbw
  refine C85_bandpass_partial q mem h1 h15 c0 c1 c2 hm fun f e => ?_
  obtain ⟨f', e', h, hz, hp⟩ := butterworth_proto n h1 (by omega) mem
  obtain rfl : f' = f := Except.ok.inj (e'.symm.trans e)
  refine pass_clear h (fun r hr' => ?_) hr hlo hhi hbw fun p hp' => ?_
  · rw [hz, hp] at hr'
    exact (bw_spread h1 (by omega) (hr'.resolve_left List.not_mem_nil)).mono (by norm_num)
  · rw [hp] at hp'
    obtain ⟨o, rfl⟩ := bw_real h1 (by omega) hp'
    exact hodd o

/-- **C86, partial.** The Chebyshev type 1 bandpass of every order up to 15, with its ripple in the passband and the gain `-ripple` dB at
both edges. For even orders nothing is assumed about the roots. -/
theorem C86_chebyshev1_bandpass_clear_partial (q : QSort) (mem : Zpk) {n : ℕ} (h1 : 1 ≤ n) (h15 : n ≤ 15) {ripple : ℝ}
    (hrip : 1 / 10 ^ 11 ≤ ripple) {low high rate : ℝ} (hr : 0 < rate) (hlo : rate / 10 ^ 9 ≤ low)
    (hhi : high ≤ rate / 2 - rate / 10 ^ 9) (hbw : rate / 10 ^ 9 ≤ high - low) {maxB : ℤ} (hm : (n : ℤ) ≤ maxB)
    (hodd : n % 2 = 1 → ∀ f, chebyshev1Prototype n ripple mem = .ok f → ∀ p : ℝ, (p : ℂ) ∈ poles f →
      RealClear p low high rate) :
    ∃ cs, designChebyshev1Bandpass q mem n ripple low high rate false maxB = .ok cs ∧
      Designed cs n {θ | |θ| < Real.pi ∧ θ ≠ 0}
        (fun θ => chebyshev1 n ripple (passFreq low high rate θ)) ∧
      PassRipple cs ripple {θ | |θ| < Real.pi ∧ θ ≠ 0} (fun θ => 2 * Real.pi * low / rate ≤ |θ| ∧ |θ| ≤ 2 * Real.pi * high / rate) ∧
      ‖response cs (2 * Real.pi * low / rate)‖ ^ 2 = (10 : ℝ) ^ (-ripple / 10) ∧
      ‖response cs (2 * Real.pi * high / rate)‖ ^ 2 = (10 : ℝ) ^ (-ripple / 10) := by
  have hrip0 : 0 < ripple := lt_of_lt_of_le (by norm_num) hrip
  obtain ⟨c0, c1, c2⟩ := margins hr hlo hhi hbw
  refine C86_chebyshev1_bandpass_partial q mem h1 h15 hrip0 c0 c1 c2 hm fun f e => ?_
  obtain ⟨f', e', h, hz, hp⟩ := chebyshev1_proto n h1 (by omega) hrip0 mem
  obtain rfl : f' = f := Except.ok.inj (e'.symm.trans e)
  refine pass_clear h (fun r hr' => ?_) hr hlo hhi hbw fun p hp' => ?_
  · rw [hz, hp] at hr'
    exact c1_sep h1 (by omega) hrip (hr'.resolve_left List.not_mem_nil)
  · have hp'' := hp'
    rw [hp] at hp''
    exact hodd (c1_real h1 (by omega) _ hp'').1 _ e p hp'

/-- **C86, partial.** The Chebyshev type 2 bandpass of every order up to 15, with its ripple in the stopband and the gain `-ripple` dB at
both edges. For even orders nothing is assumed about the roots. -/
theorem C86_chebyshev2_bandpass_clear_partial (q : QSort) (mem : Zpk) {n : ℕ} (h1 : 1 ≤ n) (h15 : n ≤ 15) {ripple : ℝ}
    (hrip0 : 0 < ripple) (hrip : ripple ≤ 120) {low high rate : ℝ} (hr : 0 < rate) (hlo : rate / 10 ^ 9 ≤ low)
    (hhi : high ≤ rate / 2 - rate / 10 ^ 9) (hbw : rate / 10 ^ 9 ≤ high - low) {maxB : ℤ} (hm : (n : ℤ) ≤ maxB)
    (hodd : n % 2 = 1 → ∀ f, chebyshev2Prototype n ripple mem = .ok f → ∀ p : ℝ, (p : ℂ) ∈ poles f →
      RealClear p low high rate) :
    ∃ cs, designChebyshev2Bandpass q mem n ripple low high rate false maxB = .ok cs ∧
      Designed cs n {θ | |θ| < Real.pi ∧ θ ≠ 0}
        (fun θ => chebyshev2 n ripple (passFreq low high rate θ)) ∧
      StopRipple cs ripple {θ | |θ| < Real.pi ∧ θ ≠ 0} (fun θ => 2 * Real.pi * low / rate < |θ| ∧ |θ| < 2 * Real.pi * high / rate) ∧
      ‖response cs (2 * Real.pi * low / rate)‖ ^ 2 = (10 : ℝ) ^ (-ripple / 10) ∧
      ‖response cs (2 * Real.pi * high / rate)‖ ^ 2 = (10 : ℝ) ^ (-ripple / 10) := by
  obtain ⟨c0, c1, c2⟩ := margins hr hlo hhi hbw
  refine C86_chebyshev2_bandpass_partial q mem h1 h15 hrip0 c0 c1 c2 hm fun f e => ?_
  obtain ⟨f', e', h, hz, hp⟩ := chebyshev2_proto n h1 (by omega) hrip0 mem
  obtain rfl : f' = f := Except.ok.inj (e'.symm.trans e)
  refine pass_clear h (fun r hr' => ?_) hr hlo hhi hbw fun p hp' => ?_
  · rw [hz, hp] at hr'
    exact c2_sep h1 (by omega) hrip0 hrip hr'
  · have hp'' := hp'
    rw [hp] at hp''
    exact hodd (c2_real h1 (by omega) (mu2 h1 (epsilon_pos hrip0)).2 hp'').1 _ e p hp'

/-- **C85, partial.** The Butterworth bandstop of every order up to 15: `order` stable biquads, the Butterworth response and
half power at both edges. The edges keep a distance of 10⁻⁹ of the sampling rate from 0, from half the rate and from each
other. For even orders nothing else is needed; for odd orders `RealClear` excludes a sliver of bands for which the two
roots that come from the real pole are not real, but so close to the real axis that the code takes them for real. -/
theorem C85_bandstop_clear_partial (q : QSort) (mem : Zpk) {n : ℕ} (h1 : 1 ≤ n) (h15 : n ≤ 15) {low high rate : ℝ}
    (hr : 0 < rate) (hlo : rate / 10 ^ 9 ≤ low) (hhi : high ≤ rate / 2 - rate / 10 ^ 9) (hbw : rate / 10 ^ 9 ≤ high - low)
    {maxB : ℤ} (hm : (n : ℤ) ≤ maxB) (hodd : n % 2 = 1 → RealClear (-1) low high rate) :
    ∃ cs, designButterworthBandstop q mem n low high rate false maxB = .ok cs ∧
      Designed cs n {θ | |θ| < Real.pi ∧ passFreq low high rate θ ≠ 0} (fun θ => butterworth n (stopFreq low high rate θ)) ∧
      ‖response cs (2 * Real.pi * low / rate)‖ ^ 2 = 1 / 2 ∧ ‖response cs (2 * Real.pi * high / rate)‖ ^ 2 = 1 / 2 := by
  obtain ⟨c0, c1, c2⟩ := margins hr hlo hhi hbw
  refine C85_bandstop_partial q mem h1 h15 c0 c1 c2 hm fun f e => ?_
  obtain ⟨f', e', h, hz, hp⟩ := butterworth_proto n h1 (by omega) mem
  obtain rfl : f' = f := Except.ok.inj (e'.symm.trans e)
  refine stop_clear h (fun r hr' => ?_) hr hlo hhi hbw fun p hp' => ?_
  · rw [hz, hp] at hr'
    exact (bw_spread h1 (by omega) (hr'.resolve_left List.not_mem_nil)).mono (by norm_num)
  · rw [hp] at hp'
    obtain ⟨o, rfl⟩ := bw_real h1 (by omega) hp'
    rw [inv_neg_one]; exact hodd o

/-- **C86, partial.** The Chebyshev type 1 bandstop of every order up to 15, with its ripple in the passband and the gain `-ripple` dB at
both edges. For even orders nothing is assumed about the roots. -/
theorem C86_chebyshev1_bandstop_clear_partial (q : QSort) (mem : Zpk) {n : ℕ} (h1 : 1 ≤ n) (h15 : n ≤ 15) {ripple : ℝ}
    (hrip : 1 / 10 ^ 11 ≤ ripple) {low high rate : ℝ} (hr : 0 < rate) (hlo : rate / 10 ^ 9 ≤ low)
    (hhi : high ≤ rate / 2 - rate / 10 ^ 9) (hbw : rate / 10 ^ 9 ≤ high - low) {maxB : ℤ} (hm : (n : ℤ) ≤ maxB)
    (hodd : n % 2 = 1 → ∀ f, chebyshev1Prototype n ripple mem = .ok f → ∀ p : ℝ, (p : ℂ) ∈ poles f →
      RealClear p⁻¹ low high rate) :
    ∃ cs, designChebyshev1Bandstop q mem n ripple low high rate false maxB = .ok cs ∧
      Designed cs n {θ | |θ| < Real.pi ∧ passFreq low high rate θ ≠ 0}
        (fun θ => chebyshev1 n ripple (stopFreq low high rate θ)) ∧
      PassRipple cs ripple {θ | |θ| < Real.pi ∧ passFreq low high rate θ ≠ 0} (fun θ => |θ| ≤ 2 * Real.pi * low / rate ∨ 2 * Real.pi * high / rate ≤ |θ|) ∧
      ‖response cs (2 * Real.pi * low / rate)‖ ^ 2 = (10 : ℝ) ^ (-ripple / 10) ∧
      ‖response cs (2 * Real.pi * high / rate)‖ ^ 2 = (10 : ℝ) ^ (-ripple / 10) := by
  have hrip0 : 0 < ripple := lt_of_lt_of_le (by norm_num) hrip
  obtain ⟨c0, c1, c2⟩ := margins hr hlo hhi hbw
  refine C86_chebyshev1_bandstop_partial q mem h1 h15 hrip0 c0 c1 c2 hm fun f e => ?_
  obtain ⟨f', e', h, hz, hp⟩ := chebyshev1_proto n h1 (by omega) hrip0 mem
  obtain rfl : f' = f := Except.ok.inj (e'.symm.trans e)
  refine stop_clear h (fun r hr' => ?_) hr hlo hhi hbw fun p hp' => ?_
  · rw [hz, hp] at hr'
    exact c1_sep h1 (by omega) hrip (hr'.resolve_left List.not_mem_nil)
  · have hp'' := hp'
    rw [hp] at hp''
    exact hodd (c1_real h1 (by omega) _ hp'').1 _ e p hp'

/-- **C86, partial.** The Chebyshev type 2 bandstop of every order up to 15, with its ripple in the stopband and the gain `-ripple` dB at
both edges. For even orders nothing is assumed about the roots. -/
theorem C86_chebyshev2_bandstop_clear_partial (q : QSort) (mem : Zpk) {n : ℕ} (h1 : 1 ≤ n) (h15 : n ≤ 15) {ripple : ℝ}
    (hrip0 : 0 < ripple) (hrip : ripple ≤ 120) {low high rate : ℝ} (hr : 0 < rate) (hlo : rate / 10 ^ 9 ≤ low)
    (hhi : high ≤ rate / 2 - rate / 10 ^ 9) (hbw : rate / 10 ^ 9 ≤ high - low) {maxB : ℤ} (hm : (n : ℤ) ≤ maxB)
    (hodd : n % 2 = 1 → ∀ f, chebyshev2Prototype n ripple mem = .ok f → ∀ p : ℝ, (p : ℂ) ∈ poles f →
      RealClear p⁻¹ low high rate) :
    ∃ cs, designChebyshev2Bandstop q mem n ripple low high rate false maxB = .ok cs ∧
      Designed cs n {θ | |θ| < Real.pi ∧ passFreq low high rate θ ≠ 0}
        (fun θ => chebyshev2 n ripple (stopFreq low high rate θ)) ∧
      StopRipple cs ripple {θ | |θ| < Real.pi ∧ passFreq low high rate θ ≠ 0} (fun θ => |θ| < 2 * Real.pi * low / rate ∨ 2 * Real.pi * high / rate < |θ|) ∧
      ‖response cs (2 * Real.pi * low / rate)‖ ^ 2 = (10 : ℝ) ^ (-ripple / 10) ∧
      ‖response cs (2 * Real.pi * high / rate)‖ ^ 2 = (10 : ℝ) ^ (-ripple / 10) := by
  obtain ⟨c0, c1, c2⟩ := margins hr hlo hhi hbw
  refine C86_chebyshev2_bandstop_partial q mem h1 h15 hrip0 c0 c1 c2 hm fun f e => ?_
  obtain ⟨f', e', h, hz, hp⟩ := chebyshev2_proto n h1 (by omega) hrip0 mem
  obtain rfl : f' = f := Except.ok.inj (e'.symm.trans e)
  refine stop_clear h (fun r hr' => ?_) hr hlo hhi hbw fun p hp' => ?_
  · rw [hz, hp] at hr'
    exact c2_sep h1 (by omega) hrip0 hrip hr'
  · have hp'' := hp'
    rw [hp] at hp''
    exact hodd (c2_real h1 (by omega) (mu2 h1 (epsilon_pos hrip0)).2 hp'').1 _ e p hp'

/-- Even orders need no condition. -/
example : ∃ cs, designButterworthBandpass mergeSort onePole 4 20 20000 48000 false 4 = .ok cs ∧ cs.length = 4 ∧
    ‖response cs (2 * Real.pi * 20 / 48000)‖ ^ 2 = 1 / 2 := by
  obtain ⟨cs, e, h, h2, -⟩ := C85_bandpass_clear_partial mergeSort onePole (n := 4) (low := 20) (high := 20000)
    (rate := 48000) (maxB := 4) (by norm_num) (by norm_num) (by norm_num) (by norm_num) (by norm_num) (by norm_num)
    (by norm_num) (by norm_num)
  exact ⟨cs, e, h.count, h2⟩

/-- An odd order. -/
example : ∃ cs, designButterworthBandstop mergeSort onePole 3 1000 2000 6000 false 3 = .ok cs ∧ cs.length = 3 ∧
    ‖response cs (2 * Real.pi * 1000 / 6000)‖ ^ 2 = 1 / 2 := by
  obtain ⟨cs, e, h, h2, -⟩ := C85_bandstop_clear_partial mergeSort onePole (n := 3) (low := 1000) (high := 2000)
    (rate := 6000) (maxB := 3) (by norm_num) (by norm_num) (by norm_num) (by norm_num) (by norm_num) (by norm_num)
    (by norm_num) (fun _ => by
      have := realClear_example (rate := 6000) (p := -1) (by norm_num) (by norm_num)
      rwa [show (6000 : ℝ) / 6 = 1000 by norm_num, show (6000 : ℝ) / 3 = 2000 by norm_num] at this)
  exact ⟨cs, e, h.count, h2⟩

example : ∃ cs, designChebyshev1Bandpass mergeSort onePole 4 1 20 20000 48000 false 4 = .ok cs ∧ cs.length = 4 := by
  obtain ⟨cs, e, h, -⟩ := C86_chebyshev1_bandpass_clear_partial mergeSort onePole (n := 4) (ripple := 1) (low := 20)
    (high := 20000) (rate := 48000) (maxB := 4) (by norm_num) (by norm_num) (by norm_num) (by norm_num) (by norm_num)
    (by norm_num) (by norm_num) (by norm_num) (by norm_num)
  exact ⟨cs, e, h.count⟩

example : ∃ cs, designChebyshev2Bandstop mergeSort onePole 6 40 20 20000 48000 false 6 = .ok cs ∧ cs.length = 6 := by
  obtain ⟨cs, e, h, -⟩ := C86_chebyshev2_bandstop_clear_partial mergeSort onePole (n := 6) (ripple := 40) (low := 20)
    (high := 20000) (rate := 48000) (maxB := 6) (by norm_num) (by norm_num) (by norm_num) (by norm_num) (by norm_num)
    (by norm_num) (by norm_num) (by norm_num) (by norm_num) (by norm_num)
  exact ⟨cs, e, h.count⟩

end Verif.IirDesign
