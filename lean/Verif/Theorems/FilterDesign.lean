import Verif.Proof.FilterDesign2

/-!
# Second-order filter designs (C28, C57)

The statements use the vocabulary of `Verif.Spec.FilterDesign`. Rounding is not modelled.
-/

namespace Verif.FilterDesign
open Verif.BiquadCascade

/-- C28: the transform of a second-order filter. For every sampling rate and match frequency that pass the
checks, and every analog filter whose poles are in the left half plane (`den[0] ≠ 0`), the result is a
normalised stable filter which evaluates at `z` as the analog filter at `K (z - 1) / (z + 1)`, the limit of
the analog filter at infinity at the Nyquist frequency, and the analog filter at `i K tan(ω/2)` at each
other frequency `ω`, where `K` maps the match frequency to itself. -/
theorem C28_bilinear_transform {n0 n1 n2 d0 d1 d2 rate hz : ℝ} (hr : 0 < rate) (h0 : 0 ≤ hz) (h1 : hz < rate / 2)
    (hd : d0 ≠ 0) (hp : ∀ s : ℂ, d0 * s ^ 2 + d1 * s + d2 = 0 → s.re < 0) :
    ∃ c K, bilinearTransform [n0, n1, n2] [d0, d1, d2] rate hz = some c ∧
      c.b.length = 3 ∧ c.a.length = 3 ∧ c.a.getD 0 0 = 1 ∧ Stable c ∧ Matches K hz rate ∧
      Discretizes c K (analog n0 n1 n2 d0 d1 d2) ∧ response c Real.pi = n0 / d0 ∧
      ∀ ω, Real.cos (ω / 2) ≠ 0 →
        response c ω = analog n0 n1 n2 d0 d1 d2 (((K * Real.tan (ω / 2) : ℝ) : ℂ) * Complex.I) := by
  have hK := computeK_pos hr h0 h1
  obtain ⟨hKne, -⟩ := bilinear_roots hK hd hp
  have hev := fun z hz => bilinear_eval (n0 := n0) (n1 := n1) (n2 := n2) hKne z hz
  refine ⟨_, computeK hz rate, by unfold bilinearTransform; rw [if_pos ⟨rfl, rfl, hr, h0, h1⟩], rfl, rfl, ?_,
    bilinear_stable hK hd hp, computeK_matches hr h1, ⟨hK, hev⟩, ?_, ?_⟩
  · have : d0 * computeK hz rate * computeK hz rate + d1 * computeK hz rate + d2 ≠ 0 := by
      intro h
      apply hKne
      rw [← h]
      ring
    simp [normalize, bilinearMap, this]
  · unfold response
    rw [Complex.exp_pi_mul_I, bilinear_nyquist hKne hK.ne']
  · intro ω hω
    obtain ⟨w1, w2⟩ := warp (computeK hz rate) ω hω
    unfold response
    rw [hev _ w1, w2, analog_eq]

example : ∃ n0 n1 n2 d0 d1 d2 rate hz : ℝ, 0 < rate ∧ 0 ≤ hz ∧ hz < rate / 2 ∧ d0 ≠ 0 ∧
    (∀ s : ℂ, d0 * s ^ 2 + d1 * s + d2 = 0 → s.re < 0) ∧ n0 ≠ n1 ∧ n1 ≠ n2 :=
  ⟨1, 2, 3, 2, 3, 4, 48000, 1000, by norm_num, by norm_num, by norm_num, by norm_num,
    fun s hs => quad_hurwitz' (d0 := 2) (d1 := 3) (d2 := 4) (by norm_num) (by norm_num) (by norm_num) s hs,
    by norm_num, by norm_num⟩

/-- C28: the transform rejects everything else by a failed check. -/
theorem C28_bilinear_rejects (num den : List ℝ) (rate hz : ℝ) :
    bilinearTransform num den rate hz = none ↔
      ¬ (num.length = 3 ∧ den.length = 3 ∧ 0 < rate ∧ 0 ≤ hz ∧ hz < rate / 2) := by
  unfold bilinearTransform
  split_ifs with h <;> simp [h]

/-- C28: the designs fail a check exactly for arguments out of range. -/
theorem C28_designs_reject (rate hz Q lower upper : ℝ) :
    (lowpass rate hz Q = none ↔ ¬ (0 < hz ∧ hz < rate / 2 ∧ 0 < Q)) ∧
    (highpass rate hz Q = none ↔ ¬ (0 < hz ∧ hz < rate / 2 ∧ 0 < Q)) ∧
    (bandpass rate hz Q = none ↔ ¬ (0 < hz ∧ hz < rate / 2 ∧ 0 < Q)) ∧
    (bandstop rate hz Q = none ↔ ¬ (0 < hz ∧ hz < rate / 2 ∧ 0 < Q)) ∧
    (rangedBandpass rate lower upper = none ↔ ¬ (0 < lower ∧ lower < upper ∧ upper < rate / 2)) ∧
    (rangedBandstop rate lower upper = none ↔ ¬ (0 < lower ∧ lower < upper ∧ upper < rate / 2)) := by
  have h1 : ∀ n d : List ℝ, n.length = 3 → d.length = 3 → argumentsOk rate hz Q →
      bilinearTransform n d rate hz ≠ none := by
    intro n d hn hd h
    rw [Ne, C28_bilinear_rejects, not_not]
    unfold argumentsOk at h
    exact ⟨hn, hd, by linarith, by linarith, h.1⟩
  have h2 : ∀ n d : List ℝ, n.length = 3 → d.length = 3 → bandEdgesOk rate lower upper →
      bilinearTransform n d rate 0 ≠ none := by
    intro n d hn hd h
    rw [Ne, C28_bilinear_rejects, not_not]
    unfold bandEdgesOk at h
    exact ⟨hn, hd, by linarith, le_refl _, by linarith⟩
  have e1 : argumentsOk rate hz Q ↔ 0 < hz ∧ hz < rate / 2 ∧ 0 < Q := by
    unfold argumentsOk
    tauto
  have e2 : bandEdgesOk rate lower upper ↔ 0 < lower ∧ lower < upper ∧ upper < rate / 2 := by
    unfold bandEdgesOk
    constructor
    · rintro ⟨a, b, c⟩
      exact ⟨c, b, a⟩
    · rintro ⟨a, b, c⟩
      exact ⟨c, b, a⟩
  rw [← e1, ← e2]
  refine ⟨?_, ?_, ?_, ?_, ?_, ?_⟩
  · unfold lowpass; split_ifs with h
    · exact iff_of_false (h1 _ _ rfl rfl h) (not_not.mpr h)
    · exact iff_of_true rfl h
  · unfold highpass; split_ifs with h
    · exact iff_of_false (h1 _ _ rfl rfl h) (not_not.mpr h)
    · exact iff_of_true rfl h
  · unfold bandpass; split_ifs with h
    · exact iff_of_false (h1 _ _ rfl rfl h) (not_not.mpr h)
    · exact iff_of_true rfl h
  · unfold bandstop; split_ifs with h
    · exact iff_of_false (h1 _ _ rfl rfl h) (not_not.mpr h)
    · exact iff_of_true rfl h
  · unfold rangedBandpass; split_ifs with h
    · exact iff_of_false (h2 _ _ rfl rfl h) (not_not.mpr h)
    · exact iff_of_true rfl h
  · unfold rangedBandstop; split_ifs with h
    · exact iff_of_false (h2 _ _ rfl rfl h) (not_not.mpr h)
    · exact iff_of_true rfl h

section designs
variable {rate hz Q : ℝ} (h0 : 0 < hz) (h1 : hz < rate / 2) (hQ : 0 < Q)
include h0 h1 hQ

/-- C28: `LowpassBiquadFilterCoefficients`. -/
theorem C28_lowpass :
    ∃ c K, lowpass rate hz Q = some c ∧ Stable c ∧ Matches K hz rate ∧
      Discretizes c K (fun s => (2 * Real.pi * hz) ^ 2 /
        (s ^ 2 + s * (2 * Real.pi * hz) / Q + (2 * Real.pi * hz) ^ 2)) ∧
      response c 0 = 1 ∧ response c Real.pi = 0 ∧
      (rate / 10 ^ 7 ≤ hz → ‖response c (radians hz rate)‖ = Q) := by
  have hr : 0 < rate := by linarith
  have hw : 0 < 2 * Real.pi * hz := by have := Real.pi_pos; positivity
  obtain ⟨c, e1, e2, e3, e4, e5, e6⟩ := transform_core (n0 := 0) (n1 := 0)
    (n2 := 2 * Real.pi * hz * (2 * Real.pi * hz)) (d1 := 2 * Real.pi * hz / Q)
    (d2 := 2 * Real.pi * hz * (2 * Real.pi * hz)) hr h0.le h1 (by positivity) (by positivity)
  refine ⟨c, computeK hz rate, by unfold lowpass; rw [if_pos ⟨h1, h0, hQ⟩]; exact e1, e2,
    computeK_matches hr h1, ⟨e3.1, ?_⟩, ?_, by rw [e5]; simp, ?_⟩
  · intro z hz
    rw [e3.2 z hz]
    unfold analog
    push_cast
    congr 1 <;> ring
  · rw [e4, div_self]
    exact_mod_cast (by positivity : 2 * Real.pi * hz * (2 * Real.pi * hz) ≠ 0)
  · intro hm
    rw [match_response hr hm h1 e6, analog_eq, quad_mul_I, quad_mul_I, norm_div]
    generalize 2 * Real.pi * hz = w at *
    have : w * w - 1 * w ^ 2 = 0 := by ring
    rw [this, norm_add_mul_I, norm_add_mul_I]
    have e : √((w * w - 0 * w ^ 2) ^ 2 + (0 * w) ^ 2) = w * w := by
      rw [Real.sqrt_eq_iff_mul_self_eq (by positivity) (by positivity)]
      ring
    have e' : √(0 ^ 2 + (w / Q * w) ^ 2) = w / Q * w := by
      rw [Real.sqrt_eq_iff_mul_self_eq (by positivity) (by positivity)]
      ring
    rw [e, e']
    field_simp

/-- C28: `HighpassBiquadFilterCoefficients`. -/
theorem C28_highpass :
    ∃ c K, highpass rate hz Q = some c ∧ Stable c ∧ Matches K hz rate ∧
      Discretizes c K (fun s => s ^ 2 / (s ^ 2 + s * (2 * Real.pi * hz) / Q + (2 * Real.pi * hz) ^ 2)) ∧
      response c 0 = 0 ∧ response c Real.pi = 1 ∧
      (rate / 10 ^ 7 ≤ hz → ‖response c (radians hz rate)‖ = Q) := by
  have hr : 0 < rate := by linarith
  have hw : 0 < 2 * Real.pi * hz := by have := Real.pi_pos; positivity
  obtain ⟨c, e1, e2, e3, e4, e5, e6⟩ := transform_core (n0 := 1) (n1 := 0)
    (n2 := 0) (d1 := 2 * Real.pi * hz / Q)
    (d2 := 2 * Real.pi * hz * (2 * Real.pi * hz)) hr h0.le h1 (by positivity) (by positivity)
  refine ⟨c, computeK hz rate, by unfold highpass; rw [if_pos ⟨h1, h0, hQ⟩]; exact e1, e2,
    computeK_matches hr h1, ⟨e3.1, ?_⟩, by rw [e4]; simp, by rw [e5]; simp, ?_⟩
  · intro z hz
    rw [e3.2 z hz]
    unfold analog
    push_cast
    congr 1 <;> ring
  · intro hm
    rw [match_response hr hm h1 e6, analog_eq, quad_mul_I, quad_mul_I, norm_div]
    generalize 2 * Real.pi * hz = w at *
    have : w * w - 1 * w ^ 2 = 0 := by ring
    rw [this, norm_add_mul_I, norm_add_mul_I]
    have e : √((0 - 1 * w ^ 2) ^ 2 + (0 * w) ^ 2) = w * w := by
      rw [Real.sqrt_eq_iff_mul_self_eq (by positivity) (by positivity)]
      ring
    have e' : √(0 ^ 2 + (w / Q * w) ^ 2) = w / Q * w := by
      rw [Real.sqrt_eq_iff_mul_self_eq (by positivity) (by positivity)]
      ring
    rw [e, e']
    field_simp

/-- C28: `BandpassBiquadFilterCoefficients`: unit gain and zero phase at the centre, no gain at the ends. -/
theorem C28_bandpass :
    ∃ c K, bandpass rate hz Q = some c ∧ Stable c ∧ Matches K hz rate ∧
      Discretizes c K (fun s => s * (2 * Real.pi * hz) / Q /
        (s ^ 2 + s * (2 * Real.pi * hz) / Q + (2 * Real.pi * hz) ^ 2)) ∧
      response c 0 = 0 ∧ response c Real.pi = 0 ∧
      (rate / 10 ^ 7 ≤ hz → response c (radians hz rate) = 1) := by
  have hr : 0 < rate := by linarith
  have hw : 0 < 2 * Real.pi * hz := by have := Real.pi_pos; positivity
  obtain ⟨c, e1, e2, e3, e4, e5, e6⟩ := transform_core (n0 := 0) (n1 := 2 * Real.pi * hz / Q)
    (n2 := 0) (d1 := 2 * Real.pi * hz / Q)
    (d2 := 2 * Real.pi * hz * (2 * Real.pi * hz)) hr h0.le h1 (by positivity) (by positivity)
  refine ⟨c, computeK hz rate, by unfold bandpass; rw [if_pos ⟨h1, h0, hQ⟩]; exact e1, e2,
    computeK_matches hr h1, ⟨e3.1, ?_⟩, by rw [e4]; simp, by rw [e5]; simp, ?_⟩
  · intro z hz
    rw [e3.2 z hz]
    unfold analog
    push_cast
    congr 1 <;> ring
  · intro hm
    rw [match_response hr hm h1 e6, analog_eq, div_eq_one_iff_eq (quad_ne_zero (by positivity) (by positivity) _),
      quad_mul_I, quad_mul_I]
    congr 2
    ring

/-- C28: `BandstopBiquadFilterCoefficients`: unit gain at the ends, none at the centre. -/
theorem C28_bandstop :
    ∃ c K, bandstop rate hz Q = some c ∧ Stable c ∧ Matches K hz rate ∧
      Discretizes c K (fun s => (s ^ 2 + (2 * Real.pi * hz) ^ 2) /
        (s ^ 2 + s * (2 * Real.pi * hz) / Q + (2 * Real.pi * hz) ^ 2)) ∧
      response c 0 = 1 ∧ response c Real.pi = 1 ∧
      (rate / 10 ^ 7 ≤ hz → response c (radians hz rate) = 0) := by
  have hr : 0 < rate := by linarith
  have hw : 0 < 2 * Real.pi * hz := by have := Real.pi_pos; positivity
  obtain ⟨c, e1, e2, e3, e4, e5, e6⟩ := transform_core (n0 := 1) (n1 := 0)
    (n2 := 2 * Real.pi * hz * (2 * Real.pi * hz)) (d1 := 2 * Real.pi * hz / Q)
    (d2 := 2 * Real.pi * hz * (2 * Real.pi * hz)) hr h0.le h1 (by positivity) (by positivity)
  refine ⟨c, computeK hz rate, by unfold bandstop; rw [if_pos ⟨h1, h0, hQ⟩]; exact e1, e2,
    computeK_matches hr h1, ⟨e3.1, ?_⟩, ?_, by rw [e5]; simp, ?_⟩
  · intro z hz
    rw [e3.2 z hz]
    unfold analog
    push_cast
    congr 1 <;> ring
  · rw [e4, div_self]
    exact_mod_cast (by positivity : 2 * Real.pi * hz * (2 * Real.pi * hz) ≠ 0)
  · intro hm
    rw [match_response hr hm h1 e6, analog_eq, quad_mul_I]
    have : 2 * Real.pi * hz * (2 * Real.pi * hz) - 1 * (2 * Real.pi * hz) ^ 2 = 0 := by ring
    rw [this]
    simp

end designs

example : (0 : ℝ) < 1000 ∧ (1000 : ℝ) < 48000 / 2 ∧ (0 : ℝ) < 3 ∧ (48000 : ℝ) / 10 ^ 7 ≤ 1000 := by norm_num

section ranged
variable {rate lower upper : ℝ} (h0 : 0 < lower) (h1 : lower < upper) (h2 : upper < rate / 2)
include h0 h1 h2

/-- C28: `RangedBandpassBiquadFilterCoefficients`: half power at both band edges, exactly. -/
theorem C28_ranged_bandpass :
    ∃ c, rangedBandpass rate lower upper = some c ∧ Stable c ∧
      Discretizes c (2 * rate) (fun s => (prewarp upper rate - prewarp lower rate) * s /
        (s ^ 2 + s * (prewarp upper rate - prewarp lower rate) + prewarp lower rate * prewarp upper rate)) ∧
      response c 0 = 0 ∧ response c Real.pi = 0 ∧
      ‖response c (radians lower rate)‖ = 1 / √2 ∧ ‖response c (radians upper rate)‖ = 1 / √2 := by
  have hr : 0 < rate := by linarith
  have hK : computeK 0 rate = 2 * rate := by unfold computeK; rw [if_pos (by positivity)]
  have p1 := prewarp_pos hr h0 (h1.trans h2)
  have p2 := prewarp_lt hr h0 h1 h2
  have p3 := prewarp_pos hr (h0.trans h1) h2
  obtain ⟨c, e1, e2, e3, e4, e5, e6⟩ := transform_core (n0 := 0) (n1 := prewarp upper rate - prewarp lower rate)
    (n2 := 0) (d1 := prewarp upper rate - prewarp lower rate)
    (d2 := prewarp upper rate * prewarp lower rate) hr (le_refl 0) (by linarith) (by linarith) (by positivity)
  have key : ∀ x y : ℝ, 0 < x → x ^ 2 = y ^ 2 → ‖(x : ℂ) * Complex.I‖ / ‖(y : ℂ) + (x : ℂ) * Complex.I‖ = 1 / √2 := by
    intro x y hx hxy
    rw [norm_add_mul_I, ← hxy, norm_mul, Complex.norm_I, mul_one, Complex.norm_real, Real.norm_of_nonneg hx.le,
      ← two_mul, Real.sqrt_mul (by norm_num), Real.sqrt_sq hx.le]
    field_simp
  refine ⟨c, by unfold rangedBandpass; rw [if_pos ⟨h2, h1, h0⟩]; exact e1, e2,
    ⟨by positivity, ?_⟩, by rw [e4]; simp, by rw [e5]; simp, ?_, ?_⟩
  · intro z hz
    rw [e3.2 z hz, hK]
    unfold analog
    push_cast
    congr 1 <;> ring
  · rw [prewarp_response hr h0 (h1.trans h2) e6, analog_eq, quad_mul_I, quad_mul_I, norm_div]
    generalize prewarp upper rate = w2 at *
    generalize prewarp lower rate = w1 at *
    rw [show (0 : ℝ) - 0 * w1 ^ 2 = 0 by ring, Complex.ofReal_zero, zero_add]
    exact key _ _ (mul_pos (by linarith) p1) (by ring)
  · rw [prewarp_response hr (h0.trans h1) h2 e6, analog_eq, quad_mul_I, quad_mul_I, norm_div]
    generalize prewarp upper rate = w2 at *
    generalize prewarp lower rate = w1 at *
    rw [show (0 : ℝ) - 0 * w2 ^ 2 = 0 by ring, Complex.ofReal_zero, zero_add]
    exact key _ _ (mul_pos (by linarith) p3) (by ring)

/-- C28: `RangedBandstopBiquadFilterCoefficients`: half power at both band edges, exactly. -/
theorem C28_ranged_bandstop :
    ∃ c, rangedBandstop rate lower upper = some c ∧ Stable c ∧
      Discretizes c (2 * rate) (fun s => (s ^ 2 + prewarp lower rate * prewarp upper rate) /
        (s ^ 2 + s * (prewarp upper rate - prewarp lower rate) + prewarp lower rate * prewarp upper rate)) ∧
      response c 0 = 1 ∧ response c Real.pi = 1 ∧
      ‖response c (radians lower rate)‖ = 1 / √2 ∧ ‖response c (radians upper rate)‖ = 1 / √2 := by
  have hr : 0 < rate := by linarith
  have hK : computeK 0 rate = 2 * rate := by unfold computeK; rw [if_pos (by positivity)]
  have p1 := prewarp_pos hr h0 (h1.trans h2)
  have p2 := prewarp_lt hr h0 h1 h2
  have p3 := prewarp_pos hr (h0.trans h1) h2
  obtain ⟨c, e1, e2, e3, e4, e5, e6⟩ := transform_core (n0 := 1) (n1 := 0)
    (n2 := prewarp upper rate * prewarp lower rate) (d1 := prewarp upper rate - prewarp lower rate)
    (d2 := prewarp upper rate * prewarp lower rate) hr (le_refl 0) (by linarith) (by linarith) (by positivity)
  have key : ∀ x y : ℝ, 0 < x → x ^ 2 = y ^ 2 → ‖(y : ℂ)‖ / ‖(y : ℂ) + (x : ℂ) * Complex.I‖ = 1 / √2 := by
    intro x y hx hxy
    have hy : ‖y‖ = x := by rw [Real.norm_eq_abs, ← abs_of_pos hx]; exact ((sq_eq_sq_iff_abs_eq_abs _ _).mp hxy).symm
    rw [norm_add_mul_I, ← hxy, Complex.norm_real, hy,
      ← two_mul, Real.sqrt_mul (by norm_num), Real.sqrt_sq hx.le]
    field_simp
  refine ⟨c, by unfold rangedBandstop; rw [if_pos ⟨h2, h1, h0⟩]; exact e1, e2,
    ⟨by positivity, ?_⟩, ?_, by rw [e5]; simp, ?_, ?_⟩
  · intro z hz
    rw [e3.2 z hz, hK]
    unfold analog
    push_cast
    congr 1 <;> ring
  · rw [e4, div_self]
    exact_mod_cast (by positivity : prewarp upper rate * prewarp lower rate ≠ 0)
  · rw [prewarp_response hr h0 (h1.trans h2) e6, analog_eq, quad_mul_I, quad_mul_I, norm_div]
    generalize prewarp upper rate = w2 at *
    generalize prewarp lower rate = w1 at *
    rw [show (0 : ℝ) * w1 = 0 by ring, Complex.ofReal_zero, zero_mul, add_zero]
    exact key _ _ (mul_pos (by linarith) p1) (by ring)
  · rw [prewarp_response hr (h0.trans h1) h2 e6, analog_eq, quad_mul_I, quad_mul_I, norm_div]
    generalize prewarp upper rate = w2 at *
    generalize prewarp lower rate = w1 at *
    rw [show (0 : ℝ) * w2 = 0 by ring, Complex.ofReal_zero, zero_mul, add_zero]
    exact key _ _ (mul_pos (by linarith) p3) (by ring)

end ranged

example : (0 : ℝ) < 1000 ∧ (1000 : ℝ) < 2000 ∧ (2000 : ℝ) < 48000 / 2 := by norm_num

section shelf
variable {rate hz Q gain : ℝ} (h0 : 0 < hz) (h1 : hz < rate / 2) (hQ : 0 < Q) (hg : 0 < gain)
include h0 h1 hQ hg

/-- C57: `LowShelfBiquadFilterCoefficients`: gain `gain` at DC, 1 at the Nyquist frequency, and the geometric
mean of the two at the corner. -/
theorem C57_low_shelf :
    ∃ c K, lowShelf rate hz Q gain = some c ∧ Stable c ∧ K * Real.tan (radians hz rate / 2) = 1 ∧
      Discretizes c K (fun s => √gain * (s ^ 2 + √(√gain) / Q * s + √gain) /
        (√gain * s ^ 2 + √(√gain) / Q * s + 1)) ∧
      response c 0 = gain ∧ response c Real.pi = 1 ∧ ‖response c (radians hz rate)‖ = √gain := by
  have hr : 0 < rate := by linarith
  have hx := cos_half_pos hr h0 h1
  have hy := sin_half_pos hr h0 h1
  have hA : 0 < √gain := Real.sqrt_pos.mpr hg
  have hAA : √gain * √gain = gain := Real.mul_self_sqrt hg.le
  have hB : 0 < √(√gain) := Real.sqrt_pos.mpr hA
  have hcos : Real.cos (2 * Real.pi * hz / rate) =
      Real.cos (radians hz rate / 2) ^ 2 - Real.sin (radians hz rate / 2) ^ 2 := by
    rw [← Real.cos_two_mul']
    unfold radians
    ring_nf
  have hsin : Real.sin (2 * Real.pi * hz / rate) =
      2 * Real.sin (radians hz rate / 2) * Real.cos (radians hz rate / 2) := by
    rw [← Real.sin_two_mul]
    unfold radians
    ring_nf
  have hone : Real.sin (radians hz rate / 2) ^ 2 + Real.cos (radians hz rate / 2) ^ 2 = 1 :=
    Real.sin_sq_add_cos_sq _
  have htan : Real.cos (radians hz rate / 2) / Real.sin (radians hz rate / 2) * Real.tan (radians hz rate / 2) = 1 := by
    rw [Real.tan_eq_sin_div_cos]
    field_simp
  obtain ⟨c, hc⟩ : ∃ c, lowShelf rate hz Q gain = some c := by
    unfold lowShelf
    rw [if_pos ⟨⟨h1, h0, hQ⟩, hg⟩]
    exact ⟨_, rfl⟩
  have hc' := hc
  unfold lowShelf at hc'
  rw [if_pos ⟨⟨h1, h0, hQ⟩, hg⟩] at hc'
  simp only [Option.some.injEq, hcos, hsin] at hc'
  obtain ⟨e1, e2, e3, e4, e5⟩ := scaled_core (c := c)
    (K := Real.cos (radians hz rate / 2) / Real.sin (radians hz rate / 2))
    (lam := 2 * Real.sin (radians hz rate / 2) ^ 2)
    (n0 := √gain) (n1 := √gain * (√(√gain) / Q)) (n2 := √gain * √gain) (d0 := √gain) (d1 := √(√gain) / Q) (d2 := 1)
    hc'.symm (by positivity) (by positivity) hA (by positivity) one_pos
    (by field_simp; linear_combination Q * hone * (-(√gain + 1)))
    (by field_simp; linear_combination hone * (-(√gain - 1)))
    (by field_simp; linear_combination Q * hone * (-(√gain + 1)))
    (by field_simp; linear_combination Q * hone * (-(√gain + 1)))
    (by field_simp; linear_combination hone * (√gain - 1))
    (by field_simp; linear_combination Q * hone * (-(√gain + 1)))
  refine ⟨c, _, hc, e1, htan, ⟨e2.1, ?_⟩, ?_, ?_, ?_⟩
  · intro z hz
    rw [e2.2 z hz]
    unfold analog
    push_cast
    congr 1
    ring
  · rw [e3]
    rw [hAA]
    simp
  · rw [e4, div_self]
    exact_mod_cast hA.ne'
  · rw [e5 _ hx.ne', htan, analog_eq, quad_mul_I, quad_mul_I, norm_div, norm_add_mul_I, norm_add_mul_I]
    have hqp : 0 < √(√gain) / Q := by positivity
    generalize √(√gain) / Q = q at *
    have hq : 0 < q := hqp
    generalize √gain = A at *
    exact sqrt_ratio hA.le (by positivity) (by ring)

/-- C57: `HighShelfBiquadFilterCoefficients`: gain 1 at DC, `gain` at the Nyquist frequency, and the geometric
mean of the two at the corner. -/
theorem C57_high_shelf :
    ∃ c K, highShelf rate hz Q gain = some c ∧ Stable c ∧ K * Real.tan (radians hz rate / 2) = 1 ∧
      Discretizes c K (fun s => √gain * (√gain * s ^ 2 + √(√gain) / Q * s + 1) /
        (s ^ 2 + √(√gain) / Q * s + √gain)) ∧
      response c 0 = 1 ∧ response c Real.pi = gain ∧ ‖response c (radians hz rate)‖ = √gain := by
  have hr : 0 < rate := by linarith
  have hx := cos_half_pos hr h0 h1
  have hy := sin_half_pos hr h0 h1
  have hA : 0 < √gain := Real.sqrt_pos.mpr hg
  have hAA : √gain * √gain = gain := Real.mul_self_sqrt hg.le
  have hB : 0 < √(√gain) := Real.sqrt_pos.mpr hA
  have hcos : Real.cos (2 * Real.pi * hz / rate) =
      Real.cos (radians hz rate / 2) ^ 2 - Real.sin (radians hz rate / 2) ^ 2 := by
    rw [← Real.cos_two_mul']
    unfold radians
    ring_nf
  have hsin : Real.sin (2 * Real.pi * hz / rate) =
      2 * Real.sin (radians hz rate / 2) * Real.cos (radians hz rate / 2) := by
    rw [← Real.sin_two_mul]
    unfold radians
    ring_nf
  have hone : Real.sin (radians hz rate / 2) ^ 2 + Real.cos (radians hz rate / 2) ^ 2 = 1 :=
    Real.sin_sq_add_cos_sq _
  have htan : Real.cos (radians hz rate / 2) / Real.sin (radians hz rate / 2) * Real.tan (radians hz rate / 2) = 1 := by
    rw [Real.tan_eq_sin_div_cos]
    field_simp
  obtain ⟨c, hc⟩ : ∃ c, highShelf rate hz Q gain = some c := by
    unfold highShelf
    rw [if_pos ⟨⟨h1, h0, hQ⟩, hg⟩]
    exact ⟨_, rfl⟩
  have hc' := hc
  unfold highShelf at hc'
  rw [if_pos ⟨⟨h1, h0, hQ⟩, hg⟩] at hc'
  simp only [Option.some.injEq, hcos, hsin] at hc'
  obtain ⟨e1, e2, e3, e4, e5⟩ := scaled_core (c := c)
    (K := Real.cos (radians hz rate / 2) / Real.sin (radians hz rate / 2))
    (lam := 2 * Real.sin (radians hz rate / 2) ^ 2)
    (n0 := √gain * √gain) (n1 := √gain * (√(√gain) / Q)) (n2 := √gain) (d0 := 1) (d1 := √(√gain) / Q) (d2 := √gain)
    hc'.symm (by positivity) (by positivity) one_pos (by positivity) hA
    (by field_simp; linear_combination Q * hone * (-(√gain + 1)))
    (by field_simp; linear_combination hone * (√gain - 1))
    (by field_simp; linear_combination Q * hone * (-(√gain + 1)))
    (by field_simp; linear_combination Q * hone * (-(√gain + 1)))
    (by field_simp; linear_combination hone * (-(√gain - 1)))
    (by field_simp; linear_combination Q * hone * (-(√gain + 1)))
  refine ⟨c, _, hc, e1, htan, ⟨e2.1, ?_⟩, ?_, ?_, ?_⟩
  · intro z hz
    rw [e2.2 z hz]
    unfold analog
    push_cast
    congr 1 <;> ring
  · rw [e3, div_self]
    exact_mod_cast hA.ne'
  · rw [e4]
    rw [hAA]
    simp
  · rw [e5 _ hx.ne', htan, analog_eq, quad_mul_I, quad_mul_I, norm_div, norm_add_mul_I, norm_add_mul_I]
    have hqp : 0 < √(√gain) / Q := by positivity
    generalize √(√gain) / Q = q at *
    have hq : 0 < q := hqp
    generalize √gain = A at *
    exact sqrt_ratio hA.le (by positivity) (by ring)

end shelf

example : (0 : ℝ) < 1000 ∧ (1000 : ℝ) < 48000 / 2 ∧ (0 : ℝ) < 2 ∧ (0 : ℝ) < 4 := by norm_num

section peak
variable {rate hz Q gain : ℝ} (h0 : 0 < hz) (h1 : hz < rate / 2) (hQ : 0 < Q)
include h0 h1 hQ

/-- C57: `ParametricPeakBiquadFilterCoefficients` is `1 + (gain - 1) Hs`, where `Hs` is the bandpass design,
at every frequency; the gain is `gain` at the centre and 1 at both ends. -/
theorem C57_parametric_peak (hg : 0 ≤ gain) :
    ∃ c r, parametricPeak rate hz Q gain = some c ∧ bandpass rate hz Q = some r ∧ Stable c ∧
      (∀ ω, response c ω = 1 + (gain - 1) * response r ω) ∧ response c 0 = 1 ∧ response c Real.pi = 1 ∧
      (rate / 10 ^ 7 ≤ hz → response c (radians hz rate) = gain) := by
  have hr : 0 < rate := by linarith
  have hw : 0 < 2 * Real.pi * hz := by have := Real.pi_pos; positivity
  obtain ⟨c, e1, e2, e3, e4, e5, e6⟩ := transform_core (n0 := 0 + 1) (n1 := gain * (2 * Real.pi * hz / Q))
    (n2 := 0 + 2 * Real.pi * hz * (2 * Real.pi * hz)) (d1 := 2 * Real.pi * hz / Q)
    (d2 := 2 * Real.pi * hz * (2 * Real.pi * hz)) hr h0.le h1 (by positivity) (by positivity)
  obtain ⟨r, g1, g2, g3, g4, g5, g6⟩ := transform_core (n0 := 0) (n1 := 2 * Real.pi * hz / Q)
    (n2 := 0) (d1 := 2 * Real.pi * hz / Q)
    (d2 := 2 * Real.pi * hz * (2 * Real.pi * hz)) hr h0.le h1 (by positivity) (by positivity)
  have hrel : ∀ ω, response c ω = 1 + (gain - 1) * response r ω := by
    intro ω
    rcases response_rel e5 e6 ω with ⟨a, b⟩ | ⟨a, b⟩
    · rw [a, response_nyquist r b, g5]
      simp
    · have hq := quad_ne_zero (d1 := 2 * Real.pi * hz / Q) (d2 := 2 * Real.pi * hz * (2 * Real.pi * hz))
        (by positivity) (by positivity) (computeK hz rate * Real.tan (ω / 2))
      rw [b, g6 ω a, analog_eq, analog_eq, div_eq_iff hq, add_mul, mul_assoc (_ - 1 : ℂ), div_mul_cancel₀ _ hq]
      unfold quad
      push_cast
      ring
  refine ⟨c, r, by unfold parametricPeak; rw [if_pos ⟨⟨h1, h0, hQ⟩, hg⟩]; exact e1,
    by unfold bandpass; rw [if_pos ⟨h1, h0, hQ⟩]; exact g1, e2, hrel, ?_, by rw [e5]; simp, ?_⟩
  · rw [hrel, g4]
    simp
  · intro hm
    obtain ⟨r', K, f1, -, -, -, -, -, f2⟩ := C28_bandpass h0 h1 hQ
    have : r' = r := by
      unfold bandpass at f1
      rw [if_pos ⟨h1, h0, hQ⟩] at f1
      exact Option.some.inj (f1.symm.trans g1)
    rw [hrel, ← this, f2 hm]
    ring

/-- C57: `ParametricPeakBiquadFilterSymmetricCoefficients`: the designs for gains `G` and `1 / G` are the
inverses of each other at every frequency ("vertical flip" on a logarithmic scale). -/
theorem C57_parametric_peak_symmetric (hg : 0 < gain) :
    ∃ c r, parametricPeakSymmetric rate hz Q gain = some c ∧ parametricPeakSymmetric rate hz Q (1 / gain) = some r ∧
      ∀ ω, response c ω * response r ω = 1 := by
  have hr : 0 < rate := by linarith
  have hw : 0 < 2 * Real.pi * hz := by have := Real.pi_pos; positivity
  have main : ∀ g : ℝ, 0 < g → g < 1 →
      ∃ c r, parametricPeakSymmetric rate hz Q g = some c ∧ parametricPeakSymmetric rate hz Q (1 / g) = some r ∧
      ∀ ω, response c ω * response r ω = 1 := by
    intro g hg hg1
    have hgi : ¬ (1 / g < 1) := by
      rw [not_lt, le_div_iff₀ hg]
      linarith
    obtain ⟨c, e1, e2, e3, e4, e5, e6⟩ := transform_core (n0 := 0 + 1) (n1 := g * (2 * Real.pi * hz / (Q * g)))
      (n2 := 0 + 2 * Real.pi * hz * (2 * Real.pi * hz)) (d1 := 2 * Real.pi * hz / (Q * g))
      (d2 := 2 * Real.pi * hz * (2 * Real.pi * hz)) hr h0.le h1 (by positivity) (by positivity)
    obtain ⟨r, g1, g2, g3, g4, g5, g6⟩ := transform_core (n0 := 0 + 1) (n1 := 1 / g * (2 * Real.pi * hz / Q))
      (n2 := 0 + 2 * Real.pi * hz * (2 * Real.pi * hz)) (d1 := 2 * Real.pi * hz / Q)
      (d2 := 2 * Real.pi * hz * (2 * Real.pi * hz)) hr h0.le h1 (by positivity) (by positivity)
    refine ⟨c, r, ?_, ?_, ?_⟩
    · unfold parametricPeakSymmetric parametricPeak
      rw [if_pos hg1, if_pos ⟨⟨h1, h0, mul_pos hQ hg⟩, hg.le⟩]
      exact e1
    · unfold parametricPeakSymmetric parametricPeak
      rw [if_neg hgi, if_pos ⟨⟨h1, h0, hQ⟩, by positivity⟩]
      exact g1
    · intro ω
      rcases response_rel e5 e6 ω with ⟨a, b⟩ | ⟨a, b⟩
      · rw [a, response_nyquist r b, g5]
        simp
      · rw [b, g6 ω a, analog_eq, analog_eq]
        have k1 : g * (2 * Real.pi * hz / (Q * g)) = 2 * Real.pi * hz / Q := by field_simp
        have k2 : 1 / g * (2 * Real.pi * hz / Q) = 2 * Real.pi * hz / (Q * g) := by field_simp
        rw [k1, k2]
        simp only [zero_add]
        have q1 := quad_ne_zero (d1 := 2 * Real.pi * hz / Q) (d2 := 2 * Real.pi * hz * (2 * Real.pi * hz))
          (by positivity) (by positivity) (computeK hz rate * Real.tan (ω / 2))
        have q2 := quad_ne_zero (d1 := 2 * Real.pi * hz / (Q * g)) (d2 := 2 * Real.pi * hz * (2 * Real.pi * hz))
          (by positivity) (by positivity) (computeK hz rate * Real.tan (ω / 2))
        rw [div_mul_div_comm, div_eq_one_iff_eq (mul_ne_zero q2 q1)]
        ring
  rcases lt_trichotomy gain 1 with h | h | h
  · exact main gain hg h
  · obtain ⟨c, r, e1, -, -, e2, -, -, -⟩ := C57_parametric_peak (gain := 1) h0 h1 hQ zero_le_one
    refine ⟨c, c, ?_, ?_, ?_⟩
    · unfold parametricPeakSymmetric
      rw [h, if_neg (lt_irrefl _)]
      exact e1
    · unfold parametricPeakSymmetric
      rw [h, div_one, if_neg (lt_irrefl _)]
      exact e1
    · intro ω
      rw [e2]
      simp
  · have hi : 1 / gain < 1 := by
      rw [div_lt_one hg]
      exact h
    obtain ⟨c, r, e1, e2, e3⟩ := main (1 / gain) (by positivity) hi
    rw [one_div_one_div] at e2
    exact ⟨r, c, e2, e1, fun ω => by rw [mul_comm]; exact e3 ω⟩

end peak

/-- C57: the plain design with gain 0 is the bandstop filter, but the symmetric one fails its check. -/
theorem C57_symmetric_gain_zero {rate hz Q : ℝ} : parametricPeakSymmetric rate hz Q 0 = none := by
  unfold parametricPeakSymmetric parametricPeak argumentsOk
  simp

end Verif.FilterDesign
