import Verif.Proof.ParametricEqualizer
import Verif.Theorems.BiquadCascade

/-! # The stages of the parametric equalizer -/

namespace Verif.ParametricEqualizer
open Verif.BiquadCascade Verif.FilterDesign Verif.BiquadAnalysis Verif.AuditoryFilterbank Spec

theorem bilinear_valid {n0 n1 n2 d1 d2 fs m : ℝ} (hfs : 0 < fs) (h0 : 0 ≤ m) (hm : m < fs / 2) (h1 : 0 < d1)
    (h2 : 0 < d2) {c : Stage ℝ} (h : bilinearTransform [n0, n1, n2] [1, d1, d2] fs m = some c) : c.Valid := by
  obtain ⟨c', K, e1, e2, e3, e4, -⟩ := C28_bilinear_transform (n0 := n0) (n1 := n1) (n2 := n2) (d0 := 1) (d1 := d1)
    (d2 := d2) hfs h0 hm one_ne_zero (fun s hs => quad_hurwitz' one_pos h1 h2 s (by unfold quad; exact hs))
  rw [h] at e1
  rw [Option.some.inj e1]
  exact ⟨e2, e3, by rw [e4]; exact one_ne_zero⟩

theorem shelf_sum_pos {A u : ℝ} (hA : 0 < A) (hu : -1 ≤ u) (hu' : u ≤ 1) : 0 < (A + 1) + (A - 1) * u := by
  nlinarith [mul_nonneg hA.le (by linarith : (0 : ℝ) ≤ 1 + u)]

theorem lowShelf_valid {rate f Q G : ℝ} (h0 : 0 < f) (h1 : f < rate / 2) (hQ : 0 < Q) (hG : 0 < G) {c : Stage ℝ}
    (h : lowShelf rate f Q G = some c) : c.Valid := by
  have hr : 0 < rate := by linarith
  unfold lowShelf at h
  rw [if_pos ⟨⟨h1, h0, hQ⟩, hG⟩] at h
  rw [← Option.some.inj h]
  refine ⟨rfl, rfl, ?_⟩
  have hs : 0 < Real.sin (2 * Real.pi * f / rate) := by
    have := half_pos hr h0 h1
    unfold radians at this
    exact Real.sin_pos_of_pos_of_lt_pi (by linarith) (by linarith)
  have hA := Real.sqrt_pos.2 hG
  have := shelf_sum_pos hA (Real.neg_one_le_cos (2 * Real.pi * f / rate)) (Real.cos_le_one _)
  have hb : 0 < Real.sin (2 * Real.pi * f / rate) * √(√G) / Q := by
    have := Real.sqrt_pos.2 hA
    positivity
  show (√G + 1) + (√G - 1) * Real.cos (2 * Real.pi * f / rate) + Real.sin (2 * Real.pi * f / rate) * √(√G) / Q ≠ 0
  linarith

theorem highShelf_valid {rate f Q G : ℝ} (h0 : 0 < f) (h1 : f < rate / 2) (hQ : 0 < Q) (hG : 0 < G) {c : Stage ℝ}
    (h : highShelf rate f Q G = some c) : c.Valid := by
  have hr : 0 < rate := by linarith
  unfold highShelf at h
  rw [if_pos ⟨⟨h1, h0, hQ⟩, hG⟩] at h
  rw [← Option.some.inj h]
  refine ⟨rfl, rfl, ?_⟩
  have hs : 0 < Real.sin (2 * Real.pi * f / rate) := by
    have := half_pos hr h0 h1
    unfold radians at this
    exact Real.sin_pos_of_pos_of_lt_pi (by linarith) (by linarith)
  have hA := Real.sqrt_pos.2 hG
  have := shelf_sum_pos (u := -Real.cos (2 * Real.pi * f / rate)) hA
    (by linarith [Real.cos_le_one (2 * Real.pi * f / rate)])
    (by linarith [Real.neg_one_le_cos (2 * Real.pi * f / rate)])
  have hb : 0 < Real.sin (2 * Real.pi * f / rate) * √(√G) / Q := by
    have := Real.sqrt_pos.2 hA
    positivity
  show (√G + 1) - (√G - 1) * Real.cos (2 * Real.pi * f / rate) + Real.sin (2 * Real.pi * f / rate) * √(√G) / Q ≠ 0
  linarith

/-- The response on the unit circle of a stage with a given prototype. -/
theorem discretizes_response {c : Stage ℝ} {K : ℝ} {H : ℂ → ℂ} (h : Discretizes c K H) {ω : ℝ}
    (hω : Real.cos (ω / 2) ≠ 0) : response c ω = H (((K * Real.tan (ω / 2) : ℝ) : ℂ) * Complex.I) := by
  obtain ⟨z1, z2⟩ := warp K ω hω
  unfold response
  rw [h.2 _ z1, z2]

/-- A design with all that is known about it. -/
structure Known (rate : ℝ) (s : Band) (c : Stage ℝ) : Prop where
  valid : c.Valid
  realizes : Realizes rate s c
  nonzero : HasGain s → ∀ ω, response c ω ≠ 0
  dc : response c 0 = match s.kind with
    | .lowpass => 1
    | .highpass => 0
    | .peak => 1
    | .lowShelf => ((factor s.gain : ℝ) : ℂ)
    | .highShelf => 1
  nyquist : response c Real.pi = match s.kind with
    | .lowpass => 0
    | .highpass => 1
    | .peak => 1
    | .lowShelf => 1
    | .highShelf => ((factor s.gain : ℝ) : ℂ)
  at_frequency : rate / 10 ^ 7 ≤ s.frequency → ‖response c (radians s.frequency rate)‖ = match s.kind with
    | .lowpass => s.quality
    | .highpass => s.quality
    | .peak => factor s.gain
    | .lowShelf => √(factor s.gain)
    | .highShelf => √(factor s.gain)

theorem quadI_ne {p0 p1 p2 : ℝ} (h0 : 0 < p0) (h1 : 0 < p1) (h2 : 0 < p2) (W : ℝ) :
    quad p0 p1 p2 ((W : ℂ) * Complex.I) ≠ 0 := by
  intro h
  have := quad_hurwitz' h0 h1 h2 _ h
  simp at this

theorem known_lowpass {rate f Q g : ℝ} (h : BandOk rate ⟨.lowpass, f, Q, g⟩) :
    ∃ c, design rate ⟨.lowpass, f, Q, g⟩ = some c ∧ Known rate ⟨.lowpass, f, Q, g⟩ c := by
  obtain ⟨h0, h1, hQ⟩ := h
  dsimp only at h0 h1 hQ
  have hr : 0 < rate := by linarith
  have hw : 0 < 2 * Real.pi * f := by have := Real.pi_pos; positivity
  obtain ⟨c, K, e1, e2, e3, e4, e5, e6, e7⟩ := C28_lowpass h0 h1 hQ
  refine ⟨c, e1, ?_, ⟨e2, K, ?_, e4.1, ?_⟩, ?_, e5, e6, e7⟩
  · unfold lowpass at e1
    rw [if_pos ⟨h1, h0, hQ⟩] at e1
    exact bilinear_valid hr h0.le h1 (by positivity) (by positivity) e1
  · unfold Placed; rw [if_neg (by simp)]; exact e3
  · intro z hz
    rw [e4.2 z hz]
    unfold prototype
    push_cast
    rfl
  · intro h
    simp [HasGain] at h

theorem known_highpass {rate f Q g : ℝ} (h : BandOk rate ⟨.highpass, f, Q, g⟩) :
    ∃ c, design rate ⟨.highpass, f, Q, g⟩ = some c ∧ Known rate ⟨.highpass, f, Q, g⟩ c := by
  obtain ⟨h0, h1, hQ⟩ := h
  dsimp only at h0 h1 hQ
  have hr : 0 < rate := by linarith
  have hw : 0 < 2 * Real.pi * f := by have := Real.pi_pos; positivity
  obtain ⟨c, K, e1, e2, e3, e4, e5, e6, e7⟩ := C28_highpass h0 h1 hQ
  refine ⟨c, e1, ?_, ⟨e2, K, ?_, e4.1, ?_⟩, ?_, e5, e6, e7⟩
  · unfold highpass at e1
    rw [if_pos ⟨h1, h0, hQ⟩] at e1
    exact bilinear_valid hr h0.le h1 (by positivity) (by positivity) e1
  · unfold Placed; rw [if_neg (by simp)]; exact e3
  · intro z hz
    rw [e4.2 z hz]
    unfold prototype
    push_cast
    rfl
  · intro h
    simp [HasGain] at h

theorem known_lowShelf {rate f Q g : ℝ} (h : BandOk rate ⟨.lowShelf, f, Q, g⟩) :
    ∃ c, design rate ⟨.lowShelf, f, Q, g⟩ = some c ∧ Known rate ⟨.lowShelf, f, Q, g⟩ c := by
  obtain ⟨h0, h1, hQ⟩ := h
  dsimp only at h0 h1 hQ
  have hG := factor_pos g
  have hA := Real.sqrt_pos.2 hG
  have hB := Real.sqrt_pos.2 hA
  obtain ⟨c, K, e1, e2, e3, e4, e5, e6, e7⟩ := C57_low_shelf h0 h1 hQ hG
  refine ⟨c, e1, lowShelf_valid h0 h1 hQ hG e1, ⟨e2, K, ?_, e4.1, ?_⟩, ?_, e5, e6, fun _ => e7⟩
  · unfold Placed; rw [if_pos (by simp)]; exact e3
  · intro z hz
    rw [e4.2 z hz]
    rfl
  · intro _ ω
    by_cases hc : Real.cos (ω / 2) = 0
    · rw [response_nyquist c hc, e6]
      exact one_ne_zero
    · rw [discretizes_response e4 hc]
      have n1 := quadI_ne (p0 := 1) (p1 := √(√(factor g)) / Q) (p2 := √(factor g)) one_pos (by positivity) hA
        (K * Real.tan (ω / 2))
      have n2 := quadI_ne (p0 := √(factor g)) (p1 := √(√(factor g)) / Q) (p2 := 1) hA (by positivity) one_pos
        (K * Real.tan (ω / 2))
      unfold quad at n1 n2
      refine div_ne_zero (mul_ne_zero (by exact_mod_cast hA.ne') ?_) ?_
      · convert n1 using 1; push_cast; ring
      · convert n2 using 1; push_cast; ring

theorem known_highShelf {rate f Q g : ℝ} (h : BandOk rate ⟨.highShelf, f, Q, g⟩) :
    ∃ c, design rate ⟨.highShelf, f, Q, g⟩ = some c ∧ Known rate ⟨.highShelf, f, Q, g⟩ c := by
  obtain ⟨h0, h1, hQ⟩ := h
  dsimp only at h0 h1 hQ
  have hG := factor_pos g
  have hA := Real.sqrt_pos.2 hG
  have hB := Real.sqrt_pos.2 hA
  obtain ⟨c, K, e1, e2, e3, e4, e5, e6, e7⟩ := C57_high_shelf h0 h1 hQ hG
  refine ⟨c, e1, highShelf_valid h0 h1 hQ hG e1, ⟨e2, K, ?_, e4.1, ?_⟩, ?_, e5, e6, fun _ => e7⟩
  · unfold Placed; rw [if_pos (by simp)]; exact e3
  · intro z hz
    rw [e4.2 z hz]
    rfl
  · intro _ ω
    by_cases hc : Real.cos (ω / 2) = 0
    · rw [response_nyquist c hc, e6]
      exact_mod_cast hG.ne'
    · rw [discretizes_response e4 hc]
      have n1 := quadI_ne (p0 := 1) (p1 := √(√(factor g)) / Q) (p2 := √(factor g)) one_pos (by positivity) hA
        (K * Real.tan (ω / 2))
      have n2 := quadI_ne (p0 := √(factor g)) (p1 := √(√(factor g)) / Q) (p2 := 1) hA (by positivity) one_pos
        (K * Real.tan (ω / 2))
      unfold quad at n1 n2
      refine div_ne_zero (mul_ne_zero (by exact_mod_cast hA.ne') ?_) ?_
      · convert n2 using 1; push_cast; ring
      · convert n1 using 1; push_cast; ring

/-- The peak design as a bilinear transform, for a boost (`k = 1`, `B = G`) and a cut (`k = 1 / G`, `B = 1`). -/
theorem peak_core {rate f Q g : ℝ} (h0 : 0 < f) (h1 : f < rate / 2) (hQ : 0 < Q) :
    ∃ c, parametricPeakSymmetric rate f Q (factor g) = some c ∧
      bilinearTransform
        [1, (if 1 ≤ factor g then factor g else 1) * (2 * Real.pi * f / Q), 2 * Real.pi * f * (2 * Real.pi * f)]
        [1, (if 1 ≤ factor g then 1 else 1 / factor g) * (2 * Real.pi * f / Q), 2 * Real.pi * f * (2 * Real.pi * f)]
        rate f = some c := by
  have hG := factor_pos g
  have hr : 0 < rate := by linarith
  have hw : 0 < 2 * Real.pi * f := by have := Real.pi_pos; positivity
  unfold parametricPeakSymmetric parametricPeak
  by_cases hg : 1 ≤ factor g
  · rw [if_neg (not_lt.2 hg), if_pos ⟨⟨h1, h0, hQ⟩, hG.le⟩, if_pos hg, if_pos hg]
    obtain ⟨c, e1, -⟩ := transform_core (n0 := 1) (n1 := factor g * (2 * Real.pi * f / Q))
      (n2 := 2 * Real.pi * f * (2 * Real.pi * f)) (d1 := 1 * (2 * Real.pi * f / Q))
      (d2 := 2 * Real.pi * f * (2 * Real.pi * f)) hr h0.le h1 (by positivity) (by positivity)
    refine ⟨c, ?_, e1⟩
    rw [← e1]
    simp [analogBandpass]
  · push Not at hg
    rw [if_pos hg, if_pos ⟨⟨h1, h0, by positivity⟩, hG.le⟩, if_neg (not_le.2 hg), if_neg (not_le.2 hg)]
    obtain ⟨c, e1, -⟩ := transform_core (n0 := 1) (n1 := 1 * (2 * Real.pi * f / Q))
      (n2 := 2 * Real.pi * f * (2 * Real.pi * f)) (d1 := 1 / factor g * (2 * Real.pi * f / Q))
      (d2 := 2 * Real.pi * f * (2 * Real.pi * f)) hr h0.le h1 (by positivity) (by positivity)
    refine ⟨c, ?_, e1⟩
    rw [← e1]
    have k1 : factor g * (2 * Real.pi * f / (Q * factor g)) = 1 * (2 * Real.pi * f / Q) := by field_simp
    have k2 : 2 * Real.pi * f / (Q * factor g) = 1 / factor g * (2 * Real.pi * f / Q) := by field_simp
    simp only [analogBandpass, List.getD_cons_zero, List.getD_cons_succ, zero_add]
    rw [k1, k2]

theorem known_peak {rate f Q g : ℝ} (h : BandOk rate ⟨.peak, f, Q, g⟩) :
    ∃ c, design rate ⟨.peak, f, Q, g⟩ = some c ∧ Known rate ⟨.peak, f, Q, g⟩ c := by
  obtain ⟨h0, h1, hQ⟩ := h
  dsimp only at h0 h1 hQ
  have hG := factor_pos g
  have hr : 0 < rate := by linarith
  have hw : 0 < 2 * Real.pi * f := by have := Real.pi_pos; positivity
  obtain ⟨c, d1, d2⟩ := peak_core (g := g) h0 h1 hQ
  obtain ⟨n, hn⟩ : ∃ n, n = if 1 ≤ factor g then factor g else 1 := ⟨_, rfl⟩
  obtain ⟨d, hd⟩ : ∃ d, d = if 1 ≤ factor g then 1 else 1 / factor g := ⟨_, rfl⟩
  have hn0 : 0 < n := by rw [hn]; split_ifs <;> linarith
  have hd0 : 0 < d := by rw [hd]; split_ifs <;> positivity
  have hnd : n = factor g * d := by
    rw [hn, hd]; split_ifs
    · rw [mul_one]
    · field_simp
  rw [← hn, ← hd] at d2
  obtain ⟨c', e1, e2, e3, e4, e5, e6⟩ := transform_core (n0 := 1) (n1 := n * (2 * Real.pi * f / Q))
      (n2 := 2 * Real.pi * f * (2 * Real.pi * f)) (d1 := d * (2 * Real.pi * f / Q))
      (d2 := 2 * Real.pi * f * (2 * Real.pi * f)) hr h0.le h1 (by positivity) (by positivity)
  obtain rfl : c = c' := Option.some.inj (d2.symm.trans e1)
  have hp2 : ((2 * Real.pi * f * (2 * Real.pi * f) : ℝ) : ℂ) ≠ 0 := by exact_mod_cast (by positivity)
  refine ⟨c, d1, bilinear_valid hr h0.le h1 (by positivity) (by positivity) e1,
    ⟨e2, computeK f rate, ?_, e3.1, ?_⟩, ?_, ?_, ?_, ?_⟩
  · unfold Placed; rw [if_neg (by simp)]; exact computeK_matches hr h1
  · intro z hz
    rw [e3.2 z hz]
    unfold analog prototype
    dsimp only
    rw [hn, hd]
    split_ifs
    · push_cast
      congr 1 <;> ring
    · push_cast
      congr 1 <;> ring
  · intro _ ω
    rcases response_rel e5 e6 ω with ⟨a, b⟩ | ⟨a, b⟩
    · rw [a, Complex.ofReal_one]; exact one_ne_zero
    · rw [b, analog_eq]
      exact div_ne_zero (quad_ne_zero (by positivity) (by positivity) _) (quad_ne_zero (by positivity) (by positivity) _)
  · rw [e4]; exact div_self hp2
  · rw [e5]; norm_num
  · intro hm
    dsimp only at hm ⊢
    rw [match_response hr hm h1 e6, analog_eq, quad_mul_I, quad_mul_I]
    have z1 : 2 * Real.pi * f * (2 * Real.pi * f) - 1 * (2 * Real.pi * f) ^ 2 = 0 := by ring
    rw [z1, hnd]
    have hx : ((2 * Real.pi * f / Q : ℝ) : ℂ) ≠ 0 := by exact_mod_cast (by positivity)
    have hy : ((2 * Real.pi * f : ℝ) : ℂ) ≠ 0 := by exact_mod_cast hw.ne'
    have hz : (d : ℂ) ≠ 0 := by exact_mod_cast hd0.ne'
    have : ((0 : ℝ) : ℂ) + ((factor g * d * (2 * Real.pi * f / Q) * (2 * Real.pi * f) : ℝ) : ℂ) * Complex.I =
        (factor g : ℂ) * (((0 : ℝ) : ℂ) + ((d * (2 * Real.pi * f / Q) * (2 * Real.pi * f) : ℝ) : ℂ) * Complex.I) := by
      push_cast; ring
    rw [this, mul_div_assoc, div_self, mul_one, Complex.norm_real, Real.norm_of_nonneg hG.le]
    rw [Complex.ofReal_zero, zero_add]
    refine mul_ne_zero ?_ Complex.I_ne_zero
    exact_mod_cast (by positivity : d * (2 * Real.pi * f / Q) * (2 * Real.pi * f) ≠ 0)

theorem design_known {rate : ℝ} {s : Band} (h : BandOk rate s) :
    ∃ c, design rate s = some c ∧ Known rate s c := by
  obtain ⟨k, f, Q, g⟩ := s
  cases k with
  | lowpass => exact known_lowpass h
  | lowShelf => exact known_lowShelf h
  | peak => exact known_peak h
  | highShelf => exact known_highShelf h
  | highpass => exact known_highpass h

theorem design_reject {rate : ℝ} {s : Band} (h : ¬ BandOk rate s) : design rate s = none := by
  obtain ⟨k, f, Q, g⟩ := s
  have hn : ¬ argumentsOk rate f Q := fun ⟨a, b, c⟩ => h ⟨b, a, c⟩
  cases k with
  | lowpass => unfold design lowpass; rw [if_neg hn]
  | lowShelf => unfold design lowShelf; rw [if_neg fun a => hn a.1]
  | peak =>
    unfold design parametricPeakSymmetric parametricPeak
    dsimp only
    refine if_neg fun h2 => ?_
    obtain ⟨⟨a, b, c⟩, -⟩ := h2
    refine hn ⟨a, b, ?_⟩
    split_ifs at c
    · exact (mul_pos_iff_of_pos_right (factor_pos g)).1 c
    · exact c
  | highShelf => unfold design highShelf; rw [if_neg fun a => hn a.1]
  | highpass => unfold design highpass; rw [if_neg hn]

end Verif.ParametricEqualizer
