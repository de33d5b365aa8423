import Verif.Proof.PoleZero4
import Verif.Theorems.PoleZero

/-!
# The four designs of a prototype with at most one real root
-/

namespace Verif.PoleZero
open Verif.BiquadCascade Verif.FilterDesign Verif.LinearFilter.Spec Spec
open scoped ComplexConjugate

/-- The paired pole is far enough from the real axis. -/
def Margin (p : ℂ) : Prop := 12 / 10 ^ 11 < (1 + p.re / ‖p‖) / 2

/-- What the designs need of a prototype: at most one real pole, no real zeros, zeros on the imaginary axis. -/
structure Regular (f : PZ) : Prop where
  proto : Prototype f
  lone : f.lonePoles.length ≤ 1
  noLone : f.loneZeros = []
  zerosIm : ∀ z ∈ f.pairedZeros, z.re = 0
  margin : ∀ p ∈ f.pairedPoles, Margin p
  poles : 0 < f.polesDegree

theorem margin_bound {K w : ℝ} (hK : 0 < K) (hw : 0 ≤ w) {p : ℂ} (hp : p.re < 0) :
    (1 + p.re / ‖p‖) / 2 ≤ Complex.normSq (((K : ℂ) + w * p) / (K - w * p)) := by
  have hp0 : p ≠ 0 := by rintro rfl; simp at hp
  have hn : 0 < ‖p‖ := norm_pos_iff.2 hp0
  have hcs : (p.re / ‖p‖) ^ 2 + (p.im / ‖p‖) ^ 2 = 1 := by
    rw [div_pow, div_pow, ← add_div, ← Complex.normSq_eq_norm_sq, Complex.normSq_apply, ← pow_two, ← pow_two]
    have : p.re ^ 2 + p.im ^ 2 ≠ 0 := by
      have := Complex.normSq_pos.2 hp0
      rw [Complex.normSq_apply, ← pow_two, ← pow_two] at this
      exact this.ne'
    exact div_self this
  have h := digital_pole_bound hK (mul_nonneg hw hn.le) (div_neg_of_neg_of_pos hp hn) hcs
  have e : ((w * ‖p‖ : ℝ) : ℂ) * (⟨p.re / ‖p‖, p.im / ‖p‖⟩ : ℂ) = w * p := by
    apply Complex.ext
    · simp; field_simp
    · simp; field_simp
  rwa [e] at h

theorem margin_low {K w : ℝ} (hK : 0 < K) (hw : 0 ≤ w) {p : ℂ} (hp : p.re < 0) (hm : Margin p) :
    (1 / 10 ^ 10 : ℝ) < Complex.normSq (((K : ℂ) + w * p) / (K - w * p)) := by
  have := margin_bound hK hw hp
  unfold Margin at hm
  norm_num at *
  linarith

theorem margin_high {K w : ℝ} (hK : 0 < K) (hw : 0 ≤ w) {p : ℂ} (hp : p.re < 0) (hm : Margin p) :
    (1 / 10 ^ 10 : ℝ) < Complex.normSq (((K : ℂ) + w / p) / (K - w / p)) := by
  have hp0 : p ≠ 0 := by rintro rfl; simp at hp
  have e : (w : ℂ) / p = ((w / Complex.normSq p : ℝ) : ℂ) * conj p := by
    have h1 : p * conj p = (Complex.normSq p : ℂ) := Complex.mul_conj p
    have h2 : (Complex.normSq p : ℂ) ≠ 0 := by exact_mod_cast (Complex.normSq_pos.2 hp0).ne'
    push_cast
    field_simp
    rw [mul_assoc, h1]
  rw [e]
  exact margin_low hK (div_nonneg hw (Complex.normSq_nonneg _)) (by simpa using hp) (by
    unfold Margin at hm ⊢
    rwa [Complex.conj_re, RCLike.norm_conj])

/-- Imaginary zeros go to the unit circle. -/
theorem unit_zero {K : ℝ} (hK : 0 < K) {z : ℂ} (hz : z.re = 0) :
    (1 / 10 ^ 10 : ℝ) < Complex.normSq (((K : ℂ) + z) / (K - z)) := by
  have h1 : Complex.normSq ((K : ℂ) + z) = Complex.normSq (K - z) := by
    rw [Complex.normSq_apply, Complex.normSq_apply]
    simp [hz]
  have h2 : 0 < Complex.normSq (K - z) := by
    apply Complex.normSq_pos.2
    intro h
    have := congrArg Complex.re h
    simp [hz] at this
    linarith
  rw [Complex.normSq_div, h1, div_self h2.ne']
  norm_num

theorem bilinear_balanced {f : PZ} (h : 0 ≤ f.relativeDegree) (K : ℝ) :
    (f.bilinear K).zerosDegree = (f.bilinear K).polesDegree := by
  unfold PZ.relativeDegree PZ.polesDegree PZ.zerosDegree at *
  simp only [PZ.bilinear, List.length_append, List.length_map, List.length_replicate, PZ.relativeDegree,
    PZ.polesDegree, PZ.zerosDegree]
  omega

/-- The digital filter of a regular prototype: it gets as many stages as it has paired and lone poles. -/
theorem bilinear_coefficients {f : PZ} {K : ℝ} (hK : 0 < K) (hd : 0 ≤ f.relativeDegree) (hlp : f.lonePoles.length ≤ 1)
    (hlz : ∀ r ∈ f.loneZeros, r = 0) (hpz : ∀ z ∈ f.pairedZeros, z.re = 0) (hpos : 0 < f.polesDegree)
    (hl : ∀ p ∈ f.lonePoles, p < 0) (hp : ∀ p ∈ f.pairedPoles, p.re < 0)
    (hm : ∀ p ∈ f.pairedPoles, (1 / 10 ^ 10 : ℝ) < Complex.normSq (((K : ℂ) + p) / (K - p))) :
    ∃ cs, (f.bilinear K).getCoefficients (1 / 10 ^ 10) = some cs ∧
      cs.length = f.pairedPoles.length + f.lonePoles.length ∧
      (∀ z : ℂ, z ≠ 0 → evalCascade Complex.ofRealHom cs z = digitalSystem (f.bilinear K) z) ∧
      ∀ s ∈ cs, ∀ z, StagePole s z → ‖z‖ < 1 := by
  have hne : 0 < (f.bilinear K).polesDegree := by
    simpa [PZ.bilinear, PZ.polesDegree] using hpos
  obtain ⟨cs, h1, h2, h3, h4⟩ := balanced_coefficients (ε := 1 / 10 ^ 10) (by norm_num) (by norm_num) (f.bilinear K)
    (by simpa [PZ.bilinear] using hlp) (bilinear_balanced hd K)
    (by
      intro q hq
      obtain ⟨p, hp', rfl⟩ := List.mem_map.1 hq
      exact hm p hp')
    (by
      intro q hq
      obtain ⟨p, hp', rfl⟩ := List.mem_map.1 hq
      exact unit_zero hK (hpz p hp'))
    (by
      intro r hr
      rcases List.mem_append.1 hr with hr | hr
      · obtain ⟨p, hp', rfl⟩ := List.mem_map.1 hr
        rw [hlz p hp', add_zero, sub_zero, div_self hK.ne', abs_one]
      · rw [List.eq_of_mem_replicate hr]
        simp) hne
  refine ⟨cs, h1, by simpa [PZ.bilinear] using h2, h3, fun s hs z hz => ?_⟩
  rcases h4 s hs z hz with rfl | h
  · simp
  · exact bilinear_poles hK hl hp z h

theorem lowpassAnalog_regular {f : PZ} (h : Regular f) {w : ℝ} :
    (lowpassAnalog f w).lonePoles.length = f.lonePoles.length ∧ (lowpassAnalog f w).loneZeros = [] ∧
      (∀ z ∈ (lowpassAnalog f w).pairedZeros, z.re = 0) ∧ 0 < (lowpassAnalog f w).polesDegree ∧
      (lowpassAnalog f w).pairedPoles.length = f.pairedPoles.length := by
  have hp := h.poles
  unfold PZ.polesDegree at hp
  refine ⟨by simp [lowpassAnalog, PZ.mapFrequency], by simp [lowpassAnalog, PZ.mapFrequency, h.noLone], ?_,
    by simpa [lowpassAnalog, PZ.mapFrequency, PZ.polesDegree] using hp, by simp [lowpassAnalog, PZ.mapFrequency]⟩
  intro z hz
  obtain ⟨p, hp', rfl⟩ := List.mem_map.1 hz
  simp [h.zerosIm p hp']

theorem half_range {rate corner : ℝ} (h0 : 0 < corner) (h : corner < rate / 2) :
    0 < corner / 2 ∧ corner / 2 < corner ∧ corner < rate / 2 := ⟨by linarith, by linarith, h⟩

/-- **Lowpass.** -/
theorem regular_lowpass {f : PZ} (h : Regular f) {rate corner : ℝ} (hr : 0 < rate) (h0 : 0 < corner)
    (hc : corner < rate / 2) :
    ∃ cs, lowpassCoefficients (1 / 10 ^ 10) f rate corner = some cs ∧
      cs.length = f.pairedPoles.length + f.lonePoles.length ∧ (∀ s ∈ cs, ∀ z, StagePole s z → ‖z‖ < 1) ∧
      ∀ z : ℂ, z ≠ 0 →
      (z ≠ -1 → evalCascade Complex.ofRealHom cs z
        = analogSystem f ((z - 1) / (z + 1) / Real.tan (Real.pi * corner / rate))) ∧
      (z = -1 → evalCascade Complex.ofRealHom cs z = if f.relativeDegree = 0 then (f.gain : ℂ) else 0) := by
  have hK := computeK_pos hr (le_refl 0) (by linarith)
  have hwp := prewarp_pos hr h0 hc
  obtain ⟨r1, r2, r3, r4, r5⟩ := lowpassAnalog_regular h (w := prewarp corner rate)
  obtain ⟨cs, c1, c2, c3, c4⟩ := bilinear_coefficients hK (by rw [lowpassAnalog_degree]; exact h.proto.degree)
    (by rw [r1]; exact h.lone) (by rw [r2]; simp) r3 r4
    (by
      intro q hq
      obtain ⟨p, hp, rfl⟩ := List.mem_map.1 hq
      have := h.proto.lonePoles p hp
      simp; exact mul_neg_of_pos_of_neg hwp this)
    (by
      intro q hq
      obtain ⟨p, hp, rfl⟩ := List.mem_map.1 hq
      have := h.proto.pairedPoles p hp
      simp; exact mul_neg_of_pos_of_neg hwp this)
    (by
      intro q hq
      obtain ⟨p, hp, rfl⟩ := List.mem_map.1 hq
      exact margin_low hK hwp.le (h.proto.pairedPoles p hp) (h.margin p hp))
  refine ⟨cs, ?_, by rw [c2, r5, r1], c4, fun z hz => ?_⟩
  · unfold lowpassCoefficients; rw [if_pos ⟨hr, h0.le, hc⟩, lowpassPZ_eq]; exact c1
  · rw [c3 z hz, ← lowpassPZ_eq, lowpassPZ_hom h.proto hr h0.le hc hz]
    have hw' : (prewarp corner rate : ℂ) ≠ 0 := by exact_mod_cast hwp.ne'
    refine ⟨fun h1 => ?_, ?_⟩
    · rw [hom_eq_analog f h.proto.degree _ _ (mul_ne_zero hw' (by rwa [Ne, add_eq_zero_iff_eq_neg])), prewarp_eq hr,
        ratio_low hr]
    · rintro rfl
      rw [neg_add_cancel, mul_zero]
      refine hom_infinity f _ ?_ h.proto.degree
      have : (computeK 0 rate : ℂ) ≠ 0 := by exact_mod_cast hK.ne'
      rw [show (computeK 0 rate : ℂ) * (-1 - 1) = -2 * computeK 0 rate by ring]
      exact mul_ne_zero (by norm_num) this

theorem div_imag {w : ℝ} {z : ℂ} (hz : z.re = 0) : ((w : ℂ) / z).re = 0 := by
  rw [Complex.div_re]; simp [hz]

theorem div_left {w : ℝ} (hw : 0 < w) {p : ℂ} (hp : p.re < 0) : ((w : ℂ) / p).re < 0 := by
  rw [Complex.div_re]
  have : 0 < Complex.normSq p := Complex.normSq_pos.2 (by rintro rfl; simp at hp)
  simp
  exact div_neg_of_neg_of_pos (mul_neg_of_pos_of_neg hw hp) this

theorem highpassAnalog_regular {f : PZ} (h : Regular f) {w : ℝ} :
    (highpassAnalog f w).lonePoles.length = f.lonePoles.length ∧ (∀ r ∈ (highpassAnalog f w).loneZeros, r = 0) ∧
      (∀ z ∈ (highpassAnalog f w).pairedZeros, z.re = 0) ∧ 0 < (highpassAnalog f w).polesDegree ∧
      (highpassAnalog f w).pairedPoles.length = f.pairedPoles.length := by
  have hp := h.poles
  unfold PZ.polesDegree at hp
  refine ⟨by simp [highpassAnalog, PZ.mapFrequency], ?_, ?_,
    by simpa [highpassAnalog, PZ.mapFrequency, PZ.polesDegree] using hp, by simp [highpassAnalog, PZ.mapFrequency]⟩
  · intro r hr
    simp [highpassAnalog, PZ.mapFrequency, h.noLone] at hr
    exact hr.2
  · intro z hz
    obtain ⟨p, hp', rfl⟩ := List.mem_map.1 hz
    exact div_imag (h.zerosIm p hp')

/-- **Highpass.** -/
theorem regular_highpass {f : PZ} (h : Regular f) {rate corner : ℝ} (hr : 0 < rate) (h0 : 0 < corner)
    (hc : corner < rate / 2) :
    ∃ cs, highpassCoefficients (1 / 10 ^ 10) f rate corner = some cs ∧
      cs.length = f.pairedPoles.length + f.lonePoles.length ∧ (∀ s ∈ cs, ∀ z, StagePole s z → ‖z‖ < 1) ∧
      ∀ z : ℂ, z ≠ 0 →
      (z ≠ 1 → evalCascade Complex.ofRealHom cs z
        = analogSystem f (Real.tan (Real.pi * corner / rate) * (z + 1) / (z - 1))) ∧
      (z = 1 → evalCascade Complex.ofRealHom cs z = if f.relativeDegree = 0 then (f.gain : ℂ) else 0) := by
  have hK := computeK_pos hr (le_refl 0) (by linarith)
  have hwp := prewarp_pos hr h0 hc
  obtain ⟨r1, r2, r3, r4, r5⟩ := highpassAnalog_regular h (w := prewarp corner rate)
  obtain ⟨cs, c1, c2, c3, c4⟩ := bilinear_coefficients hK (by rw [highpassAnalog_degree h.proto.degree])
    (by rw [r1]; exact h.lone) r2 r3 r4
    (by
      intro q hq
      obtain ⟨p, hp, rfl⟩ := List.mem_map.1 hq
      have := h.proto.lonePoles p hp
      exact div_left hwp (by simpa using this))
    (by
      intro q hq
      obtain ⟨p, hp, rfl⟩ := List.mem_map.1 hq
      exact div_left hwp (h.proto.pairedPoles p hp))
    (by
      intro q hq
      obtain ⟨p, hp, rfl⟩ := List.mem_map.1 hq
      exact margin_high hK hwp.le (h.proto.pairedPoles p hp) (h.margin p hp))
  refine ⟨cs, ?_, by rw [c2, r5, r1], c4, fun z hz => ?_⟩
  · unfold highpassCoefficients; rw [if_pos ⟨hr, h0.le, hc⟩, highpassPZ_eq]; exact c1
  · rw [c3 z hz, ← highpassPZ_eq, highpassPZ_hom h.proto hr h0.le hc hz]
    have hKc : (computeK 0 rate : ℂ) ≠ 0 := by exact_mod_cast hK.ne'
    have hw' : (prewarp corner rate : ℂ) ≠ 0 := by exact_mod_cast hwp.ne'
    refine ⟨fun h1 => ?_, ?_⟩
    · rw [hom_eq_analog f h.proto.degree _ _ (mul_ne_zero hKc (sub_ne_zero.2 h1)), prewarp_eq hr, ratio_high hr]
    · rintro rfl
      rw [sub_self, mul_zero]
      exact hom_infinity f _ (mul_ne_zero hw' (by norm_num)) h.proto.degree

end Verif.PoleZero
