import Verif.Proof.PoleZero5
import Verif.Spec.PoleZeroDesign

/-!
# Band designs of a prototype with at most one real root
-/

namespace Verif.PoleZero
open Verif.BiquadCascade Verif.FilterDesign Verif.LinearFilter.Spec Spec
open scoped ComplexConjugate

theorem Margin.scale {a : ℝ} (ha : 0 < a) {p : ℂ} (h : Margin p) : Margin ((a : ℂ) * p) := by
  unfold Margin at *
  rw [norm_mul, Complex.norm_real, Real.norm_eq_abs, abs_of_pos ha, Complex.re_ofReal_mul,
    mul_div_mul_left _ _ ha.ne']
  exact h

theorem Margin.inv {a : ℝ} (ha : 0 < a) {p : ℂ} (hp : p ≠ 0) (h : Margin p) : Margin ((a : ℂ) / p) := by
  have e : (a : ℂ) / p = ((a / Complex.normSq p : ℝ) : ℂ) * conj p := by
    have h1 : p * conj p = (Complex.normSq p : ℂ) := Complex.mul_conj p
    have h2 : (Complex.normSq p : ℂ) ≠ 0 := by exact_mod_cast (Complex.normSq_pos.2 hp).ne'
    push_cast
    field_simp
    rw [mul_assoc, h1]
  rw [e]
  apply Margin.scale (div_pos ha (Complex.normSq_pos.2 hp))
  unfold Margin at *
  rwa [Complex.conj_re, RCLike.norm_conj]

theorem not_margin {a : ℝ} (ha : 0 < a) {y : ℂ} (hy : ‖y - 1‖ ≤ 21 / 10 ^ 6) : ¬ Margin (-(a : ℂ) * y) := by
  have h1 : |y.re - 1| ≤ 21 / 10 ^ 6 := by
    have := Complex.abs_re_le_norm (y - 1)
    simp only [Complex.sub_re, Complex.one_re] at this
    linarith
  have h2 : |y.im| ≤ 21 / 10 ^ 6 := by
    have := Complex.abs_im_le_norm (y - 1)
    simp only [Complex.sub_im, Complex.one_im, sub_zero] at this
    linarith
  obtain ⟨h3, h4⟩ := abs_le.1 h1
  have h5 : y.im ^ 2 ≤ (21 / 10 ^ 6) ^ 2 := by
    rw [← sq_abs]
    exact pow_le_pow_left₀ (abs_nonneg _) h2 2
  have h6 : ‖y‖ ^ 2 = y.re ^ 2 + y.im ^ 2 := by
    rw [← Complex.normSq_eq_norm_sq, Complex.normSq_apply]; ring
  have h7 : y.re ≤ ‖y‖ := (le_abs_self _).trans (Complex.abs_re_le_norm y)
  unfold Margin
  rw [← Complex.ofReal_neg, norm_mul, Complex.norm_real, Real.norm_eq_abs, abs_neg, abs_of_pos ha,
    Complex.re_ofReal_mul, neg_mul, neg_div, mul_div_mul_left _ _ ha.ne', not_lt]
  have hpos : 0 < ‖y‖ := by linarith
  have h8 : (‖y‖ - y.re) * (‖y‖ + y.re) ≤ (21 / 10 ^ 6) ^ 2 := by nlinarith
  have h9 : ‖y‖ - y.re ≤ 24 / 10 ^ 11 * ‖y‖ := by
    by_contra hc
    push Not at hc
    have : 24 / 10 ^ 11 * ‖y‖ * (‖y‖ + y.re) < (‖y‖ - y.re) * (‖y‖ + y.re) :=
      mul_lt_mul_of_pos_right hc (by linarith)
    nlinarith
  have h10 : 1 - y.re / ‖y‖ ≤ 24 / 10 ^ 11 := by
    rw [show 1 - y.re / ‖y‖ = (‖y‖ - y.re) / ‖y‖ by field_simp, div_le_iff₀ hpos]
    exact h9
  linarith

theorem band_margin {K c : ℝ} (hK : 0 < K) (hc : 0 < c) {q v : ℂ} (hq : q.re < 0) (hm : Margin q)
    (h : v ^ 2 - 2 * q * v + (c * c : ℝ) = 0) : (1 / 10 ^ 10 : ℝ) < Complex.normSq (((K : ℂ) + v) / (K - v)) := by
  have hv := quad_re hq (mul_pos hc hc) h
  have hKv : (K : ℂ) - v ≠ 0 := by
    intro h0
    have := congrArg Complex.re h0
    simp at this
    linarith
  by_contra hx
  push Not at hx
  obtain ⟨x, hxd⟩ : ∃ x, x = ((K : ℂ) + v) / (K - v) := ⟨_, rfl⟩
  rw [← hxd, Complex.normSq_eq_norm_sq] at hx
  have hxn : ‖x‖ ≤ 1 / 10 ^ 5 := by
    have : ‖x‖ ^ 2 ≤ (1 / 10 ^ 5) ^ 2 := by norm_num at hx ⊢; linarith
    exact le_of_sq_le_sq this (by norm_num)
  have hxv : x * (K - v) = K + v := by rw [hxd, div_mul_cancel₀ _ hKv]
  have hD : 0 < K ^ 2 + c ^ 2 := by positivity
  have hx2 : ‖x ^ 2‖ ≤ (1 / 10 ^ 5) ^ 2 := by
    rw [norm_pow]; exact pow_le_pow_left₀ (norm_nonneg _) hxn 2
  have h1x : 1 - (1 / 10 ^ 5) ^ 2 ≤ ‖1 - x ^ 2‖ := by
    have := norm_sub_norm_le (1 : ℂ) (x ^ 2)
    rw [norm_one] at this
    linarith
  have hne : 1 - x ^ 2 ≠ 0 := by
    rw [← norm_pos_iff]
    exact lt_of_lt_of_le (by norm_num) h1x
  have h1xne : 1 + x ≠ 0 := by
    intro h0
    apply hne
    linear_combination (1 - x) * h0
  obtain ⟨c', hc'⟩ : ∃ c' : ℝ, c' = (c ^ 2 - K ^ 2) / (K ^ 2 + c ^ 2) := ⟨_, rfl⟩
  have hc1 : |c'| ≤ 1 := by
    rw [hc', abs_div, abs_of_pos hD, div_le_one hD, abs_le]
    constructor <;> nlinarith [pow_pos hK 2, pow_pos hc 2]
  obtain ⟨y, hy⟩ : ∃ y, y = (1 + x ^ 2 + 2 * (c' : ℂ) * x) / (1 - x ^ 2) := ⟨_, rfl⟩
  have hy1 : ‖y - 1‖ ≤ 21 / 10 ^ 6 := by
    have e : y - 1 = 2 * x * (c' + x) / (1 - x ^ 2) := by
      rw [hy]; field_simp; ring
    rw [e, norm_div, norm_mul, norm_mul, Complex.norm_ofNat]
    have h2 : ‖(c' : ℂ) + x‖ ≤ 1 + 1 / 10 ^ 5 := by
      refine (norm_add_le _ _).trans ?_
      rw [Complex.norm_real, Real.norm_eq_abs]
      linarith
    rw [div_le_iff₀ (lt_of_lt_of_le (by norm_num) h1x)]
    have h3 : 2 * ‖x‖ * ‖(c' : ℂ) + x‖ ≤ 2 * (1 / 10 ^ 5) * (1 + 1 / 10 ^ 5) := by
      apply mul_le_mul _ h2 (norm_nonneg _) (by norm_num)
      linarith
    have h4 : (21 / 10 ^ 6 : ℝ) * (1 - (1 / 10 ^ 5) ^ 2) ≤ 21 / 10 ^ 6 * ‖1 - x ^ 2‖ :=
      mul_le_mul_of_nonneg_left h1x (by norm_num)
    refine h3.trans (le_trans ?_ h4)
    norm_num
  refine not_margin (a := (K ^ 2 + c ^ 2) / (2 * K)) (by positivity) hy1 ?_
  have hq' : -(((K ^ 2 + c ^ 2) / (2 * K) : ℝ) : ℂ) * y = q := by
    have hKc : (K : ℂ) ≠ 0 := by exact_mod_cast hK.ne'
    have hDc : (K : ℂ) ^ 2 + (c : ℂ) ^ 2 ≠ 0 := by exact_mod_cast hD.ne'
    have hv' : v = K * (x - 1) / (1 + x) := by
      rw [eq_div_iff h1xne]
      linear_combination -hxv
    rw [hv'] at h
    rw [hy, hc']
    push_cast at h ⊢
    field_simp at h ⊢
    linear_combination -h
  rwa [hq']

/-- The digital pole of a real root: a real root far from the value that goes to 0. -/
theorem lone_band {K c q : ℝ} (h : q * q ≤ c * c) :
    Complex.normSq (((K : ℂ) + ((q : ℂ) + csqrt ((q * q - c * c : ℝ) : ℂ))) / (K - ((q : ℂ) + csqrt ((q * q - c * c : ℝ) : ℂ))))
      = (K ^ 2 + 2 * K * q + c ^ 2) / (K ^ 2 - 2 * K * q + c ^ 2) := by
  have e : q * q - c * c = -(c * c - q * q) := by ring
  rw [e, csqrt_neg (by linarith)]
  have hs : √(c * c - q * q) * √(c * c - q * q) = c * c - q * q := Real.mul_self_sqrt (by linarith)
  rw [Complex.normSq_div, Complex.normSq_apply, Complex.normSq_apply]
  simp only [Complex.add_re, Complex.add_im, Complex.sub_re, Complex.sub_im, Complex.ofReal_re, Complex.ofReal_im,
    Complex.mul_re, Complex.mul_im, Complex.I_re, Complex.I_im]
  congr 1
  · linear_combination hs
  · linear_combination hs

/-- Imaginary roots stay on the imaginary axis. -/
theorem shift_imag {c : ℝ} {z q : ℂ} (hz : z.re = 0)
    (hq : q ∈ [z + csqrt (z * z - (c * c : ℝ)), z - csqrt (z * z - (c * c : ℝ))]) : q.re = 0 := by
  have e : z * z - (c * c : ℝ) = ((-(z.im * z.im + c * c) : ℝ) : ℂ) := by
    apply Complex.ext
    · simp [hz]; ring
    · simp [hz]
  rw [e, csqrt_neg (by nlinarith [mul_self_nonneg z.im, mul_self_nonneg c])] at hq
  simp only [List.mem_cons, List.not_mem_nil, or_false] at hq
  rcases hq with rfl | rfl <;> simp [hz]

theorem shift_pole_bound {K c : ℝ} (hK : 0 < K) (hc : 0 < c) {lone : List ℝ} {paired : List ℂ} {v : ℂ}
    (h : v ∈ (lone.map fun p : ℝ => (p : ℂ) + csqrt ((p * p - c * c : ℝ) : ℂ)) ++
        paired.flatMap fun p => [p + csqrt (p * p - (c * c : ℝ)), p - csqrt (p * p - (c * c : ℝ))])
    (h1 : ∀ q ∈ lone, q * q ≤ c * c ∧ 1 / 10 ^ 10 < (K ^ 2 + 2 * K * q + c ^ 2) / (K ^ 2 - 2 * K * q + c ^ 2))
    (h2 : ∀ q ∈ paired, q.re < 0 ∧ Margin q) :
    (1 / 10 ^ 10 : ℝ) < Complex.normSq (((K : ℂ) + v) / (K - v)) := by
  rcases List.mem_append.1 h with hl | hp
  · obtain ⟨p, hp, rfl⟩ := List.mem_map.1 hl
    obtain ⟨a, b⟩ := h1 p hp
    rw [lone_band a]
    exact b
  · obtain ⟨p, hp', hv⟩ := List.mem_flatMap.1 hp
    obtain ⟨a, b⟩ := h2 p hp'
    apply band_margin hK hc a b
    have := csqrt_sq (p * p - (c * c : ℝ))
    generalize csqrt (p * p - (c * c : ℝ)) = s at *
    simp only [List.mem_cons, List.not_mem_nil, or_false] at hv
    rcases hv with rfl | rfl <;> linear_combination this

theorem bandClear_scale {K t1 t2 β : ℝ} (hK : 0 < K) (ht : 0 ≤ t2 * t1) (h : BandClear t1 t2 β) :
    K * β / 2 * (K * β / 2) ≤ √(K * t2 * (K * t1)) * √(K * t2 * (K * t1)) ∧
    1 / 10 ^ 10 < (K ^ 2 + 2 * K * (K * β / 2) + √(K * t2 * (K * t1)) ^ 2) /
      (K ^ 2 - 2 * K * (K * β / 2) + √(K * t2 * (K * t1)) ^ 2) := by
  have hs : √(K * t2 * (K * t1)) * √(K * t2 * (K * t1)) = K ^ 2 * (t2 * t1) := by
    rw [Real.mul_self_sqrt (by have := mul_nonneg (sq_nonneg K) ht; nlinarith)]
    ring
  obtain ⟨h1, h2⟩ := h
  have hK2 := pow_pos hK 2
  constructor
  · rw [hs]
    nlinarith
  · rw [pow_two (√_), hs]
    have e1 : K ^ 2 + 2 * K * (K * β / 2) + K ^ 2 * (t2 * t1) = K ^ 2 * (1 + t2 * t1 + β) := by ring
    have e2 : K ^ 2 - 2 * K * (K * β / 2) + K ^ 2 * (t2 * t1) = K ^ 2 * (1 + t2 * t1 - β) := by ring
    rw [e1, e2, mul_div_mul_left _ _ hK2.ne']
    exact h2

theorem flatMap_two_length (l : List ℂ) (a b : ℂ → ℂ) : (l.flatMap fun p => [a p, b p]).length = 2 * l.length := by
  induction l with
  | nil => rfl
  | cons p l ih => rw [List.flatMap_cons, List.length_append, ih]; simp; omega

/-- **Bandpass.** -/
theorem regular_bandpass {f : PZ} (h : Regular f) {rate low high : ℝ} (hr : 0 < rate) (h0 : 0 < low)
    (hlh : low < high) (hh : high < rate / 2) (t1 t2 : ℝ) (ht1 : t1 = Real.tan (Real.pi * low / rate))
    (ht2 : t2 = Real.tan (Real.pi * high / rate)) (hlone : ∀ p ∈ f.lonePoles, BandClear t1 t2 ((t2 - t1) * p)) :
    ∃ cs, bandpassCoefficients (1 / 10 ^ 10) f rate low high = some cs ∧
      cs.length = f.polesDegree ∧ (∀ s ∈ cs, ∀ z, StagePole s z → ‖z‖ < 1) ∧
      ∀ z s : ℂ, z ≠ 0 → z ≠ -1 → z ≠ 1 → s = (z - 1) / (z + 1) →
        evalCascade Complex.ofRealHom cs z = analogSystem f ((s ^ 2 + t1 * t2) / ((t2 - t1) * s)) := by
  obtain ⟨hw1, hw12⟩ := band_conditions hr h0 hlh hh
  have hKp := computeK_pos hr (le_refl 0) (by linarith)
  have hc : 0 < √(prewarp high rate * prewarp low rate) := Real.sqrt_pos.2 (mul_pos (hw1.trans hw12) hw1)
  have hp := h.poles
  unfold PZ.polesDegree at hp
  have ht1' := ht1.symm
  have ht2' := ht2.symm
  clear ht1 ht2
  simp only [prewarp_eq hr low, prewarp_eq hr high, ht1', ht2'] at hw1 hw12 hc
  have ht1p : 0 < t1 := by
    rcases mul_pos_iff.1 hw1 with ⟨_, h⟩ | ⟨h, _⟩
    · exact h
    · linarith
  have ht12 : t1 < t2 := lt_of_mul_lt_mul_left hw12 hKp.le
  have htt : 0 ≤ t2 * t1 := (mul_pos (ht1p.trans ht12) ht1p).le
  obtain ⟨cs, c1, c2, c3, c4⟩ := bilinear_coefficients (f := bandpassAnalog f (computeK 0 rate * t1) (computeK 0 rate * t2)) hKp
    (by rw [bandpassAnalog_degree h.proto.degree]; exact h.proto.degree) (by simp [bandpassAnalog, PZ.shift])
    (by
      intro r hr'
      simp [bandpassAnalog, PZ.shift] at hr'
      exact hr'.2)
    (by
      intro z hz
      simp only [bandpassAnalog, PZ.shift, PZ.mapFrequency, h.noLone, List.map_nil, List.nil_append] at hz
      obtain ⟨z', hz', hzz⟩ := List.mem_flatMap.1 hz
      obtain ⟨p, hp', rfl⟩ := List.mem_map.1 hz'
      refine shift_imag ?_ hzz
      have : ((computeK 0 rate * t2 - computeK 0 rate * t1 : ℝ) : ℂ) * p / 2
          = (((computeK 0 rate * t2 - computeK 0 rate * t1) / 2 : ℝ) : ℂ) * p := by push_cast; ring
      rw [this, Complex.re_ofReal_mul, h.zerosIm p hp', mul_zero])
    (by
      simp only [bandpassAnalog, PZ.shift, PZ.mapFrequency, PZ.polesDegree, List.length_append, List.length_map,
        List.length_nil, flatMap_two_length]
      omega)
    (by intro p hp'; exact absurd hp' List.not_mem_nil)
    (by
      intro v hv
      obtain ⟨r, hr', e⟩ := shift_mem hv
      refine quad_re ?_ (mul_pos hc hc) e
      have hB : (0 : ℝ) < (computeK 0 rate * t2 - computeK 0 rate * t1) / 2 := by linarith
      have hre : ∀ p : ℂ, p.re < 0 → (((computeK 0 rate * t2 - computeK 0 rate * t1 : ℝ) : ℂ) * p / 2).re < 0 := by
        intro p hp'
        rw [show ((computeK 0 rate * t2 - computeK 0 rate * t1 : ℝ) : ℂ) * p / 2
          = (((computeK 0 rate * t2 - computeK 0 rate * t1) / 2 : ℝ) : ℂ) * p by push_cast; ring, Complex.re_ofReal_mul]
        exact mul_neg_of_pos_of_neg hB hp'
      rcases hr' with ⟨q, hq, rfl⟩ | hq
      · obtain ⟨q', hq', rfl⟩ := List.mem_map.1 hq
        rw [Complex.ofReal_re]
        exact hre _ (by simpa using h.proto.lonePoles q' hq')
      · obtain ⟨q', hq', rfl⟩ := List.mem_map.1 hq
        exact hre _ (h.proto.pairedPoles q' hq'))
    (by
      intro v hv
      have hB : (0 : ℝ) < (computeK 0 rate * t2 - computeK 0 rate * t1) / 2 := by linarith
      refine shift_pole_bound hKp hc hv ?_ ?_
      · intro q hq
        obtain ⟨q', hq', rfl⟩ := List.mem_map.1 hq
        have := bandClear_scale hKp htt (hlone q' hq')
        have e : (((computeK 0 rate * t2 - computeK 0 rate * t1 : ℝ) : ℂ) * (q' : ℂ) / 2).re
            = computeK 0 rate * ((t2 - t1) * q') / 2 := by
          rw [show ((computeK 0 rate * t2 - computeK 0 rate * t1 : ℝ) : ℂ) * (q' : ℂ) / 2
            = ((computeK 0 rate * ((t2 - t1) * q') / 2 : ℝ) : ℂ) by push_cast; ring, Complex.ofReal_re]
        rw [e]
        exact this
      · intro q hq
        obtain ⟨p, hp', rfl⟩ := List.mem_map.1 hq
        rw [show ((computeK 0 rate * t2 - computeK 0 rate * t1 : ℝ) : ℂ) * p / 2
          = (((computeK 0 rate * t2 - computeK 0 rate * t1) / 2 : ℝ) : ℂ) * p by push_cast; ring]
        refine ⟨?_, Margin.scale hB (h.margin p hp')⟩
        rw [Complex.re_ofReal_mul]
        exact mul_neg_of_pos_of_neg hB (h.proto.pairedPoles p hp'))
  refine ⟨cs, ?_, ?_, c4, fun z s hz hz1 hz2 hs => ?_⟩
  · unfold bandpassCoefficients
    rw [if_pos ⟨hr, h0.le, hlh, hh⟩, bandpassPZ_eq, prewarp_eq hr low, prewarp_eq hr high, ht1', ht2']
    exact c1
  · rw [c2]
    simp only [bandpassAnalog, PZ.shift, PZ.mapFrequency, PZ.polesDegree, List.length_append, List.length_map,
        List.length_nil, flatMap_two_length]
    omega
  · rw [c3 z hz, bilinear_hom (bandpassAnalog_proper h.proto hw1.le hw12 hKp) z hz]
    rw [bandpassAnalog_hom h.proto.degree (by nlinarith) (fun p hp' => scale_condition hKp (hlone p hp').1)
      (by rw [h.noLone]; simp)]
    have hK : (computeK 0 rate : ℂ) ≠ 0 := by exact_mod_cast hKp.ne'
    have hd : (((computeK 0 rate * t2 - computeK 0 rate * t1 : ℝ)) : ℂ) ≠ 0 := by
      exact_mod_cast (sub_pos.2 hw12).ne'
    have hz1' : z + 1 ≠ 0 := by rwa [Ne, add_eq_zero_iff_eq_neg]
    have hz2' : z - 1 ≠ 0 := sub_ne_zero.2 hz2
    rw [hom_eq_analog f h.proto.degree _ _ (mul_ne_zero (mul_ne_zero hd (mul_ne_zero hK hz2')) hz1')]
    congr 1
    have hd' : (t2 : ℂ) - t1 ≠ 0 := by
      intro h'; apply hd; push_cast; rw [← mul_sub, h', mul_zero]
    subst hs
    push_cast
    rw [← mul_sub]
    field_simp

/-- **Bandstop.** -/
theorem regular_bandstop {f : PZ} (h : Regular f) {rate low high : ℝ} (hr : 0 < rate) (h0 : 0 < low)
    (hlh : low < high) (hh : high < rate / 2) (t1 t2 : ℝ) (ht1 : t1 = Real.tan (Real.pi * low / rate))
    (ht2 : t2 = Real.tan (Real.pi * high / rate)) (hlone : ∀ p ∈ f.lonePoles, BandClear t1 t2 ((t2 - t1) / p)) :
    ∃ cs, bandstopCoefficients (1 / 10 ^ 10) f rate low high = some cs ∧
      cs.length = f.polesDegree ∧ (∀ s ∈ cs, ∀ z, StagePole s z → ‖z‖ < 1) ∧
      ∀ z s : ℂ, z ≠ 0 → z ≠ -1 → s = (z - 1) / (z + 1) → s ^ 2 + t1 * t2 ≠ 0 →
        evalCascade Complex.ofRealHom cs z = analogSystem f ((t2 - t1) * s / (s ^ 2 + t1 * t2)) := by
  obtain ⟨hw1, hw12⟩ := band_conditions hr h0 hlh hh
  have hKp := computeK_pos hr (le_refl 0) (by linarith)
  have hc : 0 < √(prewarp high rate * prewarp low rate) := Real.sqrt_pos.2 (mul_pos (hw1.trans hw12) hw1)
  have hp := h.poles
  unfold PZ.polesDegree at hp
  have ht1' := ht1.symm
  have ht2' := ht2.symm
  clear ht1 ht2
  simp only [prewarp_eq hr low, prewarp_eq hr high, ht1', ht2'] at hw1 hw12 hc
  have ht1p : 0 < t1 := by
    rcases mul_pos_iff.1 hw1 with ⟨_, h⟩ | ⟨h, _⟩
    · exact h
    · linarith
  have ht12 : t1 < t2 := lt_of_mul_lt_mul_left hw12 hKp.le
  have htt : 0 ≤ t2 * t1 := (mul_pos (ht1p.trans ht12) ht1p).le
  obtain ⟨cs, c1, c2, c3, c4⟩ := bilinear_coefficients (f := bandstopAnalog f (computeK 0 rate * t1) (computeK 0 rate * t2)) hKp
    (by rw [bandstopAnalog_degree h.proto.degree]) (by simp [bandstopAnalog, PZ.shift])
    (by
      intro r hr'
      simp [bandstopAnalog, PZ.shift, PZ.mapFrequency, h.noLone] at hr')
    (by
      intro z hz
      simp only [bandstopAnalog, PZ.shift, PZ.mapFrequency, h.noLone, List.map_nil, List.nil_append] at hz
      rcases List.mem_append.1 hz with hz | hz
      · obtain ⟨z', hz', hzz⟩ := List.mem_flatMap.1 hz
        obtain ⟨p, hp', rfl⟩ := List.mem_map.1 hz'
        refine shift_imag ?_ hzz
        have : ((computeK 0 rate * t2 - computeK 0 rate * t1 : ℝ) : ℂ) / p / 2
            = (((computeK 0 rate * t2 - computeK 0 rate * t1) / 2 : ℝ) : ℂ) / p := by push_cast; ring
        rw [this]
        exact div_imag (h.zerosIm p hp')
      · rw [List.eq_of_mem_replicate hz])
    (by
      simp only [bandstopAnalog, PZ.shift, PZ.mapFrequency, PZ.polesDegree, List.length_append, List.length_map,
        List.length_nil, flatMap_two_length]
      omega)
    (by intro p hp'; exact absurd hp' List.not_mem_nil)
    (by
      intro v hv
      obtain ⟨r, hr', e⟩ := shift_mem hv
      refine quad_re ?_ (mul_pos hc hc) e
      have hB : (0 : ℝ) < (computeK 0 rate * t2 - computeK 0 rate * t1) / 2 := by linarith
      have hre : ∀ p : ℂ, p.re < 0 → (((computeK 0 rate * t2 - computeK 0 rate * t1 : ℝ) : ℂ) / p / 2).re < 0 := by
        intro p hp'
        rw [show ((computeK 0 rate * t2 - computeK 0 rate * t1 : ℝ) : ℂ) / p / 2
          = (((computeK 0 rate * t2 - computeK 0 rate * t1) / 2 : ℝ) : ℂ) / p by push_cast; ring]
        exact div_left hB hp'
      rcases hr' with ⟨q, hq, rfl⟩ | hq
      · obtain ⟨q', hq', rfl⟩ := List.mem_map.1 hq
        rw [Complex.ofReal_re]
        exact hre _ (by simpa using h.proto.lonePoles q' hq')
      · obtain ⟨q', hq', rfl⟩ := List.mem_map.1 hq
        exact hre _ (h.proto.pairedPoles q' hq'))
    (by
      intro v hv
      have hB : (0 : ℝ) < (computeK 0 rate * t2 - computeK 0 rate * t1) / 2 := by linarith
      refine shift_pole_bound hKp hc hv ?_ ?_
      · intro q hq
        obtain ⟨q', hq', rfl⟩ := List.mem_map.1 hq
        have := bandClear_scale hKp htt (hlone q' hq')
        have e : (((computeK 0 rate * t2 - computeK 0 rate * t1 : ℝ) : ℂ) / (q' : ℂ) / 2).re
            = computeK 0 rate * ((t2 - t1) / q') / 2 := by
          rw [show ((computeK 0 rate * t2 - computeK 0 rate * t1 : ℝ) : ℂ) / (q' : ℂ) / 2
            = ((computeK 0 rate * ((t2 - t1) / q') / 2 : ℝ) : ℂ) by push_cast; ring, Complex.ofReal_re]
        rw [e]
        exact this
      · intro q hq
        obtain ⟨p, hp', rfl⟩ := List.mem_map.1 hq
        have hp0 : p ≠ 0 := by
          rintro rfl
          have := h.proto.pairedPoles 0 hp'
          simp at this
        rw [show ((computeK 0 rate * t2 - computeK 0 rate * t1 : ℝ) : ℂ) / p / 2
          = (((computeK 0 rate * t2 - computeK 0 rate * t1) / 2 : ℝ) : ℂ) / p by push_cast; ring]
        exact ⟨div_left hB (h.proto.pairedPoles p hp'), Margin.inv hB hp0 (h.margin p hp')⟩)
  refine ⟨cs, ?_, ?_, c4, fun z s hz hz1 hs hne => ?_⟩
  · unfold bandstopCoefficients
    rw [if_pos ⟨hr, h0.le, hlh, hh⟩, bandstopPZ_eq, prewarp_eq hr low, prewarp_eq hr high, ht1', ht2']
    exact c1
  · rw [c2]
    simp only [bandstopAnalog, PZ.shift, PZ.mapFrequency, PZ.polesDegree, List.length_append, List.length_map,
        List.length_nil, flatMap_two_length]
    omega
  · rw [c3 z hz, bilinear_hom (bandstopAnalog_proper h.proto hw1.le hw12 hKp) z hz]
    have sc : ∀ p : ℝ, ((t2 - t1) / p / 2) ^ 2 ≤ t2 * t1 →
        ((computeK 0 rate * t2 - computeK 0 rate * t1) / p / 2) ^ 2 ≤ computeK 0 rate * t2 * (computeK 0 rate * t1) := by
      intro p hp'
      have := scale_condition (p := p⁻¹) hKp (by rwa [← div_eq_mul_inv])
      rwa [← div_eq_mul_inv] at this
    rw [bandstopAnalog_hom h.proto (by nlinarith) (fun p hp' => sc p (hlone p hp').1) (by rw [h.noLone]; simp)]
    have hK : (computeK 0 rate : ℂ) ≠ 0 := by exact_mod_cast hKp.ne'
    have hz1' : z + 1 ≠ 0 := by rwa [Ne, add_eq_zero_iff_eq_neg]
    have hfac : ((computeK 0 rate : ℂ) * (z - 1)) ^ 2 + ((computeK 0 rate * t2 * (computeK 0 rate * t1) : ℝ) : ℂ) * (z + 1) ^ 2
        = ((computeK 0 rate : ℂ) * (z + 1)) ^ 2 * (s ^ 2 + t1 * t2) := by
      subst hs
      push_cast
      field_simp
    rw [hfac, hom_eq_analog f h.proto.degree _ _ (mul_ne_zero (pow_ne_zero 2 (mul_ne_zero hK hz1')) hne)]
    congr 1
    have hsz : z - 1 = s * (z + 1) := by rw [hs]; field_simp
    rw [hsz]
    push_cast
    rw [← mul_sub]
    field_simp

end Verif.PoleZero
