import Verif.Spec.IirBand
import Verif.Proof.IirDesign9
import Mathlib.Analysis.Real.Pi.Bounds

/-!
# The roots of bandpass and bandstop filters are real or clearly not
-/

namespace Verif.IirDesign
open Verif.PortableComplex Spec
open scoped ComplexConjugate

/-- Real and imaginary part of `v + P / v = r B`. -/
theorem root_parts {B P : ℝ} {r v : ℂ} (h : v ^ 2 - r * (B : ℂ) * v + (P : ℂ) = 0) :
    v.re * (‖v‖ ^ 2 + P) = ‖v‖ ^ 2 * (B * r.re) ∧ v.im * (‖v‖ ^ 2 - P) = ‖v‖ ^ 2 * (B * r.im) := by
  have e : (‖v‖ ^ 2 : ℝ) = v.re * v.re + v.im * v.im := by
    rw [← Complex.normSq_eq_norm_sq, Complex.normSq_apply]
  have h1 := congrArg Complex.re h
  have h2 := congrArg Complex.im h
  simp [pow_two] at h1 h2
  rw [e]
  constructor
  · linear_combination v.re * h1 + v.im * h2
  · linear_combination (-v.im) * h1 + v.re * h2

theorem band_root {σ B P : ℝ} {r v : ℂ} (hB : 0 < B) (hP : 0 < P) (hσ : 0 < σ) (h : v ^ 2 - r * (B : ℂ) * v + (P : ℂ) = 0)
    (hs : σ ≤ |r.im| ∧ σ * ‖r‖ ^ 2 ≤ |r.im|) (c1 : 100 / 2 ^ 52 * (2 * (1 + P)) < B * σ) (c2 : 100 / 2 ^ 52 * B ≤ σ)
    (c3 : 100 / 2 ^ 52 * B ≤ σ * P) : 100 / 2 ^ 52 * (1 + ‖v‖ ^ 2) < 2 * |v.im| := by
  obtain ⟨e1, e2⟩ := root_parts h
  have hv : 0 < ‖v‖ := by
    rw [norm_pos_iff]
    rintro rfl
    simp at h
    linarith
  have en : ‖v‖ ^ 2 = v.re ^ 2 + v.im ^ 2 := by
    rw [← Complex.normSq_eq_norm_sq, Complex.normSq_apply]; ring
  have er : ‖r‖ ^ 2 = r.re ^ 2 + r.im ^ 2 := by
    rw [← Complex.normSq_eq_norm_sq, Complex.normSq_apply]; ring
  obtain ⟨s1, s2⟩ := hs
  have hκ : (0 : ℝ) < 100 / 2 ^ 52 := by norm_num
  generalize (100 / 2 ^ 52 : ℝ) = κ at *
  have hn : 0 < ‖v‖ ^ 2 := by positivity
  have hR : 0 ≤ ‖r‖ ^ 2 := by positivity
  generalize ‖v‖ ^ 2 = n at *
  generalize ‖r‖ ^ 2 = R at *
  -- `(n - P)² ≤ n B² R`
  have hbound : (n - P) ^ 2 ≤ n * (B ^ 2 * R) := by
    have a1 : (v.re * (n + P)) ^ 2 + (v.im * (n - P)) ^ 2 = n * (n * (B ^ 2 * R)) := by
      rw [e1, e2, er]; ring
    have a2 : n * (n - P) ^ 2 ≤ (v.re * (n + P)) ^ 2 + (v.im * (n - P)) ^ 2 := by
      have : (v.re * (n + P)) ^ 2 + (v.im * (n - P)) ^ 2 - n * (n - P) ^ 2 = v.re ^ 2 * (4 * (n * P)) := by
        rw [mul_pow, mul_pow]
        have e3 : v.im ^ 2 = n - v.re ^ 2 := by linarith
        rw [e3]; ring
      have : 0 ≤ v.re ^ 2 * (4 * (n * P)) := by positivity
      linarith
    rw [a1] at a2
    exact le_of_mul_le_mul_left a2 hn
  have eabs : |v.im| * |n - P| = n * (B * |r.im|) := by
    rw [← abs_mul, e2, abs_mul, abs_of_pos hn, abs_mul, abs_of_pos hB]
  have hb0 : 0 < |r.im| := hσ.trans_le s1
  generalize |v.im| = y at *
  generalize |r.im| = b at *
  have hy : 0 ≤ y := by
    by_contra hc
    push Not at hc
    have : y * |n - P| ≤ 0 := mul_nonpos_of_nonpos_of_nonneg hc.le (abs_nonneg _)
    have : 0 < n * (B * b) := by positivity
    linarith
  have k1 : B * σ ≤ B * b := mul_le_mul_of_nonneg_left s1 hB.le
  have k2 : B * (σ * R) ≤ B * b := mul_le_mul_of_nonneg_left s2 hB.le
  rcases le_total P n with hc | hc
  · rw [abs_of_nonneg (by linarith)] at eabs
    have h1 : B * b ≤ y := by
      have : n * (B * b) ≤ n * y := by
        rw [← eabs]
        have := mul_nonneg hy hP.le
        linarith
      exact le_of_mul_le_mul_left this hn
    have h2 : n ≤ B ^ 2 * R + 2 * P := by
      have : n * n ≤ n * (B ^ 2 * R + 2 * P) := by nlinarith [sq_nonneg P]
      exact le_of_mul_le_mul_left this hn
    have h3 : κ * (B ^ 2 * R) ≤ B * (σ * R) := by
      have := mul_le_mul_of_nonneg_right c2 (mul_nonneg hB.le hR)
      linarith
    have h4 : κ * n ≤ κ * (B ^ 2 * R + 2 * P) := mul_le_mul_of_nonneg_left h2 hκ.le
    have h5 := mul_pos hκ hP
    linarith
  · rw [abs_of_nonpos (by linarith)] at eabs
    have h1 : n * (B * b) ≤ y * P := by
      have := mul_nonneg hy hn.le
      linarith
    have h2 : P ^ 2 ≤ n * (B ^ 2 * R + 2 * P) := by nlinarith [sq_nonneg n]
    have h3 : κ * (B ^ 2 * R) ≤ B * (σ * R) * P := by
      have := mul_le_mul_of_nonneg_right c3 (mul_nonneg hB.le hR)
      linarith
    have h4 : κ * (1 + n) * P * P < 2 * (n * (B * b)) * P := by
      have a1 : κ * P ^ 2 ≤ κ * (n * (B ^ 2 * R + 2 * P)) := mul_le_mul_of_nonneg_left h2 hκ.le
      have a2 : n * (κ * (B ^ 2 * R)) ≤ n * (B * (σ * R) * P) := mul_le_mul_of_nonneg_left h3 hn.le
      have a3 : n * P * (B * (σ * R)) ≤ n * P * (B * b) := mul_le_mul_of_nonneg_left k2 (by positivity)
      have a4 : n * P * (κ * (2 * (1 + P))) < n * P * (B * b) :=
        mul_lt_mul_of_pos_left (c1.trans_le k1) (by positivity)
      have a5 : 0 ≤ κ * n * P ^ 2 := by positivity
      nlinarith
    have h5 : κ * (1 + n) * P < 2 * (n * (B * b)) := lt_of_mul_lt_mul_right h4 hP.le
    have h6 : κ * (1 + n) * P < 2 * y * P := by linarith
    exact lt_of_mul_lt_mul_right h6 hP.le

theorem root_left {B P : ℝ} {r v : ℂ} (hB : 0 < B) (hP : 0 < P) (h : v ^ 2 - r * (B : ℂ) * v + (P : ℂ) = 0)
    (hr : r.re ≤ 0) : v.re ≤ 0 := by
  obtain ⟨e1, -⟩ := root_parts h
  by_contra hc
  push Not at hc
  have h1 : 0 < v.re * (‖v‖ ^ 2 + P) := mul_pos hc (by positivity)
  have h2 : ‖v‖ ^ 2 * (B * r.re) ≤ 0 :=
    mul_nonpos_of_nonneg_of_nonpos (sq_nonneg _) (mul_nonpos_of_nonneg_of_nonpos hB.le hr)
  linarith

/-- For a real root. -/
theorem real_root {B P p : ℝ} {v : ℂ} (hP : 0 < P) (h : v ^ 2 - (p : ℂ) * (B : ℂ) * v + (P : ℂ) = 0)
    (hc : 4 * P ≤ (p * B) ^ 2 ∨ 100 / 2 ^ 52 * (1 + P) < √(4 * P - (p * B) ^ 2)) :
    v.im = 0 ∨ 100 / 2 ^ 52 * (1 + ‖v‖ ^ 2) < 2 * |v.im| := by
  obtain ⟨e1, e2⟩ := root_parts h
  rw [Complex.ofReal_im, mul_zero, mul_zero] at e2
  rcases mul_eq_zero.1 e2 with e2 | e2
  · exact Or.inl e2
  have en : ‖v‖ ^ 2 = v.re ^ 2 + v.im ^ 2 := by
    rw [← Complex.normSq_eq_norm_sq, Complex.normSq_apply]; ring
  have e3 : ‖v‖ ^ 2 = P := by linarith
  rw [e3] at en e1 ⊢
  rw [Complex.ofReal_re] at e1
  have e4 : 2 * v.re = p * B := by
    have : P * (2 * v.re) = P * (p * B) := by linarith
    exact mul_left_cancel₀ hP.ne' this
  have e5 : 4 * P - (p * B) ^ 2 = (2 * v.im) ^ 2 := by rw [← e4, en]; ring
  rcases hc with hc | hc
  · left
    have : (2 * v.im) ^ 2 ≤ 0 := by linarith
    nlinarith [sq_nonneg v.im]
  · right
    rw [e5, Real.sqrt_sq_eq_abs, abs_mul, abs_of_pos (by norm_num : (0 : ℝ) < 2)] at hc
    exact hc

/-! ### The edges -/

theorem tan_lower {hz rate : ℝ} (hr : 0 < rate) (h1 : rate / 10 ^ 9 ≤ hz) (h2 : hz < rate / 2) :
    3 / 10 ^ 9 ≤ Real.tan (Real.pi * hz / rate) := by
  have hp := Real.pi_pos
  have h3 := Real.pi_gt_three
  have h4 : Real.pi / 10 ^ 9 ≤ Real.pi * hz / rate := by
    rw [le_div_iff₀ hr]
    nlinarith
  have h5 : Real.pi * hz / rate < Real.pi / 2 := by
    rw [div_lt_iff₀ hr]
    nlinarith
  have h6 : 0 < Real.pi / 10 ^ 9 := by positivity
  have := Real.lt_tan (x := Real.pi * hz / rate) (by linarith) h5
  have : 3 / 10 ^ 9 < Real.pi / 10 ^ 9 := div_lt_div_of_pos_right h3 (by positivity)
  linarith

theorem tan_upper {hz rate : ℝ} (hr : 0 < rate) (h1 : 0 < hz) (h2 : hz ≤ rate / 2 - rate / 10 ^ 9) :
    Real.tan (Real.pi * hz / rate) ≤ 10 ^ 9 / 3 := by
  have h3 : 0 < rate / 10 ^ 9 := by positivity
  have h := tan_lower (hz := rate / 2 - hz) hr (by linarith) (by linarith)
  have e : Real.pi * (rate / 2 - hz) / rate = Real.pi / 2 - Real.pi * hz / rate := by
    field_simp
  rw [e, Real.tan_pi_div_two_sub] at h
  have ht : 0 < Real.tan (Real.pi * hz / rate) := (prewarp_pos h1 (by linarith)).1
  rw [le_inv_comm₀ (by norm_num) ht] at h
  refine h.trans (le_of_eq ?_)
  norm_num

/-- The three conditions of `band_root`. -/
theorem band_bounds {low high rate : ℝ} (hr : 0 < rate) (h1 : rate / 10 ^ 9 ≤ low) (h2 : high ≤ rate / 2 - rate / 10 ^ 9)
    (h3 : rate / 10 ^ 9 ≤ high - low) :
    100 / 2 ^ 52 * (2 * (1 + Real.tan (Real.pi * low / rate) * Real.tan (Real.pi * high / rate))) <
      (Real.tan (Real.pi * high / rate) - Real.tan (Real.pi * low / rate)) * (1 / 45000) ∧
    100 / 2 ^ 52 * (Real.tan (Real.pi * high / rate) - Real.tan (Real.pi * low / rate)) ≤ 1 / 45000 ∧
    100 / 2 ^ 52 * (Real.tan (Real.pi * high / rate) - Real.tan (Real.pi * low / rate)) ≤
      1 / 45000 * (Real.tan (Real.pi * low / rate) * Real.tan (Real.pi * high / rate)) ∧
    3 / 10 ^ 9 ≤ Real.tan (Real.pi * low / rate) ∧ Real.tan (Real.pi * low / rate) < Real.tan (Real.pi * high / rate) ∧
    Real.tan (Real.pi * high / rate) ≤ 10 ^ 9 / 3 := by
  have h4 : 0 < rate / 10 ^ 9 := by positivity
  have hl := tan_lower hr h1 (show low < rate / 2 by linarith)
  have hh := tan_upper hr (show 0 < high by linarith) h2
  have hlt := (prewarp_lt (show 0 < low by linarith) (show low < high by linarith) (show high < rate / 2 by linarith)).1
  have hd := tan_lower (hz := high - low) hr h3 (by linarith)
  have e : Real.pi * (high - low) / rate = Real.pi * high / rate - Real.pi * low / rate := by ring
  have hp := Real.pi_pos
  have ch : 0 < Real.cos (Real.pi * high / rate) := by
    apply Real.cos_pos_of_mem_Ioo
    constructor
    · have : 0 < Real.pi * high / rate := by
        apply div_pos (mul_pos hp (by linarith)) hr
      linarith
    · rw [div_lt_iff₀ hr]; nlinarith
  have cl : 0 < Real.cos (Real.pi * low / rate) := by
    apply Real.cos_pos_of_mem_Ioo
    constructor
    · have : 0 < Real.pi * low / rate := by
        apply div_pos (mul_pos hp (by linarith)) hr
      linarith
    · rw [div_lt_iff₀ hr]; nlinarith
  have cd : 0 < Real.cos (Real.pi * high / rate - Real.pi * low / rate) := by
    rw [← e]
    apply Real.cos_pos_of_mem_Ioo
    constructor
    · have : 0 < Real.pi * (high - low) / rate := by
        apply div_pos (mul_pos hp (by linarith)) hr
      linarith
    · rw [div_lt_iff₀ hr]; nlinarith
  -- `B = (1 + P) tan(π (high - low) / rate)`
  have key : Real.tan (Real.pi * high / rate) - Real.tan (Real.pi * low / rate) =
      (1 + Real.tan (Real.pi * low / rate) * Real.tan (Real.pi * high / rate)) *
        Real.tan (Real.pi * high / rate - Real.pi * low / rate) := by
    rw [Real.tan_eq_sin_div_cos, Real.tan_eq_sin_div_cos, Real.tan_eq_sin_div_cos, Real.sin_sub]
    rw [Real.cos_sub] at cd ⊢
    field_simp
  rw [e] at hd
  generalize Real.tan (Real.pi * high / rate - Real.pi * low / rate) = T at *
  generalize Real.tan (Real.pi * high / rate) = b at *
  generalize Real.tan (Real.pi * low / rate) = a at *
  have ha : 0 < a := lt_of_lt_of_le (by norm_num) hl
  have hb : 0 < b := ha.trans hlt
  have hab : 0 < a * b := mul_pos ha hb
  refine ⟨?_, ?_, ?_, hl, hlt, hh⟩
  · rw [key]
    have : (1 + a * b) * (3 / 10 ^ 9) ≤ (1 + a * b) * T := mul_le_mul_of_nonneg_left hd (by positivity)
    have h5 : (0 : ℝ) < (1 + a * b) * (3 / 10 ^ 9 * (1 / 45000) - 100 / 2 ^ 52 * 2) :=
      mul_pos (by positivity) (by norm_num)
    linarith
  · have : (100 / 2 ^ 52 : ℝ) * (10 ^ 9 / 3) ≤ 1 / 45000 := by norm_num
    have : (100 / 2 ^ 52 : ℝ) * (b - a) ≤ 100 / 2 ^ 52 * (10 ^ 9 / 3) :=
      mul_le_mul_of_nonneg_left (by linarith) (by norm_num)
    linarith
  · have h5 : (100 / 2 ^ 52 : ℝ) ≤ 1 / 45000 * a := by
      have : (100 / 2 ^ 52 : ℝ) ≤ 1 / 45000 * (3 / 10 ^ 9) := by norm_num
      linarith
    have h6 := mul_le_mul_of_nonneg_right h5 hb.le
    have h7 : 0 < (100 / 2 ^ 52 : ℝ) * a := by positivity
    linarith

theorem pass_clear {f : Zpk} {n : ℕ} {H : ℝ → ℝ} (h : Proto f n H)
    (hs : ∀ r, r ∈ zeros f ∨ r ∈ poles f → Spread (1 / 45000) r) {low high rate : ℝ} (hr : 0 < rate)
    (h1 : rate / 10 ^ 9 ≤ low) (h2 : high ≤ rate / 2 - rate / 10 ^ 9) (h3 : rate / 10 ^ 9 ≤ high - low)
    (hreal : ∀ p : ℝ, (p : ℂ) ∈ poles f → RealClear p low high rate) : PassClear f low high rate := by
  intro r hm v hv
  obtain ⟨b1, b2, b3, b4, b5, b6⟩ := band_bounds hr h1 h2 h3
  have ha : 0 < Real.tan (Real.pi * low / rate) := lt_of_lt_of_le (by norm_num) b4
  have hP := mul_pos ha (ha.trans b5)
  have hB : 0 < Real.tan (Real.pi * high / rate) - Real.tan (Real.pi * low / rate) := by linarith
  have hre : r.re ≤ 0 := by
    rcases hm with hm | hm
    · exact (h.zeros_im r hm).1.le
    · exact (h.poles_left r hm).le
  rw [← Complex.ofReal_sub, ← Complex.ofReal_mul] at hv
  refine clear_bl (root_left hB hP hv hre) ?_
  rcases hs r hm with h0 | h0
  · have hrr : r = ((r.re : ℝ) : ℂ) := Complex.ext rfl h0
    have hmp : r ∈ poles f := by
      rcases hm with hm | hm
      · exfalso
        obtain ⟨z1, z2⟩ := h.zeros_im r hm
        exact z2 (Complex.ext z1 h0)
      · exact hm
    rw [hrr] at hv hmp
    exact real_root hP hv (hreal r.re hmp)
  · exact Or.inr (band_root hB hP (by norm_num) hv h0 b1 b2 b3)

theorem stop_clear {f : Zpk} {n : ℕ} {H : ℝ → ℝ} (h : Proto f n H)
    (hs : ∀ r, r ∈ zeros f ∨ r ∈ poles f → Spread (1 / 45000) r) {low high rate : ℝ} (hr : 0 < rate)
    (h1 : rate / 10 ^ 9 ≤ low) (h2 : high ≤ rate / 2 - rate / 10 ^ 9) (h3 : rate / 10 ^ 9 ≤ high - low)
    (hreal : ∀ p : ℝ, (p : ℂ) ∈ poles f → RealClear p⁻¹ low high rate) : StopClear f low high rate := by
  obtain ⟨b1, b2, b3, b4, b5, b6⟩ := band_bounds hr h1 h2 h3
  have ha : 0 < Real.tan (Real.pi * low / rate) := lt_of_lt_of_le (by norm_num) b4
  have hP := mul_pos ha (ha.trans b5)
  have hB : 0 < Real.tan (Real.pi * high / rate) - Real.tan (Real.pi * low / rate) := by linarith
  constructor
  · intro r hm v hv
    have hre : r⁻¹.re ≤ 0 := by
      rw [Complex.inv_re]
      apply div_nonpos_of_nonpos_of_nonneg _ (Complex.normSq_nonneg _)
      rcases hm with hm | hm
      · exact (h.zeros_im r hm).1.le
      · exact (h.poles_left r hm).le
    rw [← Complex.ofReal_sub, ← Complex.ofReal_mul, div_eq_mul_inv, mul_comm (Complex.ofReal _) r⁻¹] at hv
    refine clear_bl (root_left hB hP hv hre) ?_
    rcases (hs r hm).inv with h0 | h0
    · have hr0 : r.im = 0 := by
        rcases hs r hm with h4 | ⟨h4, -⟩
        · exact h4
        · rw [Complex.inv_im, div_eq_zero_iff, neg_eq_zero] at h0
          rcases h0 with h0 | h0
          · exact h0
          · rw [Complex.normSq_eq_zero.1 h0]; rfl
      have hrr : r = ((r.re : ℝ) : ℂ) := Complex.ext rfl hr0
      have hmp : r ∈ poles f := by
        rcases hm with hm | hm
        · exfalso
          obtain ⟨z1, z2⟩ := h.zeros_im r hm
          exact z2 (Complex.ext z1 hr0)
        · exact hm
      rw [hrr] at hv hmp
      rw [← Complex.ofReal_inv] at hv
      exact real_root hP hv (hreal r.re hmp)
    · exact Or.inr (band_root hB hP (by norm_num) hv h0 b1 b2 b3)
  · intro v hv
    rw [← Complex.ofReal_mul] at hv
    have hv' : v ^ 2 - ((0 : ℝ) : ℂ) * ((0 : ℝ) : ℂ) * v + ((Real.tan (Real.pi * low / rate) * Real.tan (Real.pi * high / rate) : ℝ) : ℂ) = 0 := by
      rw [← hv]; simp
    have hre : v.re ≤ 0 := by
      obtain ⟨e1, -⟩ := root_parts hv'
      have h0 : 0 < ‖v‖ ^ 2 + Real.tan (Real.pi * low / rate) * Real.tan (Real.pi * high / rate) := by positivity
      rw [Complex.ofReal_re, mul_zero, mul_zero] at e1
      exact ((mul_eq_zero.1 e1).resolve_right h0.ne').le
    refine clear_bl hre (real_root hP hv' (Or.inr ?_))
    rw [zero_mul, zero_pow two_ne_zero, sub_zero]
    apply Real.lt_sqrt_of_sq_lt
    generalize Real.tan (Real.pi * high / rate) = b at *
    generalize Real.tan (Real.pi * low / rate) = a at *
    have hb : 0 < b := ha.trans b5
    -- `κ < a`, `κ b < 1`
    have k1 : (100 / 2 ^ 52 : ℝ) < a := lt_of_lt_of_le (by norm_num) b4
    have k2 : (100 / 2 ^ 52 : ℝ) * b < 1 := by
      have : (100 / 2 ^ 52 : ℝ) * b ≤ 100 / 2 ^ 52 * (10 ^ 9 / 3) := mul_le_mul_of_nonneg_left b6 (by norm_num)
      have : (100 / 2 ^ 52 : ℝ) * (10 ^ 9 / 3) < 1 := by norm_num
      linarith
    have hκ : (0 : ℝ) < 100 / 2 ^ 52 := by norm_num
    generalize (100 / 2 ^ 52 : ℝ) = κ at *
    have m1 : κ ^ 2 < a * b := by nlinarith
    have m2 : κ ^ 2 * (a * b) < 1 := by
      have : κ * a < 1 := by nlinarith
      have : (κ * a) * (κ * b) < 1 * 1 := mul_lt_mul'' this k2 (by positivity) (by positivity)
      linarith
    have m3 : κ ^ 2 * (a * b) ^ 2 < a * b := by nlinarith
    nlinarith

end Verif.IirDesign
