import Verif.Model.FilterDesign
import Verif.Theorems.Ladder
import Mathlib.Tactic.FieldSimp
import Mathlib.Tactic.LinearCombination
import Mathlib.Tactic.Positivity

/-! Lemmas about the second-order designs. -/

namespace Verif.FilterDesign
open Verif.BiquadCascade

theorem tan_pos {m fs : ℝ} (hfs : 0 < fs) (hm : 0 < m) (h : m < fs / 2) :
    0 < Real.tan (Real.pi * m / fs) := by
  apply Real.tan_pos_of_pos_of_lt_pi_div_two
  · have := Real.pi_pos
    positivity
  · rw [div_lt_div_iff₀ hfs (by norm_num)]
    nlinarith [Real.pi_pos]

theorem computeK_pos {m fs : ℝ} (hfs : 0 < fs) (h0 : 0 ≤ m) (h : m < fs / 2) : 0 < computeK m fs := by
  unfold computeK
  split_ifs with hc
  · linarith
  · have hm : 0 < m := by
      have : 0 < fs * (1 / 10 ^ 7) := by positivity
      linarith [not_lt.mp hc]
    exact div_pos (mul_pos (mul_pos two_pos Real.pi_pos) hm) (tan_pos hfs hm h)

/-- The warped frequency is the match frequency. -/
theorem computeK_match {m fs : ℝ} (hfs : 0 < fs) (h1 : fs / 10 ^ 7 ≤ m) (h : m < fs / 2) :
    computeK m fs * Real.tan (Real.pi * m / fs) = 2 * Real.pi * m := by
  have hm : 0 < m := lt_of_lt_of_le (by positivity) h1
  unfold computeK
  rw [if_neg (by rw [not_lt, mul_one_div]; exact h1)]
  exact div_mul_cancel₀ _ (tan_pos hfs hm h).ne'

/-- The second-order polynomial `p0 s^2 + p1 s + p2`. -/
noncomputable def quad (p0 p1 p2 : ℝ) (s : ℂ) : ℂ := p0 * s ^ 2 + p1 * s + p2

theorem quad_ofReal (p0 p1 p2 x : ℝ) : quad p0 p1 p2 x = ((p0 * x ^ 2 + p1 * x + p2 : ℝ) : ℂ) := by
  unfold quad
  push_cast
  ring

/-- The digital filter is the analog one at `K (z - 1) / (z + 1)`. -/
theorem bilinear_eval {n0 n1 n2 d0 d1 d2 K : ℝ} (hK : d0 * K ^ 2 + d1 * K + d2 ≠ 0) (z : ℂ) (hz : z ≠ -1) :
    evalStage Complex.ofRealHom (normalize ⟨bilinearMap [n0, n1, n2] K, bilinearMap [d0, d1, d2] K⟩) z =
      quad n0 n1 n2 (K * (z - 1) / (z + 1)) / quad d0 d1 d2 (K * (z - 1) / (z + 1)) := by
  have hz1 : z + 1 ≠ 0 := fun h => hz (eq_neg_of_add_eq_zero_left h)
  have ha : d0 * K * K + d1 * K + d2 = d0 * K ^ 2 + d1 * K + d2 := by ring
  have hc : ((d0 * K * K + d1 * K + d2 : ℝ) : ℂ) ≠ 0 := by rw [ha]; exact_mod_cast hK
  have key : ∀ p0 p1 p2 : ℝ,
      (Complex.ofRealHom ((p0 * K * K + p1 * K + p2) / (d0 * K * K + d1 * K + d2)) * z +
        Complex.ofRealHom (2 * (p2 - p0 * K * K) / (d0 * K * K + d1 * K + d2))) * z +
        Complex.ofRealHom ((p0 * K * K - p1 * K + p2) / (d0 * K * K + d1 * K + d2)) =
      (z + 1) ^ 2 / ((d0 * K * K + d1 * K + d2 : ℝ) : ℂ) * quad p0 p1 p2 (K * (z - 1) / (z + 1)) := by
    intro p0 p1 p2
    simp only [Complex.ofRealHom_eq_coe]
    generalize d0 * K * K + d1 * K + d2 = D at hc ⊢
    unfold quad
    push_cast
    field_simp
    ring
  unfold evalStage normalize bilinearMap
  simp only [List.map_cons, List.map_nil, List.getD_cons_zero, List.getD_cons_succ]
  rw [key, key, mul_div_mul_left]
  exact div_ne_zero (pow_ne_zero 2 hz1) hc

/-- At the Nyquist frequency: the limit of the analog filter at infinity. -/
theorem bilinear_nyquist {n0 n1 n2 d0 d1 d2 K : ℝ} (hK : d0 * K ^ 2 + d1 * K + d2 ≠ 0) (hK0 : K ≠ 0) :
    evalStage Complex.ofRealHom (normalize ⟨bilinearMap [n0, n1, n2] K, bilinearMap [d0, d1, d2] K⟩) (-1) =
      n0 / d0 := by
  have ha : d0 * K * K + d1 * K + d2 = d0 * K ^ 2 + d1 * K + d2 := by ring
  have hc : ((d0 * K * K + d1 * K + d2 : ℝ) : ℂ) ≠ 0 := by rw [ha]; exact_mod_cast hK
  have hK' : (K : ℂ) ≠ 0 := by exact_mod_cast hK0
  have key : ∀ p0 p1 p2 : ℝ,
      (Complex.ofRealHom ((p0 * K * K + p1 * K + p2) / (d0 * K * K + d1 * K + d2)) * (-1) +
        Complex.ofRealHom (2 * (p2 - p0 * K * K) / (d0 * K * K + d1 * K + d2))) * (-1) +
        Complex.ofRealHom ((p0 * K * K - p1 * K + p2) / (d0 * K * K + d1 * K + d2)) =
      4 * K ^ 2 / ((d0 * K * K + d1 * K + d2 : ℝ) : ℂ) * p0 := by
    intro p0 p1 p2
    simp only [Complex.ofRealHom_eq_coe]
    generalize d0 * K * K + d1 * K + d2 = D at hc ⊢
    push_cast
    field_simp
    ring
  unfold evalStage normalize bilinearMap
  simp only [List.map_cons, List.map_nil, List.getD_cons_zero, List.getD_cons_succ]
  rw [key, key, mul_div_mul_left]
  exact div_ne_zero (mul_ne_zero (by norm_num) (pow_ne_zero 2 hK')) hc

/-- The point of the imaginary axis that belongs to a point of the unit circle. -/
theorem warp (K ω : ℝ) (hc : Real.cos (ω / 2) ≠ 0) :
    Complex.exp (ω * Complex.I) ≠ -1 ∧
    (K : ℂ) * (Complex.exp (ω * Complex.I) - 1) / (Complex.exp (ω * Complex.I) + 1) =
      ((K * Real.tan (ω / 2) : ℝ) : ℂ) * Complex.I := by
  have e1 : Complex.exp (ω * Complex.I) =
      (Real.cos (ω / 2) + Real.sin (ω / 2) * Complex.I) ^ 2 := by
    have : (ω : ℂ) * Complex.I = ((2 : ℕ) : ℂ) * (((ω / 2 : ℝ) : ℂ) * Complex.I) := by push_cast; ring
    rw [this, Complex.exp_nat_mul, Complex.exp_mul_I]
    push_cast
    rfl
  have hI : Complex.I ^ 2 = -1 := Complex.I_sq
  have hcs : (Real.cos (ω / 2) : ℂ) ^ 2 + (Real.sin (ω / 2) : ℂ) ^ 2 = 1 := by
    exact_mod_cast (by rw [add_comm]; exact Real.sin_sq_add_cos_sq (ω / 2) :
      Real.cos (ω / 2) ^ 2 + Real.sin (ω / 2) ^ 2 = 1)
  have hcc : (Real.cos (ω / 2) : ℂ) ≠ 0 := by exact_mod_cast hc
  rw [Real.tan_eq_sin_div_cos]
  push_cast at *
  generalize (Complex.cos (ω / 2)) = c at *
  generalize (Complex.sin (ω / 2)) = s at *
  have hu : c + s * Complex.I ≠ 0 := by
    intro h
    have : (c + s * Complex.I) * (c - s * Complex.I) = 1 := by linear_combination hcs - s ^ 2 * hI
    rw [h, zero_mul] at this
    exact zero_ne_one this
  have e2 : Complex.exp (ω * Complex.I) + 1 = 2 * c * (c + s * Complex.I) := by
    rw [e1]
    linear_combination hcs * (-1) + s ^ 2 * hI
  have e3 : Complex.exp (ω * Complex.I) - 1 = 2 * s * Complex.I * (c + s * Complex.I) := by
    rw [e1]
    linear_combination hcs - s ^ 2 * hI
  have hne : Complex.exp (ω * Complex.I) + 1 ≠ 0 := by
    rw [e2]
    exact mul_ne_zero (mul_ne_zero two_ne_zero hcc) hu
  refine ⟨fun h => hne (by rw [h]; ring), ?_⟩
  rw [div_eq_iff hne, e2, e3]
  field_simp

/-- The zeros of the digital polynomial are the images of those of the analog one. -/
theorem bilinear_roots {d0 d1 d2 K : ℝ} (hK : 0 < K) (hd0 : d0 ≠ 0)
    (h : ∀ s : ℂ, quad d0 d1 d2 s = 0 → s.re < 0) :
    d0 * K ^ 2 + d1 * K + d2 ≠ 0 ∧ ∀ z : ℂ,
      ((d0 * K * K + d1 * K + d2 : ℝ) : ℂ) * z ^ 2 + ((2 * (d2 - d0 * K * K) : ℝ) : ℂ) * z +
        ((d0 * K * K - d1 * K + d2 : ℝ) : ℂ) = 0 → ‖z‖ < 1 := by
  have hK' : (K : ℂ) ≠ 0 := by exact_mod_cast hK.ne'
  have hd0' : (d0 : ℂ) ≠ 0 := by exact_mod_cast hd0
  constructor
  · intro h0
    have := h K (by rw [quad_ofReal, h0]; simp)
    rw [Complex.ofReal_re] at this
    linarith
  · intro z hz
    have hz1 : z + 1 ≠ 0 := by
      intro hm
      have : z = -1 := eq_neg_of_add_eq_zero_left hm
      rw [this] at hz
      push_cast at hz
      have h4 : 4 * (d0 : ℂ) * K ^ 2 = 0 := by linear_combination hz
      simp [hd0', hK'] at h4
    have e1 : ((d0 * K * K + d1 * K + d2 : ℝ) : ℂ) * z ^ 2 + ((2 * (d2 - d0 * K * K) : ℝ) : ℂ) * z +
        ((d0 * K * K - d1 * K + d2 : ℝ) : ℂ) = (z + 1) ^ 2 * quad d0 d1 d2 (K * (z - 1) / (z + 1)) := by
      unfold quad
      push_cast
      field_simp
      ring
    rw [e1] at hz
    have hs := h _ ((mul_eq_zero.mp hz).resolve_left (pow_ne_zero 2 hz1))
    obtain ⟨s, hsd⟩ : ∃ s, s = (K : ℂ) * (z - 1) / (z + 1) := ⟨_, rfl⟩
    rw [← hsd] at hs
    have hzs : z * (K - s) = K + s := by
      rw [hsd]
      field_simp
      ring
    have hlt : Complex.normSq (K + s) < Complex.normSq (K - s) := by
      rw [Complex.normSq_apply, Complex.normSq_apply]
      simp only [Complex.add_re, Complex.sub_re, Complex.add_im, Complex.sub_im, Complex.ofReal_re,
        Complex.ofReal_im]
      nlinarith
    rw [← hzs, Complex.normSq_mul] at hlt
    have hpos : 0 < Complex.normSq (K - s) := by
      rcases (Complex.normSq_nonneg (K - s)).lt_or_eq with h | h
      · exact h
      · rw [← h] at hlt
        simp at hlt
    have h1 : Complex.normSq z < 1 := by
      by_contra hc
      push Not at hc
      nlinarith
    rw [Complex.normSq_eq_norm_sq] at h1
    have := norm_nonneg z
    nlinarith

/-- `IsStable` of the digital filter. -/
theorem bilinear_stable {n0 n1 n2 d0 d1 d2 K : ℝ} (hK : 0 < K) (hd0 : d0 ≠ 0)
    (h : ∀ s : ℂ, quad d0 d1 d2 s = 0 → s.re < 0) :
    ∃ P : Prop, Ladder.isStable
      (normalize ⟨bilinearMap [n0, n1, n2] K, bilinearMap [d0, d1, d2] K⟩).b
      (normalize ⟨bilinearMap [n0, n1, n2] K, bilinearMap [d0, d1, d2] K⟩).a = some P ∧ P := by
  obtain ⟨h1, h2⟩ := bilinear_roots hK hd0 h
  have ha : d0 * K * K + d1 * K + d2 = d0 * K ^ 2 + d1 * K + d2 := by ring
  have hne : (d0 * K * K + d1 * K + d2) / (d0 * K * K + d1 * K + d2) ≠ 0 := by
    rw [div_self (by rw [ha]; exact h1)]
    exact one_ne_zero
  obtain ⟨P, e1, e2⟩ := Ladder.C23_isStable_iff_poles
    (b0 := (n0 * K * K + n1 * K + n2) / (d0 * K * K + d1 * K + d2))
    (b1 := 2 * (n2 - n0 * K * K) / (d0 * K * K + d1 * K + d2))
    (b2 := (n0 * K * K - n1 * K + n2) / (d0 * K * K + d1 * K + d2))
    (a1 := 2 * (d2 - d0 * K * K) / (d0 * K * K + d1 * K + d2))
    (a2 := (d0 * K * K - d1 * K + d2) / (d0 * K * K + d1 * K + d2)) hne
  refine ⟨P, e1, e2.mpr ?_⟩
  intro z hz
  refine h2 z ?_
  have hc : ((d0 * K * K + d1 * K + d2 : ℝ) : ℂ) ≠ 0 := by
    rw [ha]
    exact_mod_cast h1
  simp only [Complex.ofReal_div] at hz
  generalize ((d0 * K * K + d1 * K + d2 : ℝ) : ℂ) = D at *
  field_simp at hz
  push_cast at hz ⊢
  linear_combination hz

/-- A quadratic with positive coefficients has its roots in the left half plane. -/
theorem quad_hurwitz {d1 d2 : ℝ} (h1 : 0 < d1) (h2 : 0 < d2) (s : ℂ) (h : quad 1 d1 d2 s = 0) : s.re < 0 := by
  unfold quad at h
  have hre := congrArg Complex.re h
  have him := congrArg Complex.im h
  simp [pow_two] at hre him
  by_contra hc
  push Not at hc
  have h3 : s.im * (2 * s.re + d1) = 0 := by linarith
  rcases mul_eq_zero.mp h3 with h4 | h4
  · rw [h4] at hre
    nlinarith [mul_nonneg hc hc, mul_nonneg h1.le hc]
  · linarith

/-- Everything the designs based on the bilinear transform share. -/
theorem design_core {n0 n1 n2 d1 d2 fs m : ℝ} (hfs : 0 < fs) (h0 : 0 ≤ m) (hm : m < fs / 2) (h1 : 0 < d1)
    (h2 : 0 < d2) :
    ∃ c, bilinearTransform [n0, n1, n2] [1, d1, d2] fs m = some c ∧
      (∃ P : Prop, Ladder.isStable c.b c.a = some P ∧ P) ∧
      (∀ z : ℂ, z ≠ -1 → evalStage Complex.ofRealHom c z =
        quad n0 n1 n2 (computeK m fs * (z - 1) / (z + 1)) / quad 1 d1 d2 (computeK m fs * (z - 1) / (z + 1))) ∧
      response c 0 = n2 / d2 ∧ response c Real.pi = n0 ∧
      (∀ ω, Real.cos (ω / 2) ≠ 0 → response c ω =
        quad n0 n1 n2 (((computeK m fs * Real.tan (ω / 2) : ℝ) : ℂ) * Complex.I) /
          quad 1 d1 d2 (((computeK m fs * Real.tan (ω / 2) : ℝ) : ℂ) * Complex.I)) := by
  have hK := computeK_pos hfs h0 hm
  have hKne : (1 : ℝ) * computeK m fs ^ 2 + d1 * computeK m fs + d2 ≠ 0 := by positivity
  have hev := fun z hz => bilinear_eval (n0 := n0) (n1 := n1) (n2 := n2) hKne z hz
  have hw : ∀ ω, Real.cos (ω / 2) ≠ 0 →
      response (normalize ⟨bilinearMap [n0, n1, n2] (computeK m fs), bilinearMap [1, d1, d2] (computeK m fs)⟩) ω =
        quad n0 n1 n2 (((computeK m fs * Real.tan (ω / 2) : ℝ) : ℂ) * Complex.I) /
          quad 1 d1 d2 (((computeK m fs * Real.tan (ω / 2) : ℝ) : ℂ) * Complex.I) := by
    intro ω hω
    obtain ⟨w1, w2⟩ := warp (computeK m fs) ω hω
    unfold response
    rw [hev _ w1, w2]
  refine ⟨_, by unfold bilinearTransform; rw [if_pos ⟨rfl, rfl, hfs, h0, hm⟩], ?_, hev, ?_, ?_, hw⟩
  · exact bilinear_stable hK one_ne_zero (fun s hs => quad_hurwitz h1 h2 s hs)
  · rw [hw 0 (by simp)]
    simp [quad]
  · unfold response
    rw [Complex.exp_pi_mul_I, bilinear_nyquist hKne hK.ne']
    simp

end Verif.FilterDesign
