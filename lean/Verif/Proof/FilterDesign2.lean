import Verif.Proof.FilterDesign
import Verif.Spec.FilterDesign
import Mathlib.Analysis.SpecialFunctions.Trigonometric.ArctanDeriv

/-! Lemmas about the second-order designs, continued: corner frequencies, shelves, allpass. -/

namespace Verif.FilterDesign
open Verif.BiquadCascade

theorem analog_eq (n0 n1 n2 d0 d1 d2 : ℝ) (s : ℂ) :
    analog n0 n1 n2 d0 d1 d2 s = quad n0 n1 n2 s / quad d0 d1 d2 s := rfl

theorem quad_mul_I (p0 p1 p2 w : ℝ) :
    quad p0 p1 p2 ((w : ℂ) * Complex.I) = ((p2 - p0 * w ^ 2 : ℝ) : ℂ) + ((p1 * w : ℝ) : ℂ) * Complex.I := by
  unfold quad
  push_cast
  linear_combination (p0 * w ^ 2 : ℂ) * Complex.I_sq

theorem half_radians (hz rate : ℝ) : radians hz rate / 2 = Real.pi * hz / rate := by
  unfold radians
  ring

theorem half_pos {fs m : ℝ} (hfs : 0 < fs) (h0 : 0 < m) (h : m < fs / 2) :
    0 < radians m fs / 2 ∧ radians m fs / 2 < Real.pi / 2 := by
  rw [half_radians]
  constructor
  · have := Real.pi_pos
    positivity
  · rw [div_lt_div_iff₀ hfs (by norm_num)]
    nlinarith [Real.pi_pos]

theorem cos_half_pos {fs m : ℝ} (hfs : 0 < fs) (h0 : 0 < m) (h : m < fs / 2) :
    0 < Real.cos (radians m fs / 2) := by
  obtain ⟨a, b⟩ := half_pos hfs h0 h
  exact Real.cos_pos_of_mem_Ioo ⟨by linarith [Real.pi_pos], b⟩

theorem sin_half_pos {fs m : ℝ} (hfs : 0 < fs) (h0 : 0 < m) (h : m < fs / 2) :
    0 < Real.sin (radians m fs / 2) := by
  obtain ⟨a, b⟩ := half_pos hfs h0 h
  exact Real.sin_pos_of_pos_of_lt_pi a (by linarith [Real.pi_pos])

/-- A quadratic with positive coefficients has its roots in the left half plane. -/
theorem quad_hurwitz' {d0 d1 d2 : ℝ} (h0 : 0 < d0) (h1 : 0 < d1) (h2 : 0 < d2) (s : ℂ)
    (h : quad d0 d1 d2 s = 0) : s.re < 0 := by
  have hne : (d0 : ℂ) ≠ 0 := by exact_mod_cast h0.ne'
  apply quad_hurwitz (d1 := d1 / d0) (d2 := d2 / d0) (by positivity) (by positivity)
  unfold quad at *
  push_cast
  field_simp
  linear_combination h

/-- A filter whose polynomials are those of a bilinear transform up to a common factor. -/
theorem scaled_core {c : Stage ℝ} {K lam n0 n1 n2 d0 d1 d2 b0 b1 b2 a0 a1 a2 : ℝ} (hc : c = ⟨[b0, b1, b2], [a0, a1, a2]⟩)
    (hK : 0 < K) (hl : lam ≠ 0) (h0 : 0 < d0) (h1 : 0 < d1) (h2 : 0 < d2)
    (eb0 : b0 = lam * (n0 * K ^ 2 + n1 * K + n2)) (eb1 : b1 = lam * (2 * (n2 - n0 * K ^ 2)))
    (eb2 : b2 = lam * (n0 * K ^ 2 - n1 * K + n2))
    (ea0 : a0 = lam * (d0 * K ^ 2 + d1 * K + d2)) (ea1 : a1 = lam * (2 * (d2 - d0 * K ^ 2)))
    (ea2 : a2 = lam * (d0 * K ^ 2 - d1 * K + d2)) :
    Stable c ∧ Discretizes c K (analog n0 n1 n2 d0 d1 d2) ∧ response c 0 = n2 / d2 ∧
      response c Real.pi = n0 / d0 ∧
      (∀ ω, Real.cos (ω / 2) ≠ 0 → response c ω =
        analog n0 n1 n2 d0 d1 d2 (((K * Real.tan (ω / 2) : ℝ) : ℂ) * Complex.I)) := by
  have hl' : (lam : ℂ) ≠ 0 := by exact_mod_cast hl
  have hK' : (K : ℂ) ≠ 0 := by exact_mod_cast hK.ne'
  have key : ∀ (p0 p1 p2 : ℝ) (z : ℂ), z ≠ -1 →
      (((lam * (p0 * K ^ 2 + p1 * K + p2) : ℝ) : ℂ) * z + ((lam * (2 * (p2 - p0 * K ^ 2)) : ℝ) : ℂ)) * z +
        ((lam * (p0 * K ^ 2 - p1 * K + p2) : ℝ) : ℂ) =
      lam * (z + 1) ^ 2 * quad p0 p1 p2 (K * (z - 1) / (z + 1)) := by
    intro p0 p1 p2 z hz
    have hz1 : z + 1 ≠ 0 := fun h => hz (eq_neg_of_add_eq_zero_left h)
    unfold quad
    push_cast
    field_simp
    ring
  have hev : ∀ z : ℂ, z ≠ -1 → evalStage Complex.ofRealHom c z =
      analog n0 n1 n2 d0 d1 d2 (K * (z - 1) / (z + 1)) := by
    intro z hz
    have hz1 : z + 1 ≠ 0 := fun h => hz (eq_neg_of_add_eq_zero_left h)
    unfold evalStage
    rw [hc]
    simp only [List.getD_cons_zero, List.getD_cons_succ, Complex.ofRealHom_eq_coe]
    rw [eb0, eb1, eb2, ea0, ea1, ea2, key _ _ _ z hz, key _ _ _ z hz, mul_div_mul_left, analog_eq]
    exact mul_ne_zero hl' (pow_ne_zero 2 hz1)
  have hw : ∀ ω, Real.cos (ω / 2) ≠ 0 → response c ω =
      analog n0 n1 n2 d0 d1 d2 (((K * Real.tan (ω / 2) : ℝ) : ℂ) * Complex.I) := by
    intro ω hω
    obtain ⟨w1, w2⟩ := warp K ω hω
    unfold response
    rw [hev _ w1, w2]
  refine ⟨?_, ⟨hK, hev⟩, ?_, ?_, hw⟩
  · obtain ⟨r1, r2⟩ := bilinear_roots hK h0.ne' (fun s hs => quad_hurwitz' h0 h1 h2 s hs)
    have ha0 : a0 ≠ 0 := by
      rw [ea0]
      exact mul_ne_zero hl r1
    obtain ⟨P, e1, e2⟩ := Ladder.C23_isStable_iff_poles (b0 := b0) (b1 := b1) (b2 := b2) (a1 := a1) (a2 := a2) ha0
    refine ⟨P, by rw [hc]; exact e1, e2.mpr ?_⟩
    intro z hz
    apply r2 z
    rw [ea0, ea1, ea2] at hz
    push_cast at hz ⊢
    have : (lam : ℂ) * ((d0 * K * K + d1 * K + d2) * z ^ 2 + 2 * (d2 - d0 * K * K) * z + (d0 * K * K - d1 * K + d2)) = 0 := by
      linear_combination hz
    exact (mul_eq_zero.mp this).resolve_left hl'
  · rw [hw 0 (by simp)]
    simp [analog]
  · unfold response evalStage
    rw [Complex.exp_pi_mul_I, hc]
    simp only [List.getD_cons_zero, List.getD_cons_succ, Complex.ofRealHom_eq_coe]
    have k2 : ∀ p0 p1 p2 : ℝ,
        (((lam * (p0 * K ^ 2 + p1 * K + p2) : ℝ) : ℂ) * -1 + ((lam * (2 * (p2 - p0 * K ^ 2)) : ℝ) : ℂ)) * -1 +
        ((lam * (p0 * K ^ 2 - p1 * K + p2) : ℝ) : ℂ) = lam * (4 * K ^ 2) * p0 := by
      intro p0 p1 p2
      push_cast
      ring
    rw [eb0, eb1, eb2, ea0, ea1, ea2, k2, k2, mul_div_mul_left]
    exact mul_ne_zero hl' (mul_ne_zero (by norm_num) (pow_ne_zero 2 hK'))

/-- The designs based on `BilinearTransform`. -/
theorem transform_core {n0 n1 n2 d1 d2 fs m : ℝ} (hfs : 0 < fs) (h0 : 0 ≤ m) (hm : m < fs / 2) (h1 : 0 < d1)
    (h2 : 0 < d2) :
    ∃ c, bilinearTransform [n0, n1, n2] [1, d1, d2] fs m = some c ∧ Stable c ∧
      Discretizes c (computeK m fs) (analog n0 n1 n2 1 d1 d2) ∧ response c 0 = n2 / d2 ∧
      response c Real.pi = n0 ∧
      (∀ ω, Real.cos (ω / 2) ≠ 0 → response c ω =
        analog n0 n1 n2 1 d1 d2 (((computeK m fs * Real.tan (ω / 2) : ℝ) : ℂ) * Complex.I)) := by
  obtain ⟨c, e1, e2, e3, e4, e5, e6⟩ := design_core (n0 := n0) (n1 := n1) (n2 := n2) hfs h0 hm h1 h2
  exact ⟨c, e1, e2, ⟨computeK_pos hfs h0 hm, e3⟩, e4, e5, e6⟩

/-- The response at the match frequency. -/
theorem match_response {c : Stage ℝ} {H : ℂ → ℂ} {fs m : ℝ} (hfs : 0 < fs) (h1 : fs / 10 ^ 7 ≤ m)
    (hm : m < fs / 2)
    (h : ∀ ω, Real.cos (ω / 2) ≠ 0 → response c ω =
      H (((computeK m fs * Real.tan (ω / 2) : ℝ) : ℂ) * Complex.I)) :
    response c (radians m fs) = H (((2 * Real.pi * m : ℝ) : ℂ) * Complex.I) := by
  have hm0 : 0 < m := lt_of_lt_of_le (by positivity) h1
  rw [h _ (cos_half_pos hfs hm0 hm).ne', half_radians, computeK_match hfs h1 hm]

/-- Without a match frequency the response at a prewarped frequency. -/
theorem prewarp_response {c : Stage ℝ} {H : ℂ → ℂ} {fs m : ℝ} (hfs : 0 < fs) (h0 : 0 < m) (hm : m < fs / 2)
    (h : ∀ ω, Real.cos (ω / 2) ≠ 0 → response c ω =
      H (((computeK 0 fs * Real.tan (ω / 2) : ℝ) : ℂ) * Complex.I)) :
    response c (radians m fs) = H (((prewarp m fs : ℝ) : ℂ) * Complex.I) := by
  rw [h _ (cos_half_pos hfs h0 hm).ne', half_radians]
  unfold computeK prewarp
  rw [if_pos (by positivity)]

theorem prewarp_pos {fs m : ℝ} (hfs : 0 < fs) (h0 : 0 < m) (hm : m < fs / 2) : 0 < prewarp m fs := by
  unfold prewarp
  have := tan_pos hfs h0 hm
  positivity

theorem prewarp_lt {fs m n : ℝ} (hfs : 0 < fs) (h0 : 0 < m) (hmn : m < n) (hn : n < fs / 2) :
    prewarp m fs < prewarp n fs := by
  unfold prewarp
  obtain ⟨a, _⟩ := half_pos hfs h0 (hmn.trans hn)
  obtain ⟨_, b⟩ := half_pos hfs (h0.trans hmn) hn
  rw [half_radians] at a b
  have : Real.tan (Real.pi * m / fs) < Real.tan (Real.pi * n / fs) := by
    apply Real.tan_lt_tan_of_lt_of_lt_pi_div_two _ b
    · exact div_lt_div_of_pos_right (mul_lt_mul_of_pos_left hmn Real.pi_pos) hfs
    · linarith [Real.pi_pos]
  nlinarith

theorem computeK_matches {fs m : ℝ} (hfs : 0 < fs) (hm : m < fs / 2) : Matches (computeK m fs) m fs := by
  refine ⟨fun h => by rw [half_radians, computeK_match hfs h hm], fun h => ?_⟩
  unfold computeK
  rw [if_pos (by rwa [mul_one_div])]

theorem quad_ne_zero {d1 d2 : ℝ} (h1 : 0 < d1) (h2 : 0 < d2) (W : ℝ) :
    quad 1 d1 d2 ((W : ℂ) * Complex.I) ≠ 0 := by
  intro h
  have := quad_hurwitz h1 h2 _ h
  simp at this

/-- Where the point of the unit circle is `-1`, the response is that at the Nyquist frequency. -/
theorem response_nyquist (c : Stage ℝ) {ω : ℝ} (h : Real.cos (ω / 2) = 0) : response c ω = response c Real.pi := by
  have : Complex.exp (ω * Complex.I) = Complex.exp (Real.pi * Complex.I) := by
    rw [Complex.exp_pi_mul_I]
    have e1 : (ω : ℂ) * Complex.I = ((2 : ℕ) : ℂ) * (((ω / 2 : ℝ) : ℂ) * Complex.I) := by push_cast; ring
    rw [e1, Complex.exp_nat_mul, Complex.exp_mul_I, ← Complex.ofReal_cos, ← Complex.ofReal_sin, h]
    have h2 : Real.sin (ω / 2) ^ 2 = 1 := by
      have := Real.sin_sq_add_cos_sq (ω / 2)
      rw [h] at this
      linarith
    have h3 : (Real.sin (ω / 2) : ℂ) ^ 2 = 1 := by exact_mod_cast h2
    rw [Complex.ofReal_zero, zero_add, mul_pow, h3, Complex.I_sq, one_mul]
  unfold response
  rw [this]

/-- The members of a stage built by the bilinear transform agree with a relation between the analog
functions at every frequency. -/
theorem response_rel {c : Stage ℝ} {K n0 n1 n2 d1 d2 : ℝ} (hpi : response c Real.pi = n0)
    (h : ∀ ω, Real.cos (ω / 2) ≠ 0 → response c ω =
        analog n0 n1 n2 1 d1 d2 (((K * Real.tan (ω / 2) : ℝ) : ℂ) * Complex.I)) (ω : ℝ) :
    response c ω = n0 ∧ Real.cos (ω / 2) = 0 ∨ Real.cos (ω / 2) ≠ 0 ∧ response c ω =
        analog n0 n1 n2 1 d1 d2 (((K * Real.tan (ω / 2) : ℝ) : ℂ) * Complex.I) := by
  by_cases hc : Real.cos (ω / 2) = 0
  · left
    exact ⟨by rw [response_nyquist c hc, hpi], hc⟩
  · right
    exact ⟨hc, h ω hc⟩

theorem norm_add_mul_I (x y : ℝ) : ‖(x : ℂ) + (y : ℂ) * Complex.I‖ = √(x ^ 2 + y ^ 2) := by
  rw [Complex.norm_add_mul_I]

theorem sqrt_ratio {A x y : ℝ} (hA : 0 ≤ A) (hy : 0 < y) (h : x = A ^ 2 * y) : √x / √y = A := by
  rw [h, Real.sqrt_mul (by positivity), Real.sqrt_sq hA, mul_div_assoc, div_self (Real.sqrt_pos.mpr hy).ne',
    mul_one]

end Verif.FilterDesign
