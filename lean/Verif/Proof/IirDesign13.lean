import Verif.Proof.IirDesign12
import Verif.Theorems.IirDesignFilters

/-!
# The real poles of the Butterworth and Chebyshev prototypes
-/

namespace Verif.IirDesign
open Verif.PortableComplex Spec
open scoped ComplexConjugate

theorem full_real {n : ℕ} {root : ℝ → CD} (h1 : 1 ≤ n) (h2 : n ≤ 30) (hc : ∀ t, PortableComplex.conj (root t) = root (-t))
    (him : ∀ t, Real.sin t ≠ 0 → (root t).val.im ≠ 0) {p : ℝ} (hp : (p : ℂ) ∈ (full n root).map CD.val) :
    n % 2 = 1 ∧ (p : ℂ) = (root 0).val := by
  obtain ⟨z, hz, e⟩ := List.mem_map.1 hp
  have hz' := hz
  obtain ⟨t, rfl, ht, h0 | h0, -⟩ := full_mem hc hz
  · subst h0
    refine ⟨?_, e.symm⟩
    by_contra hn
    unfold full at hz'
    rw [if_pos (by omega), List.nil_append, rootPairs, List.mem_flatMap] at hz'
    obtain ⟨k, hk, hz'⟩ := hz'
    have hk := List.mem_range.1 hk
    have hs := theta_sin hk
    have h3 := him _ hs.ne'
    have hr0 : (root 0).val.im = 0 := by rw [e, Complex.ofReal_im]
    rcases List.mem_cons.1 hz' with h4 | h4
    · rw [h4, hc] at hr0
      exact him (-theta n (k + 1)) (by rw [Real.sin_neg]; linarith) hr0
    · rw [List.mem_singleton.1 h4] at hr0
      exact h3 hr0
  · exfalso
    have h3 := sin_angle h1 h2 h0 ht
    refine him t ?_ (by rw [e, Complex.ofReal_im])
    intro hs
    rw [hs, abs_zero] at h3
    norm_num at h3

theorem bw_real {n : ℕ} (h1 : 1 ≤ n) (h2 : n ≤ 30) {p : ℝ} (hp : (p : ℂ) ∈ (full n bwRoot).map CD.val) :
    n % 2 = 1 ∧ p = -1 := by
  obtain ⟨h3, h4⟩ := full_real h1 h2 bwRoot_conj (fun t ht => ht) hp
  refine ⟨h3, ?_⟩
  have := congrArg Complex.re h4
  simpa [bwRoot, CD.val] using this

theorem sinh_im (μ t : ℝ) : (Complex.sinh (μ + t * Complex.I)).im = Real.cosh μ * Real.sin t := by
  have e : Complex.sinh (μ + t * Complex.I) = (Real.sinh μ * Real.cos t : ℝ) + (Real.cosh μ * Real.sin t : ℝ) * Complex.I := by
    rw [Complex.sinh_add, Complex.sinh_mul_I, Complex.cosh_mul_I]
    push_cast
    ring
  rw [e, Complex.add_im, Complex.im_ofReal_mul, Complex.ofReal_im, Complex.I_im]; ring

theorem c1_real {n : ℕ} (h1 : 1 ≤ n) (h2 : n ≤ 30) (μ : ℝ) {p : ℝ} (hp : (p : ℂ) ∈ (full n (c1Root μ)).map CD.val) :
    n % 2 = 1 ∧ p = -Real.sinh μ := by
  obtain ⟨h3, h4⟩ := full_real h1 h2 (c1Root_conj μ) (fun t ht => by
    rw [c1Root_val, Complex.neg_im, sinh_im]
    exact neg_ne_zero.2 (mul_ne_zero (Real.cosh_pos μ).ne' ht)) hp
  refine ⟨h3, ?_⟩
  rw [c1Root_val, Complex.ofReal_zero, zero_mul, add_zero, ← Complex.ofReal_sinh, ← Complex.ofReal_neg] at h4
  exact Complex.ofReal_injective h4

theorem c2_real {n : ℕ} (h1 : 1 ≤ n) (h2 : n ≤ 30) {μ : ℝ} (hμ : 0 < μ) {p : ℝ}
    (hp : (p : ℂ) ∈ (full n (c2Root μ)).map CD.val) : n % 2 = 1 ∧ p = -(Real.sinh μ)⁻¹ := by
  obtain ⟨h3, h4⟩ := full_real h1 h2 (c2Root_conj hμ) (fun t ht => by
    have hne := sinh_ne hμ t
    rw [c2Root_val hne, neg_div, one_div (Complex.sinh _), Complex.neg_im, Complex.inv_im, sinh_im]
    exact neg_ne_zero.2 (div_ne_zero (neg_ne_zero.2 (mul_ne_zero (Real.cosh_pos μ).ne' ht))
      (Complex.normSq_pos.2 hne).ne')) hp
  refine ⟨h3, ?_⟩
  have hne := sinh_ne hμ 0
  rw [c2Root_val hne, Complex.ofReal_zero, zero_mul, add_zero, ← Complex.ofReal_sinh, neg_div, one_div,
    ← Complex.ofReal_inv, ← Complex.ofReal_neg] at h4
  exact Complex.ofReal_injective h4

theorem margins {low high rate : ℝ} (hr : 0 < rate) (h1 : rate / 10 ^ 9 ≤ low) (h2 : high ≤ rate / 2 - rate / 10 ^ 9)
    (h3 : rate / 10 ^ 9 ≤ high - low) : 0 < low ∧ low < high ∧ high < rate / 2 := by
  have : 0 < rate / 10 ^ 9 := by positivity
  exact ⟨by linarith, by linarith, by linarith⟩

/-- The band from a sixth to a third of the rate is clear for real poles of magnitude at most 1. -/
theorem realClear_example {rate p : ℝ} (hr : 0 < rate) (hp : p ^ 2 ≤ 1) : RealClear p (rate / 6) (rate / 3) rate := by
  obtain ⟨e1, e2⟩ := band_example hr
  obtain ⟨hs, hp0⟩ := sqrt3
  right
  rw [e1, e2]
  have e3 : 1 / √3 * √3 = 1 := by field_simp
  have e4 : (√3 - 1 / √3) ^ 2 = 4 / 3 := by
    have : (√3 - 1 / √3) ^ 2 = √3 * √3 - 2 * (1 / √3 * √3) + 1 / (√3 * √3) := by
      field_simp; ring
    rw [this, e3, hs]; norm_num
  rw [e3, mul_pow, e4]
  apply Real.lt_sqrt_of_sq_lt
  have : p ^ 2 * (4 / 3) ≤ 1 * (4 / 3) := mul_le_mul_of_nonneg_right hp (by norm_num)
  norm_num at this ⊢
  linarith

end Verif.IirDesign
