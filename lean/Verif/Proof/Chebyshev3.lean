import Verif.Proof.PoleZero7

/-!
# More about the Chebyshev prototypes: the real pole, and the gain at infinity
-/

namespace Verif.PoleZero
open Verif.IirDesign (ps nrm theta full rootPairs c1Root c2Root c2Zero ps_append ps_cons ps_nil)
open Verif.PortableComplex (CD)
open Polynomial.Chebyshev (T)
open Verif.BiquadCascade Verif.FilterDesign Verif.LinearFilter.Spec Spec

theorem chebyshev1_lone {N : ℕ} {r p : ℝ} (hp : p ∈ (chebyshev1 N r).lonePoles) : N % 2 = 1 ∧
    p = -Real.sinh (Real.arsinh (1 / √((10 : ℝ) ^ (r / 10) - 1)) / N) := by
  rw [(chebyshev1_shape N r).2.1, indices_zero] at hp
  split_ifs at hp with h
  · simp at hp
  · refine ⟨by omega, ?_⟩
    simp only [List.map_cons, List.map_nil, List.mem_singleton] at hp
    rw [hp, sinh_mk]
    have : -Complex.sinh ((chebyshevMu (chebyshev1Epsilon r) N : ℂ) + ((-(Real.pi * ((0 : ℕ) : ℝ) / (2 * N)) : ℝ) : ℂ) * Complex.I)
        = ((-Real.sinh (chebyshevMu (chebyshev1Epsilon r) N) : ℝ) : ℂ) := by
      push_cast
      simp
    rw [this, Complex.ofReal_re, chebyshevMu, chebyshev1Epsilon]

theorem chebyshev2_lone {N : ℕ} {r p : ℝ} (hp : p ∈ (chebyshev2 N r).lonePoles) : N % 2 = 1 ∧
    p = -1 / Real.sinh (Real.arsinh (√((10 : ℝ) ^ (r / 10) - 1)) / N) := by
  rw [(chebyshev2_shape N r).2.2.1, indices_zero] at hp
  split_ifs at hp with h
  · simp at hp
  · refine ⟨by omega, ?_⟩
    simp only [List.map_cons, List.map_nil, List.mem_singleton] at hp
    rw [hp, sinh_mk]
    have : (-1 : ℂ) / Complex.sinh ((chebyshevMu (chebyshev2Epsilon r) N : ℂ) + ((Real.pi * ((0 : ℕ) : ℝ) / (2 * N) : ℝ) : ℂ) * Complex.I)
        = ((-1 / Real.sinh (chebyshevMu (chebyshev2Epsilon r) N) : ℝ) : ℂ) := by
      push_cast
      simp
    rw [this, Complex.ofReal_re, chebyshevMu, chebyshev2Epsilon, one_div_one_div]

theorem T_zero_even {N : ℕ} (h : N % 2 = 0) : (T ℝ N).eval 0 ^ 2 = 1 := by
  have hev : Even (N : ℤ) := by rw [Int.even_iff]; omega
  rw [Polynomial.Chebyshev.T_eval_zero_of_even ℝ hev]
  rcases Int.even_or_odd ((N : ℤ) / 2) with h | h
  · rw [Int.negOnePow_even _ h]; simp
  · rw [Int.negOnePow_odd _ h]; simp

theorem c2_nrm_zero {n : ℕ} (hn : 0 < n) {μ : ℝ} (hμ : 0 < μ) :
    nrm ((full n (c2Root μ)).map CD.val) 0 * (((T ℝ n).eval 0 ^ 2 + Real.sinh (n * μ) ^ 2) / 4 ^ (n - 1)) = 1 := by
  rw [← Verif.IirDesign.cheb_sinh hn]
  unfold nrm
  rw [Verif.IirDesign.full_ps hn (Verif.IirDesign.c2Root_conj hμ), norm_prod, ← Finset.prod_pow, ← Finset.prod_mul_distrib]
  apply Finset.prod_eq_one
  intro j _
  have hS := Verif.IirDesign.sinh_ne hμ (chebAngle n j)
  rw [Verif.IirDesign.c2Root_val hS]
  have hn : ‖Complex.sinh (μ + (chebAngle n j) * Complex.I)‖ ≠ 0 := norm_ne_zero_iff.2 hS
  rw [Complex.ofReal_zero, zero_mul, zero_add, zero_sub, norm_neg, norm_div, norm_neg, norm_one]
  field_simp

theorem z2_nrm_zero {n : ℕ} (hn : 0 < n) (he : n % 2 = 0) : nrm ((rootPairs n c2Zero).map CD.val) 0 = 4 ^ (n - 1) := by
  have h0 := cheb_norm n hn 0 0
  rw [mul_zero, Real.sinh_zero, zero_pow two_ne_zero, add_zero, T_zero_even he] at h0
  have h1 : ∏ j ∈ Finset.range n, ‖((0 : ℝ) : ℂ) - Complex.cos ((Real.pi * (2 * j + 1) / (2 * n) : ℝ) - ((0 : ℝ) : ℂ) * Complex.I)‖ ^ 2
      = ∏ j ∈ Finset.range n, Real.sin (chebAngle n j) ^ 2 := by
    apply Finset.prod_congr rfl
    intro j _
    rw [Complex.ofReal_zero, zero_mul, sub_zero, ← Complex.ofReal_cos, ← Complex.ofReal_zero, ← Complex.ofReal_sub, Complex.norm_real,
      Real.norm_eq_abs, sq_abs, ← Verif.IirDesign.chebAngle_eq hn, add_comm (Real.pi / 2), Real.cos_add_pi_div_two, sub_neg_eq_add, zero_add]
  rw [h1, prod_angles n hn (fun t => Real.sin t ^ 2), if_neg (by omega), one_mul] at h0
  have h2 : (∏ k ∈ Finset.range (n / 2), (0 ^ 2 - (1 / Real.sin (theta n (k + 1))) ^ 2) ^ 2) *
      (∏ k ∈ Finset.range (n / 2), (Real.sin (theta n (k + 1)) ^ 2) ^ 2) = 1 := by
    rw [← Finset.prod_mul_distrib]
    apply Finset.prod_eq_one
    intro k hk
    have := Verif.IirDesign.theta_sin (Finset.mem_range.1 hk)
    field_simp
    norm_num
  have h3 : ∏ k ∈ Finset.range (n / 2), (Real.sin (theta n (k + 1)) ^ 2) ^ 2 = 1 / 4 ^ (n - 1) := by
    rw [← h0]
    apply Finset.prod_congr rfl
    intro k _
    have e : theta n (k + 1) = Real.pi / n * ((k : ℝ) + 1 - (if n % 2 = 0 then 1 else 0) * (1 / 2)) := by
      unfold theta
      push_cast
      rfl
    rw [← e, Real.sin_neg]
    ring
  rw [Verif.IirDesign.z2_nrm]
  rw [h3] at h2
  have h4 : (4 : ℝ) ^ (n - 1) ≠ 0 := by positivity
  rw [mul_one_div, div_eq_one_iff_eq h4] at h2
  exact h2

theorem chebyshev2_gain_even {N : ℕ} (hN : 0 < N) (he : N % 2 = 0) {r : ℝ} (hr : 0 < r) :
    (chebyshev2 N r).gain ^ 2 = (10 : ℝ) ^ (-r / 10) := by
  obtain ⟨g0, g1, g2, g3⟩ := chebyshev2_gain N r hN hr
  obtain ⟨he1, he2⟩ := chebyshev2Epsilon_pos hr
  obtain ⟨m1, m2⟩ := chebyshevMu_eq hN he1
  have hp := c2_nrm_zero hN m2
  have hz := z2_nrm_zero hN he
  have e1 : nrm ((rootPairs N c2Zero).map CD.val) 0 = nrm (zeros (chebyshev2 N r)) 0 := by
    unfold nrm; rw [z2_ps]
  have e2 : nrm ((full N (c2Root (chebyshevMu (chebyshev2Epsilon r) N))).map CD.val) 0
      = nrm (poles (chebyshev2 N r)) 0 := by
    unfold nrm; rw [c2_ps hN hr]
  rw [e1] at hz
  rw [e2, m1, he2, T_zero_even he, add_sub_cancel] at hp
  rw [g1, hz, neg_div, Real.rpow_neg (by norm_num)]
  have h4 : (4 : ℝ) ^ (N - 1) ≠ 0 := by positivity
  have h5 : (10 : ℝ) ^ (r / 10) ≠ 0 := by positivity
  field_simp at hp ⊢
  linarith

/-- The classical responses are even in the frequency. -/
theorem cheb1_even (N : ℕ) (r w : ℝ) :
    Verif.IirDesign.Spec.chebyshev1 N r (-w) = Verif.IirDesign.Spec.chebyshev1 N r w := by
  unfold Verif.IirDesign.Spec.chebyshev1
  rw [Verif.IirDesign.T_neg_sq]

theorem cheb2_even (N : ℕ) (r w : ℝ) :
    Verif.IirDesign.Spec.chebyshev2 N r (-w) = Verif.IirDesign.Spec.chebyshev2 N r w := by
  unfold Verif.IirDesign.Spec.chebyshev2
  rw [inv_neg, Verif.IirDesign.T_neg_sq]
  simp only [neg_eq_zero]

theorem butterworth_even (N : ℕ) (w : ℝ) :
    Verif.IirDesign.Spec.butterworth N (-w) = Verif.IirDesign.Spec.butterworth N w := by
  unfold Verif.IirDesign.Spec.butterworth
  rw [pow_mul, pow_mul, neg_sq]

end Verif.PoleZero
