import Verif.Proof.Butterworth
import Mathlib.Analysis.SpecialFunctions.Trigonometric.Chebyshev.Basic
import Mathlib.Analysis.SpecialFunctions.Trigonometric.Complex
import Mathlib.Analysis.SpecialFunctions.Arsinh

/-!
# Products over the poles of Chebyshev filters
-/

namespace Verif.PoleZero
open Finset
open scoped ComplexConjugate

/-- The angles `π (2 j + 1 - N) / (2 N)`. -/
noncomputable def chebAngle (N j : ℕ) : ℝ := Real.pi * (2 * j + 1 - N) / (2 * N)

/-- The product over all `N` angles, grouped in pairs of opposite angles. -/
theorem prod_angles {M : Type*} [CommMonoid M] (N : ℕ) (hN : 0 < N) (f : ℝ → M) :
    ∏ j ∈ range N, f (chebAngle N j) = (if N % 2 = 1 then f 0 else 1) *
      ∏ n ∈ range (N / 2), (f (-(Real.pi / N * ((n : ℝ) + 1 - (if N % 2 = 0 then 1 else 0) * (1 / 2)))) *
        f (Real.pi / N * ((n : ℝ) + 1 - (if N % 2 = 0 then 1 else 0) * (1 / 2)))) := by
  have hN0 : (N : ℝ) ≠ 0 := by exact_mod_cast hN.ne'
  obtain ⟨m, hm⟩ : ∃ m, m = N / 2 := ⟨_, rfl⟩
  rw [← hm, Finset.prod_mul_distrib]
  have refl : ∏ n ∈ range m, f (-(Real.pi / N * ((n : ℝ) + 1 - (if N % 2 = 0 then 1 else 0) * (1 / 2))))
      = ∏ n ∈ range m, f (-(Real.pi / N * (((m - 1 - n : ℕ) : ℝ) + 1 - (if N % 2 = 0 then 1 else 0) * (1 / 2)))) :=
    (Finset.prod_range_reflect
      (fun n : ℕ => f (-(Real.pi / N * ((n : ℝ) + 1 - (if N % 2 = 0 then 1 else 0) * (1 / 2))))) m).symm
  rw [refl]
  by_cases hodd : N % 2 = 1
  · rw [if_pos hodd]
    have hNm : N = m + 1 + m := by omega
    have hc : (N : ℝ) = 2 * m + 1 := by rw [hNm]; push_cast; ring
    have e0 : N % 2 = 0 ↔ False := by rw [hodd]; simp
    conv_lhs => rw [show range N = range (m + 1 + m) by rw [← hNm]]
    rw [Finset.prod_range_add, Finset.prod_range_succ, mul_right_comm, mul_comm]
    congr 1
    · congr 1
      unfold chebAngle
      rw [hc]
      ring
    · congr 1
      · apply Finset.prod_congr rfl
        intro n hn
        have hn := Finset.mem_range.1 hn
        congr 1
        unfold chebAngle
        rw [Nat.cast_sub (by omega), Nat.cast_sub (by omega)]
        simp only [e0, if_false]
        rw [hc] at hN0 ⊢
        push_cast
        field_simp
        ring
      · apply Finset.prod_congr rfl
        intro n hn
        congr 1
        unfold chebAngle
        simp only [e0, if_false]
        rw [hc] at hN0 ⊢
        push_cast
        field_simp
        ring
  · rw [if_neg hodd, one_mul]
    have hNm : N = m + m := by omega
    have hc : (N : ℝ) = 2 * m := by rw [hNm]; push_cast; ring
    have e0 : N % 2 = 0 := by omega
    conv_lhs => rw [show range N = range (m + m) by rw [← hNm]]
    rw [Finset.prod_range_add]
    congr 1
    · apply Finset.prod_congr rfl
      intro n hn
      have hn := Finset.mem_range.1 hn
      congr 1
      unfold chebAngle
      rw [Nat.cast_sub (by omega), Nat.cast_sub (by omega)]
      simp only [e0, if_true]
      rw [hc] at hN0 ⊢
      push_cast
      field_simp
      ring
    · apply Finset.prod_congr rfl
      intro n hn
      congr 1
      unfold chebAngle
      simp only [e0, if_true]
      rw [hc] at hN0 ⊢
      push_cast
      field_simp
      ring

/-- The two factors with `z` and `e^{±μ}`. -/
theorem cheb_factor (t μ : ℝ) (z : ℂ) (hz : z ≠ 0) :
    (z - Complex.exp ((t : ℝ) * Complex.I) * Complex.exp μ) *
      (z - Complex.exp (-((t : ℝ) * Complex.I)) * Complex.exp (-μ))
    = z * (2 * ((z + z⁻¹) / 2 - Complex.cos (t - μ * Complex.I))) := by
  rw [← Complex.exp_add, ← Complex.exp_add, Complex.cos]
  have e1 : (t - μ * Complex.I) * Complex.I = t * Complex.I + μ := by
    linear_combination -(μ : ℂ) * Complex.I_sq
  have e2 : -(t - μ * Complex.I) * Complex.I = -(t * Complex.I) + -μ := by
    linear_combination (μ : ℂ) * Complex.I_sq
  rw [e1, e2]
  have e3 : Complex.exp (t * Complex.I + μ) * Complex.exp (-(t * Complex.I) + -μ) = 1 := by
    rw [← Complex.exp_add]
    ring_nf
    exact Complex.exp_zero
  field_simp
  linear_combination e3

/-- `T_{2N}` minus its value at a root, as a product. -/
theorem cheb_prod (N : ℕ) (hN : 0 < N) (μ : ℝ) (z : ℂ) (hz : z ≠ 0) :
    z ^ N * ∏ j ∈ range N, (2 * ((z + z⁻¹) / 2 - Complex.cos ((Real.pi * (2 * j + 1) / N : ℝ) - μ * Complex.I)))
      = (z ^ N + Complex.exp μ ^ N) * (z ^ N + Complex.exp (-μ) ^ N) := by
  have hN0 : (N : ℝ) ≠ 0 := by exact_mod_cast hN.ne'
  rw [pow_add_pow_prod N hN, pow_add_pow_prod N hN]
  have refl := Finset.prod_range_reflect
    (fun k : ℕ => z - Complex.exp ((Real.pi * (2 * k + 1) / N : ℝ) * Complex.I) * Complex.exp (-μ)) N
  rw [← refl, ← Finset.prod_mul_distrib]
  have : z ^ N = ∏ j ∈ range N, z := by simp
  rw [this, ← Finset.prod_mul_distrib]
  apply Finset.prod_congr rfl
  intro j hj
  have hj := Finset.mem_range.1 hj
  rw [← cheb_factor _ _ _ hz]
  congr 3
  have e1 : Real.pi * (2 * ((N - 1 - j : ℕ) : ℝ) + 1) / N = 2 * Real.pi - Real.pi * (2 * j + 1) / N := by
    rw [Nat.cast_sub (by omega), Nat.cast_sub (by omega)]
    field_simp
    push_cast
    ring
  rw [e1, Complex.exp_eq_exp_iff_exists_int]
  exact ⟨-1, by push_cast; ring⟩

/-- **The power polynomial of Chebyshev filters.** -/
theorem cheb_norm (N : ℕ) (hN : 0 < N) (μ ω : ℝ) :
    ∏ j ∈ range N, ‖(ω : ℂ) - Complex.cos ((Real.pi * (2 * j + 1) / (2 * N) : ℝ) - μ * Complex.I)‖ ^ 2
      = (((Polynomial.Chebyshev.T ℝ N).eval ω) ^ 2 + Real.sinh (N * μ) ^ 2) / 4 ^ (N - 1) := by
  have hN0 : (N : ℝ) ≠ 0 := by exact_mod_cast hN.ne'
  obtain ⟨φ, hφ⟩ := Complex.cos_surjective (ω : ℂ)
  obtain ⟨z, hzd⟩ : ∃ z, z = Complex.exp (φ * Complex.I) := ⟨_, rfl⟩
  have hz : z ≠ 0 := hzd ▸ Complex.exp_ne_zero _
  have hzi : z⁻¹ = Complex.exp (-φ * Complex.I) := by rw [hzd, ← Complex.exp_neg]; ring_nf
  have hω : (z + z⁻¹) / 2 = (ω : ℂ) := by rw [hzi, hzd, ← hφ, Complex.cos]
  have hT : ((Polynomial.Chebyshev.T ℂ N).eval (ω : ℂ)) = (z ^ N + z⁻¹ ^ N) / 2 := by
    rw [← hφ, Polynomial.Chebyshev.T_complex_cos, hzi, hzd, ← Complex.exp_nat_mul, ← Complex.exp_nat_mul, Complex.cos]
    push_cast
    ring_nf
  have hTr : ((Polynomial.Chebyshev.T ℂ N).eval (ω : ℂ)) = (((Polynomial.Chebyshev.T ℝ N).eval ω : ℝ) : ℂ) := by
    simp
  have main := cheb_prod (2 * N) (by omega) μ z hz
  rw [hω] at main
  -- split the product in two halves
  have half : ∏ j ∈ range (2 * N), (2 * ((ω : ℂ) - Complex.cos ((Real.pi * (2 * j + 1) / ((2 * N : ℕ) : ℝ) : ℝ) - μ * Complex.I)))
      = ∏ j ∈ range N, ((4 * ‖(ω : ℂ) - Complex.cos ((Real.pi * (2 * j + 1) / (2 * N) : ℝ) - μ * Complex.I)‖ ^ 2 : ℝ) : ℂ) := by
    rw [two_mul N, Finset.prod_range_add,
      ← Finset.prod_range_reflect (fun x : ℕ => 2 * ((ω : ℂ) - Complex.cos ((Real.pi * (2 * ((N + x : ℕ) : ℝ) + 1) / ((N + N : ℕ) : ℝ) : ℝ) - μ * Complex.I))) N,
      ← Finset.prod_mul_distrib]
    apply Finset.prod_congr rfl
    intro j hj
    have hj := Finset.mem_range.1 hj
    have e1 : Real.pi * (2 * ((N + (N - 1 - j) : ℕ) : ℝ) + 1) / ((N + N : ℕ) : ℝ)
        = 2 * Real.pi - Real.pi * (2 * j + 1) / (2 * N) := by
      rw [Nat.cast_add, Nat.cast_sub (by omega), Nat.cast_sub (by omega)]
      push_cast
      field_simp
      ring
    rw [e1, show Real.pi * (2 * (j : ℝ) + 1) / ((N + N : ℕ) : ℝ) = Real.pi * (2 * j + 1) / (2 * N) by push_cast; ring_nf]
    generalize Real.pi * (2 * (j : ℝ) + 1) / (2 * N) = a
    have e2 : Complex.cos (((2 * Real.pi - a : ℝ) : ℂ) - μ * Complex.I) = conj (Complex.cos ((a : ℂ) - μ * Complex.I)) := by
      rw [← Complex.cos_conj]
      have : (((2 * Real.pi - a : ℝ) : ℂ) - μ * Complex.I) = 2 * Real.pi - (a + μ * Complex.I) := by push_cast; ring
      rw [this, Complex.cos_two_pi_sub]
      congr 1
      simp
    rw [e2]
    push_cast
    rw [← Complex.conj_mul']
    simp only [map_sub, Complex.conj_ofReal]
    ring
  rw [half, Finset.prod_congr rfl fun j _ => Complex.ofReal_mul _ _, Finset.prod_mul_distrib] at main
  rw [← Complex.ofReal_inj]
  have hsinh : (((Real.sinh (N * μ)) ^ 2 : ℝ) : ℂ) = ((Complex.exp μ ^ N - Complex.exp (-μ) ^ N) / 2) ^ 2 := by
    push_cast
    rw [Complex.sinh, ← Complex.exp_nat_mul, ← Complex.exp_nat_mul]
    ring_nf
  have hinv : Complex.exp μ ^ N * Complex.exp (-μ) ^ N = 1 := by
    rw [← mul_pow, ← Complex.exp_add, add_neg_cancel, Complex.exp_zero, one_pow]
  have hzz : z ^ N * z⁻¹ ^ N = 1 := by rw [← mul_pow, mul_inv_cancel₀ hz, one_pow]
  have h4 : (4 : ℂ) ^ N = 4 * 4 ^ (N - 1) := by rw [← pow_succ']; congr 1; omega
  rw [Complex.ofReal_div, Complex.ofReal_add, hsinh, Complex.ofReal_pow, ← hTr, hT]
  simp only [Finset.prod_const, Finset.card_range] at main
  push_cast at main ⊢
  rw [h4] at main
  rw [pow_mul' z, pow_mul' (Complex.exp (μ : ℂ)), pow_mul' (Complex.exp (-(μ : ℂ)))] at main
  generalize z ^ N = Z at *
  generalize z⁻¹ ^ N = W at *
  generalize Complex.exp (μ : ℂ) ^ N = A at *
  generalize Complex.exp (-(μ : ℂ)) ^ N = B at *
  clear half
  generalize (∏ x ∈ range N, (_ : ℂ)) = P at *
  have hZ : Z ≠ 0 := left_ne_zero_of_mul_eq_one hzz
  have h4' : (4 : ℂ) ^ (N - 1) ≠ 0 := pow_ne_zero _ (by norm_num)
  rw [eq_div_iff h4']
  have hZ2 : Z ^ 2 ≠ 0 := pow_ne_zero _ hZ
  apply mul_left_cancel₀ hZ2
  have hW : W = Z⁻¹ := by
    field_simp
    linear_combination hzz
  rw [hW]
  field_simp
  linear_combination main + (A * B + 1 + 2 * Z ^ 2) * hinv
end Verif.PoleZero
