import Mathlib.Analysis.SpecialFunctions.Complex.CircleAddChar
import Mathlib.Algebra.Field.GeomSum
import Mathlib.Algebra.BigOperators.Intervals

/-! Orthogonality of the discrete exponentials and cosines. -/

namespace Verif.Dft

open Finset

theorem list_sum_range {M : Type*} [AddCommMonoid M] (f : ℕ → M) (n : ℕ) :
    ((List.range n).map f).sum = ∑ j ∈ range n, f j := by
  induction n with
  | zero => simp
  | succ n ih => rw [List.range_succ, List.map_append, List.sum_append, ih, sum_range_succ]; simp

theorem list_sum_range' {M : Type*} [AddCommMonoid M] (f : ℕ → M) (a n : ℕ) :
    ((List.range' a n).map f).sum = ∑ j ∈ range n, f (a + j) := by
  rw [List.range'_eq_map_range, List.map_map, ← list_sum_range]
  rfl

theorem sum_exp {n : ℕ} (hn : 0 < n) (d : ℤ) :
    ∑ j ∈ range n, Complex.exp (2 * Real.pi * Complex.I * j * d / n)
      = if (n : ℤ) ∣ d then (n : ℂ) else 0 := by
  have hn' : (n : ℂ) ≠ 0 := by exact_mod_cast hn.ne'
  have e : ∀ j : ℕ, Complex.exp (2 * Real.pi * Complex.I * j * d / n)
      = Complex.exp (2 * Real.pi * Complex.I * d / n) ^ j := by
    intro j
    rw [← Complex.exp_nat_mul]
    congr 1; ring
  simp only [e]
  split
  · rename_i h
    obtain ⟨k, rfl⟩ := h
    have : Complex.exp (2 * Real.pi * Complex.I * ((n * k : ℤ) : ℂ) / n) = 1 := by
      rw [Complex.exp_eq_one_iff]
      refine ⟨k, ?_⟩
      push_cast
      field_simp
    rw [this]
    simp
  · rename_i h
    have h1 : Complex.exp (2 * Real.pi * Complex.I * d / n) ≠ 1 := by
      rw [Ne, Complex.exp_eq_one_iff]
      rintro ⟨k, hk⟩
      apply h
      refine ⟨k, ?_⟩
      have h2 : (2 * Real.pi * Complex.I : ℂ) ≠ 0 := Complex.two_pi_I_ne_zero
      have h3 : (d : ℂ) = n * k := by
        field_simp at hk
        have := mul_left_cancel₀ h2 (show (2 * Real.pi * Complex.I : ℂ) * d
          = (2 * Real.pi * Complex.I) * (n * k) by linear_combination (2 * Real.pi * Complex.I) * hk)
        exact this
      exact_mod_cast h3
    rw [geom_sum_eq h1, ← Complex.exp_nat_mul]
    have : Complex.exp (n * (2 * Real.pi * Complex.I * d / n)) = 1 := by
      rw [Complex.exp_eq_one_iff]
      exact ⟨d, by field_simp⟩
    rw [this]; simp

theorem sum_cos {n : ℕ} (hn : 0 < n) (d : ℤ) :
    ∑ j ∈ range n, Real.cos (2 * Real.pi * j * d / n) = if (n : ℤ) ∣ d then (n : ℝ) else 0 := by
  have h := congrArg Complex.re (sum_exp hn d)
  rw [Complex.re_sum] at h
  have e : ∀ j : ℕ, (Complex.exp (2 * Real.pi * Complex.I * j * d / n)).re
      = Real.cos (2 * Real.pi * j * d / n) := by
    intro j
    rw [← Complex.exp_ofReal_mul_I_re]
    congr 2; push_cast; ring
  simp only [e] at h
  rw [h]
  split <;> simp

theorem sum_sin {n : ℕ} (hn : 0 < n) (d : ℤ) :
    ∑ j ∈ range n, Real.sin (2 * Real.pi * j * d / n) = 0 := by
  have h := congrArg Complex.im (sum_exp hn d)
  rw [Complex.im_sum] at h
  have e : ∀ j : ℕ, (Complex.exp (2 * Real.pi * Complex.I * j * d / n)).im
      = Real.sin (2 * Real.pi * j * d / n) := by
    intro j
    rw [← Complex.exp_ofReal_mul_I_im]
    congr 2; push_cast; ring
  simp only [e] at h
  rw [h]
  split <;> simp

/-- The half-range sum used by the real transform. -/
theorem half_sum_cos {h : ℕ} (hh : 0 < h) (d : ℤ) :
    (1 + Real.cos (Real.pi * d)) / 2 +
      ∑ j ∈ range (h - 1), Real.cos (2 * Real.pi * ((1 + j : ℕ) : ℝ) * d / ((2 * h : ℕ) : ℝ))
      = if ((2 * h : ℕ) : ℤ) ∣ d then (h : ℝ) else 0 := by
  obtain ⟨m, rfl⟩ : ∃ m, h = m + 1 := ⟨h - 1, by omega⟩
  have S := sum_cos (n := 2 * (m + 1)) (by omega) d
  have hpos : ((m : ℝ) + 1) ≠ 0 := by positivity
  rw [show 2 * (m + 1) = (m + 1) + (m + 1) by ring, sum_range_add, sum_range_succ', sum_range_succ'] at S
  rw [← sum_range_reflect (fun j => Real.cos (2 * Real.pi * ((m + 1 + (j + 1) : ℕ) : ℝ) * d /
    ((m + 1 + (m + 1) : ℕ) : ℝ)))] at S
  have e1 : ∀ j ∈ range m, Real.cos (2 * Real.pi * ((m + 1 + (m - 1 - j + 1) : ℕ) : ℝ) * d /
      ((m + 1 + (m + 1) : ℕ) : ℝ)) = Real.cos (2 * Real.pi * ((j + 1 : ℕ) : ℝ) * d /
      ((m + 1 + (m + 1) : ℕ) : ℝ)) := by
    intro j hj
    rw [mem_range] at hj
    have : m + 1 + (m - 1 - j + 1) = (m + 1 + (m + 1)) - (j + 1) := by omega
    rw [this, Nat.cast_sub (by omega)]
    have : 2 * Real.pi * (((m + 1 + (m + 1) : ℕ) : ℝ) - ((j + 1 : ℕ) : ℝ)) * d /
      ((m + 1 + (m + 1) : ℕ) : ℝ) = d * (2 * Real.pi) - 2 * Real.pi * ((j + 1 : ℕ) : ℝ) * d /
      ((m + 1 + (m + 1) : ℕ) : ℝ) := by
      push_cast; field_simp
    rw [this, Real.cos_int_mul_two_pi_sub]
  rw [sum_congr rfl e1] at S
  have e2 : Real.cos (2 * Real.pi * ((m + 1 + 0 : ℕ) : ℝ) * d / ((m + 1 + (m + 1) : ℕ) : ℝ))
      = Real.cos (Real.pi * d) := by
    congr 1; push_cast; field_simp; ring
  rw [e2] at S
  have e3 : (m + 1 - 1) = m := by omega
  rw [e3]
  have e4 : ∑ j ∈ range m, Real.cos (2 * Real.pi * ((1 + j : ℕ) : ℝ) * d / ((2 * (m + 1) : ℕ) : ℝ))
      = ∑ j ∈ range m, Real.cos (2 * Real.pi * ((j + 1 : ℕ) : ℝ) * d / ((m + 1 + (m + 1) : ℕ) : ℝ)) := by
    apply sum_congr rfl
    intro j _
    congr 1; push_cast; ring
  rw [e4]
  simp only [Nat.cast_zero, mul_zero, zero_mul, zero_div, Real.cos_zero] at S
  rw [show ((2 * (m + 1) : ℕ) : ℤ) = ((m + 1 + (m + 1) : ℕ) : ℤ) by push_cast; ring]
  split at S
  · rename_i hd
    rw [if_pos hd]
    push_cast at S ⊢
    linarith
  · rename_i hd
    rw [if_neg hd]
    linarith

end Verif.Dft
