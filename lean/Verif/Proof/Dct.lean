import Verif.Model.Mfcc
import Verif.Spec.Mfcc
import Mathlib.LinearAlgebra.Matrix.NonsingularInverse
import Mathlib.Data.List.GetD
import Mathlib.Tactic.LinearCombination
import Mathlib.Tactic.FieldSimp

/-! Lemmas about the DCT (C36). -/

namespace Verif.Mfcc
open Finset Verif.MfccSpec

theorem foldlM_sum {ε : Type} (f : ℕ → Except ε ℝ) (g : ℕ → ℝ) (n : ℕ) (h : ∀ j < n, f j = .ok (g j))
    (s : ℝ) :
    (List.range n).foldlM (fun sum j => do
        let t ← f j
        return sum + t) s = .ok (s + ∑ j ∈ range n, g j) := by
  induction n with
  | zero => simp [pure, Except.pure]
  | succ n ih =>
    rw [List.range_succ, List.foldlM_append, ih (fun j hj => h j (by omega)), sum_range_succ]
    simp only [bind, Except.bind, List.foldlM_cons, List.foldlM_nil, h n (by omega), pure, Except.pure,
      add_assoc]

theorem mapM_ok {ε α β : Type} (f : α → Except ε β) (g : α → β) (l : List α)
    (h : ∀ a ∈ l, f a = .ok (g a)) : l.mapM f = .ok (l.map g) := by
  induction l with
  | nil => rfl
  | cons a l ih =>
    rw [List.mapM_cons, h a (by simp), ih (fun b hb => h b (by simp [hb]))]
    rfl

/-- Telescoping. -/
theorem sum_cos_half (a : ℝ) (n : ℕ) :
    2 * Real.sin (a / 2) * ∑ j ∈ range n, Real.cos (a * (j + 1 / 2)) = Real.sin (a * n) := by
  induction n with
  | zero => simp
  | succ n ih =>
    rw [sum_range_succ, mul_add, ih]
    have e1 : a * ((n + 1 : ℕ) : ℝ) = a * (n + 1 / 2) + a / 2 := by push_cast; ring
    have e2 : a * (n : ℝ) = a * (n + 1 / 2) - a / 2 := by ring
    rw [e1, e2, Real.sin_add, Real.sin_sub]
    have e3 : a * (n + 1 / 2) - a / 2 + 1 / 2 * a = a * (n + 1 / 2) := by ring
    ring

/-- Sum of a half-sample-shifted cosine over `n` samples. -/
theorem sum_cos_int (n : ℕ) (hn : 0 < n) (m : ℤ) (h1 : |m| < 2 * n) :
    ∑ j ∈ range n, Real.cos (Real.pi * m / n * (j + 1 / 2)) = if m = 0 then (n : ℝ) else 0 := by
  split_ifs with h
  · subst h; simp
  · have hn' : (0 : ℝ) < n := by exact_mod_cast hn
    have key := sum_cos_half (Real.pi * m / n) n
    rw [show Real.pi * m / n * n = m * Real.pi by field_simp, Real.sin_int_mul_pi] at key
    have hs : Real.sin (Real.pi * m / n / 2) ≠ 0 := by
      intro h0
      rw [Real.sin_eq_zero_iff] at h0
      obtain ⟨k, hk⟩ := h0
      have : (k : ℝ) * (2 * n) = m := by
        have hpi := Real.pi_ne_zero
        field_simp at hk
        linear_combination hk
      have hi : k * (2 * n) = m := by exact_mod_cast this
      have hk0 : k ≠ 0 := by rintro rfl; exact h (by simpa using hi.symm)
      rw [← hi, abs_mul, abs_of_nonneg (by positivity : (0 : ℤ) ≤ 2 * n)] at h1
      have : 1 ≤ |k| := Int.one_le_abs hk0
      nlinarith
    rcases mul_eq_zero.1 key with h2 | h2
    · rcases mul_eq_zero.1 h2 with h3 | h3
      · norm_num at h3
      · exact absurd h3 hs
    · exact h2

/-- Orthogonality of the rows. -/
theorem dct_orthogonal (n : ℕ) (hn : 0 < n) (i k : ℕ) (hi : i < n) (hk : k < n) :
    ∑ j ∈ range n, (√(2 / n) * Real.cos (Real.pi * i * (j + 1 / 2) / n)) *
      (√(2 / n) * Real.cos (Real.pi * k * (j + 1 / 2) / n)) =
    if i = k then (if i = 0 then 2 else 1) else 0 := by
  have hn' : (0 : ℝ) < n := by exact_mod_cast hn
  have hs : √(2 / (n : ℝ)) * √(2 / (n : ℝ)) = 2 / n := Real.mul_self_sqrt (by positivity)
  have e : ∀ j ∈ range n, (√(2 / n) * Real.cos (Real.pi * i * (j + 1 / 2) / n)) *
      (√(2 / n) * Real.cos (Real.pi * k * (j + 1 / 2) / n)) =
      1 / n * (Real.cos (Real.pi * ((i - k : ℤ) : ℝ) / n * (j + 1 / 2)) +
        Real.cos (Real.pi * ((i + k : ℤ) : ℝ) / n * (j + 1 / 2))) := by
    intro j _
    have a1 : Real.pi * ((i - k : ℤ) : ℝ) / n * (j + 1 / 2) =
        Real.pi * i * (j + 1 / 2) / n - Real.pi * k * (j + 1 / 2) / n := by push_cast; ring
    have a2 : Real.pi * ((i + k : ℤ) : ℝ) / n * (j + 1 / 2) =
        Real.pi * i * (j + 1 / 2) / n + Real.pi * k * (j + 1 / 2) / n := by push_cast; ring
    rw [a1, a2, Real.cos_sub, Real.cos_add]
    linear_combination Real.cos (Real.pi * i * (j + 1 / 2) / n) *
      Real.cos (Real.pi * k * (j + 1 / 2) / n) * hs
  rw [sum_congr rfl e, ← mul_sum, sum_add_distrib, sum_cos_int n hn _ (by rw [abs_lt]; omega),
    sum_cos_int n hn _ (by rw [abs_lt]; omega)]
  by_cases h : i = k
  · subst h
    rw [if_pos (by omega), if_pos rfl]
    by_cases h0 : i = 0
    · rw [if_pos h0, if_pos (by omega)]; field_simp; norm_num
    · rw [if_neg h0, if_neg (by omega)]; field_simp; norm_num
  · rw [if_neg (by omega), if_neg h, if_neg (by omega)]; simp

open Matrix in
/-- The full transform is invertible by its weighted transpose. -/
theorem dct_columns (n : ℕ) (hn : 0 < n) (i k : ℕ) (hi : i < n) (hk : k < n) :
    ∑ j ∈ range n, (if j = 0 then 1 / 2 else 1) *
      ((√(2 / n) * Real.cos (Real.pi * j * (i + 1 / 2) / n)) *
        (√(2 / n) * Real.cos (Real.pi * j * (k + 1 / 2) / n))) = if i = k then 1 else 0 := by
  let A : Matrix (Fin n) (Fin n) ℝ := Matrix.of fun i j =>
    √(2 / n) * Real.cos (Real.pi * (i : ℕ) * ((j : ℕ) + 1 / 2) / n)
  let D : Fin n → ℝ := fun j => if (j : ℕ) = 0 then 1 / 2 else 1
  have h1 : A * (Aᵀ * Matrix.diagonal D) = 1 := by
    ext a b
    rw [Matrix.mul_apply]
    simp only [Matrix.mul_diagonal, Matrix.transpose_apply, ← mul_assoc]
    rw [← Finset.sum_mul]
    have := dct_orthogonal n hn a b a.2 b.2
    rw [Finset.sum_range] at this
    have e : (∑ j : Fin n, A a j * A b j) = if (a : ℕ) = b then (if (a : ℕ) = 0 then 2 else 1) else 0 :=
      this
    rw [e, Matrix.one_apply]
    by_cases hab : a = b
    · subst hab
      rw [if_pos rfl, if_pos rfl]
      by_cases h0 : (a : ℕ) = 0 <;> simp [D, h0]
    · rw [if_neg (fun h => hab (Fin.ext h)), if_neg hab, zero_mul]
  rw [mul_eq_one_comm] at h1
  have h2 := congrFun (congrFun h1 ⟨i, hi⟩) ⟨k, hk⟩
  rw [Matrix.mul_apply, Matrix.one_apply] at h2
  simp only [Matrix.mul_diagonal, Matrix.transpose_apply, Fin.mk.injEq] at h2
  rw [← h2, Finset.sum_range]
  apply Finset.sum_congr rfl
  intro j _
  simp only [A, D, Matrix.of_apply]
  ring

end Verif.Mfcc
