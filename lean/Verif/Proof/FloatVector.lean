import Verif.Model.FloatVector
import Verif.Proof.Rounding
import Verif.Proof.FloatLadder

/-!
# Rounding errors of the statistics of vectors
-/

namespace Verif.FloatVector
open Verif.Rounding

variable {rnd : ℝ → ℝ} {u η : ℝ}

theorem sum_append (x : List ℝ) (v : ℝ) : sum rnd (x ++ [v]) = rnd (sum rnd x + v) := by
  simp [sum, List.foldl_append]

theorem sum_abs_nonneg (x : List ℝ) : 0 ≤ (x.map (|·|)).sum :=
  List.sum_nonneg (by simp only [List.mem_map, forall_exists_index, and_imp]; rintro _ _ _ rfl; exact abs_nonneg _)

theorem sum_sq_nonneg (x : List ℝ) : 0 ≤ (x.map (· ^ 2)).sum :=
  List.sum_nonneg (by simp only [List.mem_map, forall_exists_index, and_imp]; rintro _ _ _ rfl; exact sq_nonneg _)

theorem abs_sum_le (x : List ℝ) : |x.sum| ≤ (x.map (|·|)).sum := by
  induction x with
  | nil => simp
  | cons v x ih =>
    simp only [List.sum_cons, List.map_cons]
    exact (abs_add_le _ _).trans (by linarith)

/-- The error of a sum. -/
theorem sum_error (hr : Accurate rnd u η) (u0 : 0 ≤ u) (x : List ℝ) :
    |sum rnd x - x.sum| ≤ ((1 + u) ^ x.length - 1) * (x.map (|·|)).sum + x.length * (1 + u) ^ x.length * η := by
  have η0 := hr.eta_nonneg
  induction x using List.reverseRecOn with
  | nil => simp [sum]
  | append_singleton x v ih =>
    have G1 : (1 : ℝ) ≤ (1 + u) ^ x.length := one_le_pow₀ (by linarith)
    have A0 := sum_abs_nonneg x
    have A1 := abs_sum_le x
    rw [sum_append]
    simp only [List.length_append, List.length_singleton, List.sum_append, List.sum_singleton, List.map_append,
      List.map_cons, List.map_nil]
    generalize sum rnd x = s at *
    generalize x.sum = S at *
    generalize (x.map (|·|)).sum = A at *
    have n0 : (0 : ℝ) ≤ x.length := Nat.cast_nonneg _
    push_cast
    rw [pow_succ]
    generalize (x.length : ℝ) = n at *
    generalize (1 + u) ^ x.length = G at *
    have e1 := hr (s + v)
    have e2 : |s + v| ≤ |s - S| + (A + |v|) := by
      have := abs_add_le (s - S) (S + v)
      have := abs_add_le S v
      rw [show s - S + (S + v) = s + v by ring] at *
      linarith
    have e3 := abs_add_le (rnd (s + v) - (s + v)) (s - S)
    rw [show rnd (s + v) - (s + v) + (s - S) = rnd (s + v) - (S + v) by ring] at e3
    have e4 := mul_le_mul_of_nonneg_left e2 u0
    have e5 := mul_le_mul_of_nonneg_left ih (by linarith : 0 ≤ 1 + u)
    have v0 := abs_nonneg v
    have e6 : 0 ≤ (G - 1) * (1 + u) * |v| := mul_nonneg (mul_nonneg (by linarith) (by linarith)) v0
    have e7 : η ≤ G * (1 + u) * η := le_mul_of_one_le_left η0 (by nlinarith)
    nlinarith

theorem Moments.fst {x : List ℝ} {a b : ℝ} (h : Moments rnd x a b) : a = sum rnd x := by
  induction h with
  | nil => simp [sum]
  | snoc _ _ ih => rw [sum_append, ← ih]

/-- The sum of the products as a multiply-add loop computes it. -/
theorem mulAdd_step (hr : Accurate rnd u η) (u0 : 0 ≤ u) {a b s s' B A c n H : ℝ} (H1 : 1 + u ≤ H) (n0 : 0 ≤ n)
    (hs : |s - B| ≤ (H - 1) * A + 2 * n * H * η) (hA : |B| ≤ A) (hc : |a * b| = c) (h : IsMulAdd rnd a b s s') :
    |s' - (B + a * b)| ≤ (H * (1 + u) - 1) * (A + c) + 2 * (n + 1) * (H * (1 + u)) * η := by
  have η0 := hr.eta_nonneg
  have e := h.error hr u0
  have e1 := abs_add_le (s' - (a * b + s)) (s - B)
  rw [show s' - (a * b + s) + (s - B) = s' - (B + a * b) by ring] at e1
  have e2 := abs_add_le (s - B) B
  rw [sub_add_cancel] at e2
  have e3 := mul_le_mul_of_nonneg_left (e2.trans (add_le_add_right hA _)) u0
  have c0 : 0 ≤ c := hc ▸ abs_nonneg _
  rw [hc] at e
  have e5 := mul_le_mul_of_nonneg_left hs (by linarith : 0 ≤ 1 + u)
  have e6 : 0 ≤ (H - (1 + u)) * (1 + u) * c := mul_nonneg (mul_nonneg (by linarith) (by linarith)) c0
  have e7 : (2 + u) * η ≤ 2 * (H * (1 + u)) * η := mul_le_mul_of_nonneg_right (by nlinarith) η0
  nlinarith

theorem Moments.snd_error (hr : Accurate rnd u η) (u0 : 0 ≤ u) {x : List ℝ} {a b : ℝ} (h : Moments rnd x a b) :
    |b - (x.map (· ^ 2)).sum| ≤
      ((1 + u) ^ (x.length + 1) - 1) * (x.map (· ^ 2)).sum + 2 * x.length * (1 + u) ^ (x.length + 1) * η := by
  induction h with
  | nil => simp
  | snoc _ hm ih =>
    rename_i x a b v b' _
    have H1 : 1 + u ≤ (1 + u) ^ (x.length + 1) := le_self_pow₀ (by linarith) (by omega)
    have := mulAdd_step hr u0 (c := v ^ 2) H1 (Nat.cast_nonneg _) ih (abs_of_nonneg (sum_sq_nonneg x)).le
      (by rw [← pow_two, abs_of_nonneg (sq_nonneg v)]) hm
    simp only [List.length_append, List.length_singleton, List.map_append, List.map_cons, List.map_nil, List.sum_append,
      List.sum_singleton]
    push_cast
    rw [pow_succ _ (x.length + 1), ← pow_two] at *
    exact this

theorem DotProduct.error (hr : Accurate rnd u η) (u0 : 0 ≤ u) {l : List (ℝ × ℝ)} {s : ℝ} (h : DotProduct rnd l s) :
    |s - (l.map fun p => p.1 * p.2).sum| ≤
      ((1 + u) ^ (l.length + 1) - 1) * (l.map fun p => |p.1 * p.2|).sum + 2 * l.length * (1 + u) ^ (l.length + 1) * η := by
  induction h with
  | nil => simp
  | snoc _ hm ih =>
    rename_i l s s' p _
    have H1 : 1 + u ≤ (1 + u) ^ (l.length + 1) := le_self_pow₀ (by linarith) (by omega)
    have hA : |(l.map fun p => p.1 * p.2).sum| ≤ (l.map fun p => |p.1 * p.2|).sum := by
      have := abs_sum_le (l.map fun p => p.1 * p.2)
      rwa [List.map_map] at this
    have := mulAdd_step hr u0 H1 (Nat.cast_nonneg _) ih hA rfl hm
    simp only [List.length_append, List.length_singleton, List.map_append, List.map_cons, List.map_nil, List.sum_append,
      List.sum_singleton]
    push_cast
    rw [pow_succ _ (l.length + 1)] at *
    exact this

/-- `Σ|x| / n ≤ √(Σx² / n)`. -/
theorem abs_mean_sq_le (x : List ℝ) : (x.map (|·|)).sum ^ 2 ≤ x.length * (x.map (· ^ 2)).sum := by
  induction x with
  | nil => simp
  | cons v x ih =>
    simp only [List.map_cons, List.sum_cons, List.length_cons]
    push_cast
    have A0 := sum_abs_nonneg x
    have Q0 := sum_sq_nonneg x
    have n0 : (0 : ℝ) ≤ x.length := Nat.cast_nonneg _
    generalize (x.map (|·|)).sum = A at *
    generalize (x.map (· ^ 2)).sum = Q at *
    generalize (x.length : ℝ) = n at *
    have v0 := abs_nonneg v
    rw [← sq_abs v]
    generalize |v| = w at *
    -- 2 w A ≤ Q + n w²
    have : 2 * w * A ≤ Q + n * w ^ 2 := by
      have h1 : A ≤ √(n * Q) := Real.le_sqrt_of_sq_le ih
      have h2 := Real.sq_sqrt n0
      have h3 := Real.sq_sqrt Q0
      rw [Real.sqrt_mul n0] at h1
      have h4 := mul_le_mul_of_nonneg_left h1 (by positivity : 0 ≤ 2 * w)
      nlinarith [sq_nonneg (√n * w - √Q)]
    nlinarith

/-- A rounded quotient by an exact number. -/
theorem div_error (hr : Accurate rnd u η) {s S E n : ℝ} (hn : 0 < n) (u0 : 0 ≤ u) (h : |s - S| ≤ E) :
    |rnd (s / n) - S / n| ≤ u * (|S| / n) + (1 + u) * (E / n) + η := by
  have e := hr (s / n)
  have e1 := abs_add_le (rnd (s / n) - s / n) (s / n - S / n)
  rw [sub_add_sub_cancel] at e1
  have e2 : |s / n - S / n| ≤ E / n := by
    rw [← sub_div, abs_div, abs_of_pos hn]; exact div_le_div_of_nonneg_right h hn.le
  have e3 : |s / n| ≤ |S| / n + E / n := by
    have := abs_add_le (s / n - S / n) (S / n)
    rw [sub_add_cancel, abs_div S, abs_of_pos hn] at this
    linarith
  have := mul_le_mul_of_nonneg_left e3 u0
  linarith

end Verif.FloatVector
