import Verif.Proof.Bessel4

/-! # Accuracy of the Bessel functions -/

namespace Verif.Bessel
open Spec Finset

/-- The terms from `N` to 39. -/
noncomputable def tl (a : ℕ → ℝ) (N : ℕ) : ℝ := ∑ j ∈ Ico N 40, |a j|

theorem tl_step (a : ℕ → ℝ) {N : ℕ} (hN : N < 40) : tl a N = |a N| + tl a (N + 1) := by
  rw [tl, tl, sum_eq_sum_Ico_succ_bot hN]

theorem tl_nonneg (a : ℕ → ℝ) (N : ℕ) : 0 ≤ tl a N := sum_nonneg fun _ _ => abs_nonneg _

theorem tl_mono (a : ℕ → ℝ) {N K : ℕ} (h : N ≤ K) : tl a K ≤ tl a N :=
  sum_le_sum_of_subset_of_nonneg (Ico_subset_Ico_left h) fun _ _ _ => abs_nonneg _

theorem tl_le {a : ℕ → ℝ} (ha : ∀ j, 1 ≤ j → |a (j + 1)| ≤ |a j| * ((j + 1 / 2) / 42)) {N : ℕ} (h1 : 1 ≤ N)
    (h20 : N ≤ 20) : tl a N ≤ 11 / 5 * |a N| := by
  have step : ∀ {N : ℕ} {C C' : ℝ}, (1 ≤ N ∧ N < 40 ∧ 0 ≤ C) → 1 + C * ((N + 1 / 2) / 42) ≤ C' →
      tl a (N + 1) ≤ C * |a (N + 1)| → tl a N ≤ C' * |a N| := by
    intro N C C' ⟨hN1, hN, hC⟩ hCC h
    rw [tl_step a hN]
    have h2 := mul_le_mul_of_nonneg_left (ha N hN1) hC
    have h3 := mul_le_mul_of_nonneg_right hCC (abs_nonneg (a N))
    linarith
  have h39 : tl a 39 ≤ 100 / 100 * |a 39| := by
    rw [tl, show Ico 39 40 = {39} from rfl, sum_singleton]
    linarith
  have h38 := step (N := 38) (C := 100 / 100) (C' := 192 / 100) (by norm_num) (by norm_num) h39
  have h37 := step (N := 37) (C := 192 / 100) (C' := 272 / 100) (by norm_num) (by norm_num) h38
  have h36 := step (N := 36) (C := 272 / 100) (C' := 337 / 100) (by norm_num) (by norm_num) h37
  have h35 := step (N := 35) (C := 337 / 100) (C' := 385 / 100) (by norm_num) (by norm_num) h36
  have h34 := step (N := 34) (C := 385 / 100) (C' := 417 / 100) (by norm_num) (by norm_num) h35
  have h33 := step (N := 33) (C := 417 / 100) (C' := 433 / 100) (by norm_num) (by norm_num) h34
  have h32 := step (N := 32) (C := 433 / 100) (C' := 436 / 100) (by norm_num) (by norm_num) h33
  have h31 := step (N := 31) (C := 436 / 100) (C' := 427 / 100) (by norm_num) (by norm_num) h32
  have h30 := step (N := 30) (C := 427 / 100) (C' := 411 / 100) (by norm_num) (by norm_num) h31
  have h29 := step (N := 29) (C := 411 / 100) (C' := 389 / 100) (by norm_num) (by norm_num) h30
  have h28 := step (N := 28) (C := 389 / 100) (C' := 364 / 100) (by norm_num) (by norm_num) h29
  have h27 := step (N := 27) (C := 364 / 100) (C' := 339 / 100) (by norm_num) (by norm_num) h28
  have h26 := step (N := 26) (C := 339 / 100) (C' := 314 / 100) (by norm_num) (by norm_num) h27
  have h25 := step (N := 25) (C := 314 / 100) (C' := 291 / 100) (by norm_num) (by norm_num) h26
  have h24 := step (N := 24) (C := 291 / 100) (C' := 270 / 100) (by norm_num) (by norm_num) h25
  have h23 := step (N := 23) (C := 270 / 100) (C' := 252 / 100) (by norm_num) (by norm_num) h24
  have h22 := step (N := 22) (C := 252 / 100) (C' := 235 / 100) (by norm_num) (by norm_num) h23
  have h21 := step (N := 21) (C := 235 / 100) (C' := 221 / 100) (by norm_num) (by norm_num) h22
  have h20' := step (N := 20) (C := 221 / 100) (C' := 208 / 100) (by norm_num) (by norm_num) h21
  have key : ∀ m ≤ 19, tl a (20 - m) ≤ 11 / 5 * |a (20 - m)| := by
    intro m
    induction m with
    | zero =>
      intro _
      refine h20'.trans (mul_le_mul_of_nonneg_right (by norm_num) (abs_nonneg _))
    | succ m ih =>
      intro hm
      have h := ih (by omega)
      obtain ⟨k, hk⟩ : ∃ k, 20 - m = k + 1 := ⟨19 - m, by omega⟩
      have hk2 : 20 - (m + 1) = k := by omega
      rw [hk] at h
      rw [hk2]
      refine step ⟨by omega, by omega, by norm_num⟩ ?_ h
      have : (k : ℝ) ≤ 19 := by exact_mod_cast (by omega : k ≤ 19)
      linarith
  have := key (20 - N) (by omega)
  rwa [show 20 - (20 - N) = N by omega] at this

theorem T_ratio {n : ℕ} (hn : n ≤ 1) {x : ℝ} (hx : 21 ≤ x) (j : ℕ) (hj : 1 ≤ j) :
    |T n x (j + 1)| ≤ |T n x j| * ((j + 1 / 2) / 42) := by
  rw [T_succ, abs_mul]
  refine mul_le_mul_of_nonneg_left ?_ (abs_nonneg _)
  have hj1 : (1 : ℝ) ≤ j := by exact_mod_cast hj
  have hn2 : (0 : ℝ) ≤ 4 * (n * n) ∧ (4 * (n * n) : ℝ) ≤ 4 := by
    interval_cases n <;> norm_num
  have h0 : 0 ≤ (2 * (j : ℝ) + 1) ^ 2 - 4 * (n * n) := by nlinarith
  rw [abs_of_nonneg (by positivity), div_le_div_iff₀ (by positivity) (by norm_num)]
  have h1 : (2 * (j : ℝ) + 1) ^ 2 ≤ (j + 1 / 2) * (4 * (j + 1)) := by nlinarith
  have h2 : (j + 1 / 2 : ℝ) * (4 * (j + 1)) * 42 ≤ (j + 1 / 2) * (8 * (j + 1) * x) := by
    have : 0 ≤ (j + 1 / 2 : ℝ) * (8 * (j + 1)) := by positivity
    nlinarith
  nlinarith

theorem T_twenty {n : ℕ} (hn : n ≤ 1) {x : ℝ} (hx : 21 ≤ x) : |T n x 20| ≤ 13 / 20 * eps := by
  have hle : |T n x 20| ≤ ∏ i ∈ range 20, |(2 * (i : ℝ) + 1) ^ 2 - 4 * ((n : ℝ) * n)| / (8 * ((i : ℝ) + 1) * 21) := by
    rw [T, abs_prod]
    refine prod_le_prod (fun _ _ => abs_nonneg _) fun i _ => ?_
    rw [abs_div, abs_of_pos (by positivity : (0 : ℝ) < 8 * (i + 1) * x)]
    refine div_le_div_of_nonneg_left (abs_nonneg _) (by positivity) ?_
    exact mul_le_mul_of_nonneg_left hx (by positivity)
  refine hle.trans ?_
  rw [eps]
  interval_cases n
  · simp only [prod_range_succ, prod_range_zero]
    norm_num
  · simp only [prod_range_succ, prod_range_zero]
    norm_num [abs_of_nonneg]

/-- The loop returns a partial sum. -/
theorem asymptotic_loop (n : ℕ) {x A : ℝ} (hA : 0 < A) (fuel k : ℕ) :
    ∃ N, k + 1 ≤ N ∧ N ≤ k + 1 + fuel ∧
      asymptoticLoop n x fuel (k + 1) (A * T n x k) (A * ∑ i ∈ range (k + 1), T n x i)
        = A * ∑ i ∈ range N, T n x i ∧
      (N = k + 1 + fuel ∨ |T n x N| < eps * ∑ i ∈ range N, T n x i) := by
  induction fuel generalizing k with
  | zero => exact ⟨k + 1, le_rfl, le_rfl, rfl, Or.inl rfl⟩
  | succ fuel ih =>
    have e : A * T n x k * (((2 * ((k + 1 : ℕ) : ℝ) - 1) ^ 2 - 4 * (n * n)) / (8 * ((k + 1 : ℕ) : ℝ) * x))
        = A * T n x (k + 1) := by
      rw [T_succ, mul_assoc]
      push_cast
      congr 3
      ring
    rw [asymptoticLoop, e, abs_mul, abs_of_pos hA]
    have hiff : A * |T n x (k + 1)| < eps * (A * ∑ i ∈ range (k + 1), T n x i) ↔
        |T n x (k + 1)| < eps * ∑ i ∈ range (k + 1), T n x i := by
      rw [mul_left_comm, mul_lt_mul_iff_right₀ hA]
    split_ifs with h
    · exact ⟨k + 1, le_rfl, by omega, rfl, Or.inr (hiff.1 h)⟩
    · obtain ⟨N, h1, h2, h3, h4⟩ := ih (k + 1)
      rw [sum_range_succ _ (k + 1), mul_add] at h3
      refine ⟨N, by omega, by omega, h3, ?_⟩
      rcases h4 with h4 | h4
      · exact Or.inl (by omega)
      · exact Or.inr h4

theorem asymptotic_close {n : ℕ} (hn : n ≤ 1) {x : ℝ} (hx : 21 ≤ x) :
    |I n x - besselIAsymptotic n x| ≤ 1 / 10 ^ 15 * I n x := by
  have hp := Real.pi_pos
  have hx0 : 0 < x := by linarith
  have hE := Real.exp_pos x
  have hs : 0 < √(2 * Real.pi * x) := Real.sqrt_pos.2 (by positivity)
  have hA : 0 < Real.exp x / √(2 * Real.pi * x) := by positivity
  obtain ⟨N, h1, h2, h3, h4⟩ := asymptotic_loop n (x := x) hA 39 0
  have hres : besselIAsymptotic n x = Real.exp x / √(2 * Real.pi * x) * ∑ i ∈ range N, T n x i := by
    rw [← h3, besselIAsymptotic, sum_range_one, T_zero, mul_one]
  have hexp : |√(2 * Real.pi * x) / Real.exp x * I n x - ∑ j ∈ range 40, T n x j| ≤ 3 / 2 * eps := by
    interval_cases n
    · exact expand_zero hx
    · exact expand_one hx
  have hratio := T_ratio hn hx
  have he : 0 < eps := by rw [eps]; positivity
  -- the sum is close to 1
  have hdiff : ∀ K, 1 ≤ K → K ≤ 40 → |∑ j ∈ range 40, T n x j - ∑ j ∈ range K, T n x j| ≤ tl (T n x) K := by
    intro K _ hK
    rw [← sum_range_add_sum_Ico _ hK, add_sub_cancel_left]
    exact abs_sum_le_sum_abs _ _
  have hT1 : |T n x 1| ≤ 1 / 50 := by
    rw [T_succ, T_zero, one_mul, abs_div, abs_of_pos (by positivity : (0 : ℝ) < 8 * (((0 : ℕ) : ℝ) + 1) * x),
      div_le_iff₀ (by positivity)]
    interval_cases n
    · norm_num; linarith
    · norm_num [abs_of_neg]; linarith
  have htl1 := tl_le hratio (N := 1) le_rfl (by norm_num)
  have hS40 := hdiff 1 le_rfl (by norm_num)
  rw [sum_range_one, T_zero] at hS40
  have hSN : 9 / 10 ≤ ∑ i ∈ range N, T n x i := by
    have a := hdiff N h1 (by omega)
    have b := tl_mono (T n x) h1
    rw [zero_add] at b
    have := abs_le.1 a
    have := abs_le.1 hS40
    linarith
  have htail : tl (T n x) N ≤ 11 / 5 * eps * ∑ i ∈ range N, T n x i := by
    rcases le_or_gt N 20 with hN | hN
    · have hb := h4.resolve_left (by omega)
      have := tl_le hratio h1 hN
      linarith
    · have := tl_mono (T n x) hN.le
      have h20 := tl_le hratio (N := 20) (by norm_num) le_rfl
      have := T_twenty hn hx
      nlinarith
  have hclose : |√(2 * Real.pi * x) / Real.exp x * I n x - ∑ i ∈ range N, T n x i|
      ≤ 4 * eps * ∑ i ∈ range N, T n x i := by
    have a := abs_le.1 (hdiff N h1 (by omega))
    have b := abs_le.1 hexp
    have c : 3 / 2 * eps ≤ 5 / 3 * eps * ∑ i ∈ range N, T n x i := by nlinarith
    rw [abs_le]
    constructor <;> nlinarith
  generalize ∑ i ∈ range N, T n x i = S at *
  have hV : I n x = Real.exp x / √(2 * Real.pi * x) * (√(2 * Real.pi * x) / Real.exp x * I n x) := by
    field_simp
  generalize √(2 * Real.pi * x) / Real.exp x * I n x = V at *
  rw [hres, hV, ← mul_sub, abs_mul, abs_of_pos hA, mul_left_comm]
  refine mul_le_mul_of_nonneg_left (hclose.trans ?_) hA.le
  have := abs_le.1 hclose
  have h5 : (1 - 4 * eps) * S ≤ V := by linarith
  have h6 : 4 * eps ≤ 1 / 10 ^ 15 * (1 - 4 * eps) := by rw [eps]; norm_num
  nlinarith

end Verif.Bessel
