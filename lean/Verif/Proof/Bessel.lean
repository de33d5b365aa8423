import Verif.Model.Bessel
import Verif.Spec.Bessel
import Verif.Model.ResamplerKernel
import Mathlib.Topology.Algebra.InfiniteSum.Real
import Mathlib.Analysis.SpecificLimits.Normed
import Mathlib.Analysis.SpecialFunctions.Exponential
import Mathlib.Tactic

/-! # The power series of the Bessel functions -/

namespace Verif.Bessel
open Spec Finset

theorem term_zero (n : ℕ) (x : ℝ) : term n x 0 = (x / 2) ^ n / n.factorial := by
  simp [term]

theorem term_succ (n : ℕ) (x : ℝ) (k : ℕ) :
    term n x (k + 1) = term n x k * (x * x / 4 / ((k + 1 : ℕ) * ((k + 1 : ℕ) + n))) := by
  have h1 : ((k.factorial : ℕ) : ℝ) ≠ 0 := by exact_mod_cast k.factorial_ne_zero
  have h2 : (((k + n).factorial : ℕ) : ℝ) ≠ 0 := by exact_mod_cast (k + n).factorial_ne_zero
  have h3 : (k + 1 : ℝ) ≠ 0 := by positivity
  have h4 : (k + 1 + n : ℝ) ≠ 0 := by positivity
  have h5 : (k + n + 1 : ℝ) ≠ 0 := by positivity
  rw [term, term, show k + 1 + n = (k + n) + 1 by ring, Nat.factorial_succ, Nat.factorial_succ]
  push_cast
  field_simp
  ring

theorem term_nonneg {x : ℝ} (hx : 0 ≤ x) (n k : ℕ) : 0 ≤ term n x k := by
  rw [term]; positivity

theorem term_summable (n : ℕ) (x : ℝ) : Summable (term n x) := by
  have hs : Summable fun k : ℕ => |x / 2| ^ n * ((x / 2 * (x / 2)) ^ k / (k.factorial : ℝ)) :=
    (Real.summable_pow_div_factorial (x / 2 * (x / 2))).mul_left _
  refine Summable.of_norm_bounded hs fun k => ?_
  have h1 : (0 : ℝ) < k.factorial := by exact_mod_cast k.factorial_pos
  have h2 : (1 : ℝ) ≤ ((k + n).factorial : ℕ) := by exact_mod_cast (k + n).factorial_pos
  rw [term, Real.norm_eq_abs, abs_div, abs_pow, abs_of_pos (by positivity : (0 : ℝ) < k.factorial * (k + n).factorial),
    pow_add, pow_mul, sq_abs, ← pow_two, mul_comm, mul_div_assoc]
  refine mul_le_mul_of_nonneg_left ?_ (by positivity)
  refine div_le_div_of_nonneg_left (by positivity) h1 ?_
  nlinarith

/-- The loop returns a partial sum, and stops early only at a term below `eps` times the sum. -/
theorem series_loop (n : ℕ) (x : ℝ) (fuel k : ℕ) :
    ∃ N, k + 1 ≤ N ∧ N ≤ k + 1 + fuel ∧
      seriesLoop n (x * x / 4) fuel (k + 1) (term n x k) (∑ i ∈ range (k + 1), term n x i) = ∑ i ∈ range N, term n x i ∧
      (N = k + 1 + fuel ∨ term n x N < eps * ∑ i ∈ range N, term n x i) := by
  induction fuel generalizing k with
  | zero => exact ⟨k + 1, le_rfl, le_rfl, rfl, Or.inl rfl⟩
  | succ fuel ih =>
    have e : term n x k * (x * x / 4 / (((k + 1 : ℕ) : ℝ) * (((k + 1 : ℕ) : ℝ) + n))) = term n x (k + 1) :=
      (term_succ n x k).symm
    rw [seriesLoop, e]
    split_ifs with h
    · exact ⟨k + 1, le_rfl, by omega, rfl, Or.inr h⟩
    · obtain ⟨N, h1, h2, h3, h4⟩ := ih (k + 1)
      rw [sum_range_succ _ (k + 1)] at h3
      refine ⟨N, by omega, by omega, h3, ?_⟩
      rcases h4 with h4 | h4
      · exact Or.inl (by omega)
      · exact Or.inr h4

theorem series_eq {n : ℕ} (hn : n ≤ 1) (x : ℝ) :
    ∃ N, 1 ≤ N ∧ N ≤ 40 ∧ besselISeries n x = ∑ i ∈ range N, term n x i ∧
      (N = 40 ∨ term n x N < eps * ∑ i ∈ range N, term n x i) := by
  obtain ⟨N, h1, h2, h3, h4⟩ := series_loop n x 39 0
  have e : (if n = 0 then 1 else x / 2) = term n x 0 := by
    rw [term_zero]
    interval_cases n
    · simp
    · simp
  refine ⟨N, h1, by omega, ?_, by simpa using h4⟩
  rw [← h3, besselISeries, e, sum_range_one]

/-- Halving terms from `N` on: the rest of the series is at most twice the term. -/
theorem tail_le {n : ℕ} {x : ℝ} (hx : 0 ≤ x) {N : ℕ} (h : x * x / 4 / ((N + 1 : ℕ) * ((N + 1 : ℕ) + n)) ≤ 1 / 2) :
    ∑ i ∈ range N, term n x i ≤ I n x ∧ I n x ≤ ∑ i ∈ range N, term n x i + 2 * term n x N := by
  have hs := term_summable n x
  have e : I n x = ∑ i ∈ range N, term n x i + ∑' i, term n x (i + N) := (hs.sum_add_tsum_nat_add N).symm
  have hg : ∀ i, term n x (i + N) ≤ term n x N * (1 / 2) ^ i := by
    intro i
    induction i with
    | zero => simp
    | succ i ih =>
      rw [show i + 1 + N = i + N + 1 by ring, term_succ, pow_succ (1 / 2 : ℝ) i, ← mul_assoc]
      refine mul_le_mul ih ?_ (by positivity) (mul_nonneg (term_nonneg hx _ _) (by positivity))
      refine le_trans ?_ h
      refine div_le_div_of_nonneg_left (by positivity) (by positivity) ?_
      refine mul_le_mul ?_ ?_ (by positivity) (by positivity)
      · exact_mod_cast (by omega : N + 1 ≤ i + N + 1)
      · have : ((N + 1 : ℕ) : ℝ) ≤ (i + N + 1 : ℕ) := by exact_mod_cast (by omega : N + 1 ≤ i + N + 1)
        linarith
  have hgs : Summable fun i : ℕ => term n x N * (1 / 2 : ℝ) ^ i :=
    (summable_geometric_of_lt_one (by norm_num) (by norm_num)).mul_left _
  have h0 : 0 ≤ ∑' i, term n x (i + N) := tsum_nonneg fun i => term_nonneg hx _ _
  have h1 : ∑' i, term n x (i + N) ≤ 2 * term n x N := by
    refine ((hs.comp_injective (add_left_injective N)).tsum_le_tsum hg hgs).trans (le_of_eq ?_)
    rw [tsum_mul_left, tsum_geometric_two, mul_comm]
  constructor <;> linarith

/-- A term that ends the loop is in the part of the series with halving terms. -/
theorem ratio_of_break {n : ℕ} {x : ℝ} (hx : 0 ≤ x) {N : ℕ} (hN : N ≤ 40)
    (hb : term n x N < eps * ∑ i ∈ range N, term n x i) :
    x * x / 4 / ((N + 1 : ℕ) * ((N + 1 : ℕ) + n)) ≤ 1 / 2 := by
  by_contra hc
  push Not at hc
  have key : ∀ i ≤ N, ∑ j ∈ range i, term n x j ≤ (2 ^ (i + 1) - 2) * term n x i := by
    intro i
    induction i with
    | zero => intro _; simp
    | succ i ih =>
      intro hi
      have h1 := ih (by omega)
      have h2 : 1 / 2 < x * x / 4 / (((i + 1 : ℕ) : ℝ) * ((i + 1 : ℕ) + n)) := by
        refine hc.trans_le (div_le_div_of_nonneg_left (by positivity) (by positivity) ?_)
        have h : ((i + 1 : ℕ) : ℝ) ≤ (N + 1 : ℕ) := by exact_mod_cast (by omega : i + 1 ≤ N + 1)
        exact mul_le_mul h (by linarith) (by positivity) (by positivity)
      have h3 : term n x i ≤ 2 * term n x (i + 1) := by
        rw [term_succ]
        nlinarith [term_nonneg hx n i]
      have hp : (2 : ℝ) ≤ 2 ^ (i + 1) := by
        calc (2 : ℝ) = 2 ^ 1 := by norm_num
          _ ≤ 2 ^ (i + 1) := pow_le_pow_right₀ (by norm_num) (by omega)
      rw [sum_range_succ, pow_succ (2 : ℝ) (i + 1)]
      nlinarith
  have h := key N le_rfl
  have h0 := term_nonneg hx n N
  have hp : (2 : ℝ) ^ (N + 1) ≤ 2 ^ 41 := pow_le_pow_right₀ (by norm_num) (by omega)
  have he : eps * ∑ i ∈ range N, term n x i ≤ eps * (2 ^ 41 * term n x N) := by
    refine mul_le_mul_of_nonneg_left (h.trans ?_) (by rw [eps]; positivity)
    exact mul_le_mul_of_nonneg_right (by linarith) h0
  have : eps * (2 ^ 41 * term n x N) ≤ term n x N := by
    rw [eps]
    nlinarith
  linarith

/-- No early stop: below 21 forty terms are enough. -/
theorem forty {n : ℕ} {x : ℝ} (hx : 0 ≤ x) (h21 : x < 21) :
    x * x / 4 / ((40 + 1 : ℕ) * ((40 + 1 : ℕ) + n)) ≤ 1 / 2 ∧
      term n x 40 ≤ eps * ∑ i ∈ range 40, term n x i := by
  have hy : x * x / 4 ≤ 441 / 4 := by nlinarith
  have hy0 : 0 ≤ x * x / 4 := by positivity
  have hr : ∀ k : ℕ, x * x / 4 / ((k + 1 : ℕ) * ((k + 1 : ℕ) + n)) ≤ 441 / 4 / ((k + 1) * (k + 1)) := by
    intro k
    push_cast
    refine div_le_div₀ (by norm_num) hy (by positivity) ?_
    have : (0 : ℝ) ≤ n := n.cast_nonneg
    exact mul_le_mul_of_nonneg_left (by linarith) (by positivity)
  constructor
  · refine (hr 40).trans (by norm_num)
  · have hstep : ∀ k, term n x (10 + k) ≤ term n x 10 * ∏ i ∈ range k, (441 / 4 / ((10 + i + 1) * (10 + i + 1)) : ℝ) := by
      intro k
      induction k with
      | zero => simp
      | succ k ih =>
        rw [← add_assoc, term_succ, prod_range_succ, ← mul_assoc]
        refine mul_le_mul ih ((hr (10 + k)).trans (le_of_eq (by push_cast; ring))) (by positivity) ?_
        exact mul_nonneg (term_nonneg hx _ _) (prod_nonneg fun i _ => by positivity)
    have h := hstep 30
    have hnum : ∏ i ∈ range 30, (441 / 4 / ((10 + i + 1) * (10 + i + 1)) : ℝ) ≤ eps := by
      rw [eps]
      simp only [prod_range_succ, prod_range_zero]
      norm_num
    have hle : term n x 10 ≤ ∑ i ∈ range 40, term n x i :=
      single_le_sum (f := term n x) (fun i _ => term_nonneg hx _ _) (by simp)
    have he : 0 ≤ eps := by rw [eps]; positivity
    calc term n x 40 ≤ _ := h
      _ ≤ term n x 10 * eps := mul_le_mul_of_nonneg_left hnum (term_nonneg hx _ _)
      _ ≤ eps * ∑ i ∈ range 40, term n x i := by
        rw [mul_comm]; exact mul_le_mul_of_nonneg_left hle he

theorem series_close {n : ℕ} {x : ℝ} (hx : 0 ≤ x) {N : ℕ} (hN : N ≤ 40)
    (h : term n x N < eps * ∑ i ∈ range N, term n x i ∨ N = 40 ∧ x < 21) :
    |I n x - ∑ i ∈ range N, term n x i| ≤ 2 * eps * ∑ i ∈ range N, term n x i := by
  obtain ⟨h1, h2⟩ : x * x / 4 / ((N + 1 : ℕ) * ((N + 1 : ℕ) + n)) ≤ 1 / 2 ∧
      term n x N ≤ eps * ∑ i ∈ range N, term n x i := by
    rcases h with h | ⟨rfl, h⟩
    · exact ⟨ratio_of_break hx hN h, h.le⟩
    · exact forty hx h
  obtain ⟨a, b⟩ := tail_le hx h1
  rw [abs_of_nonneg (by linarith)]
  linarith

/-- The loop is monotone in its argument. -/
theorem loop_mono {n : ℕ} {y y' : ℝ} (hy : 0 ≤ y) (hyy : y ≤ y') (fuel : ℕ) {k : ℕ} (hk : 1 ≤ k) {t s t' s' : ℝ}
    (ht : 0 ≤ t) (ht' : 0 ≤ t') (hs : 0 < s) (hs' : 0 < s') (hss : s ≤ s') (hc : t * s' ≤ t' * s) :
    seriesLoop n y fuel k t s ≤ seriesLoop n y' fuel k t' s' ∧ s' ≤ seriesLoop n y' fuel k t' s' := by
  induction fuel generalizing k t s t' s' with
  | zero => exact ⟨hss, le_rfl⟩
  | succ fuel ih =>
    have hk0 : (0 : ℝ) < k * (k + n) := by
      have : (0 : ℝ) < k := by exact_mod_cast hk
      positivity
    have hr : y / (k * (k + n)) ≤ y' / (k * (k + n)) := div_le_div_of_nonneg_right hyy hk0.le
    have hr0 : 0 ≤ y / (k * (k + n)) := by positivity
    have hr0' := hr0.trans hr
    have hc' : t * (y / (k * (k + n))) * s' ≤ t' * (y' / (k * (k + n))) * s := by
      calc t * (y / (k * (k + n))) * s' = (t * s') * (y / (k * (k + n))) := by ring
        _ ≤ (t' * s) * (y' / (k * (k + n))) := mul_le_mul hc hr hr0 (by positivity)
        _ = _ := by ring
    rw [seriesLoop, seriesLoop]
    generalize y / (k * (k + n) : ℝ) = r at *
    generalize y' / (k * (k + n) : ℝ) = r' at *
    have hT := mul_nonneg ht hr0
    have hT' := mul_nonneg ht' hr0'
    generalize t * r = T at *
    generalize t' * r' = T' at *
    have he : 0 < eps := by rw [eps]; positivity
    have hTT : T ≤ T' := by
      by_contra hn
      push Not at hn
      nlinarith [mul_lt_mul_of_pos_right hn hs', mul_le_mul_of_nonneg_left hss hT']
    by_cases hb' : T' < eps * s'
    · rw [if_pos hb']
      have hb : T < eps * s := by
        by_contra hn
        push Not at hn
        nlinarith [mul_lt_mul_of_pos_right hb' hs, mul_le_mul_of_nonneg_right hn hs'.le]
      rw [if_pos hb]
      exact ⟨hss, le_rfl⟩
    · rw [if_neg hb']
      obtain ⟨a, b⟩ := ih (k := k + 1) (by omega) hT hT' (by linarith : 0 < s + T) (by linarith : 0 < s' + T')
        (by linarith) (by linarith)
      refine ⟨?_, by linarith⟩
      split_ifs
      · linarith
      · exact a

theorem series_mono {x x' : ℝ} (hx : 0 ≤ x) (h : x ≤ x') : besselISeries 0 x ≤ besselISeries 0 x' ∧ 1 ≤ besselISeries 0 x' := by
  have hq : x * x / 4 ≤ x' * x' / 4 := by nlinarith
  exact loop_mono (n := 0) (by positivity) hq 39 (by norm_num) (by simp) (by simp) (by simp) (by simp) (by simp)
    (by simp)

/-- The loop of the C library is the same loop. -/
theorem portable_loop (x : ℝ) (fuel k : ℕ) (t s : ℝ) :
    Resampler.Kernel.besselLoop (x * x) fuel (2 * k) t s = seriesLoop 0 (x * x / 4) fuel k t s := by
  induction fuel generalizing k t s with
  | zero => rfl
  | succ fuel ih =>
    have e : x * x / (((2 * k : ℕ) : ℝ) * (2 * k : ℕ)) = x * x / 4 / (k * (k + (0 : ℕ))) := by
      push_cast
      rw [div_div]
      congr 1
      ring
    rw [Resampler.Kernel.besselLoop, seriesLoop, e, show 2 * k + 2 = 2 * (k + 1) by ring, ih]
    rfl

theorem portable_I0 (x : ℝ) : Resampler.Kernel.besselI0 x = besselISeries 0 x := by
  rw [Resampler.Kernel.besselI0, besselISeries, if_pos rfl]
  exact portable_loop x 39 1 1 1

end Verif.Bessel
