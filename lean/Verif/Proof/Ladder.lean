import Verif.Model.Ladder
import Verif.Proof.Series
import Mathlib.Algebra.Order.BigOperators.Ring.Finset
import Mathlib.Tactic.Linarith
import Mathlib.Tactic.Positivity
import Mathlib.RingTheory.PowerSeries.NoZeroDivisors

namespace Verif.Ladder
open Finset Verif.Series Verif.Stream PowerSeries Verif.LinearFilter.Spec

theorem put_same (f : ℕ → ℝ) (i : ℕ) (x : ℝ) : put f i x i = x := by simp [put]
theorem put_ne (f : ℕ → ℝ) {i j : ℕ} (x : ℝ) (h : j ≠ i) : put f i x j = f j := by simp [put, h]

/-- The stage loop: the signals `f i` entering stage `i` from the outside. -/
theorem stageLoop_spec (k c : ℕ → ℝ) : ∀ (M : ℕ) (st : ℕ → ℝ) (x : ℝ),
    ∃ f : ℕ → ℝ, f M = x ∧ (∀ i, i < M → f i = c i * f (i + 1) - k i * st i) ∧
      stageLoop k c M st x 0 = f 0 ∧
      (∀ i, i < M → stageLoop k c M st x (i + 1) = k i * f (i + 1) + c i * st i) ∧
      ∀ j, M < j → stageLoop k c M st x j = st j
  | 0, st, x => ⟨fun _ => x, rfl, by simp, by simp [stageLoop, put], by simp, by
      intro j hj; simp only [stageLoop]; exact put_ne _ _ (by omega)⟩
  | M + 1, st, x => by
    obtain ⟨f, h1, h2, h3, h4, h5⟩ := stageLoop_spec k c M
      (put st (M + 1) (k M * x + c M * st M)) (c M * x - k M * st M)
    have hst : ∀ i, i ≤ M → put st (M + 1) (k M * x + c M * st M) i = st i :=
      fun i hi => put_ne _ _ (by omega)
    refine ⟨put f (M + 1) x, put_same _ _ _, ?_, ?_, ?_, ?_⟩
    · intro i hi
      by_cases hc : i = M
      · subst hc
        rw [put_same, put_ne _ _ (by omega), h1]
      · rw [put_ne _ _ (by omega), put_ne _ _ (by omega), h2 i (by omega), hst i (by omega)]
    · rw [put_ne _ _ (by omega)]; simpa [stageLoop] using h3
    · intro i hi
      rw [stageLoop]
      by_cases hc : i = M
      · subst hc
        rw [h5 (i + 1) (by omega), put_same, put_same]
      · rw [put_ne _ _ (by omega), h4 i (by omega), hst i (by omega)]
    · intro j hj
      rw [stageLoop, h5 j (by omega), put_ne _ _ (by omega)]

/-- Energy of the first `n` state elements. -/
def energy (n : ℕ) (st : ℕ → ℝ) : ℝ := ∑ m ∈ range n, st m ^ 2

theorem energy_nonneg (n : ℕ) (st : ℕ → ℝ) : 0 ≤ energy n st :=
  sum_nonneg (fun _ _ => sq_nonneg _)

theorem stage_energy {k c : ℕ → ℝ} {M : ℕ} (h : ∀ i, i < M → k i ^ 2 + c i ^ 2 ≤ 1)
    (st : ℕ → ℝ) (x : ℝ) :
    energy (M + 1) (stageLoop k c M st x) ≤ x ^ 2 + energy M st := by
  obtain ⟨f, h1, h2, h3, h4, _⟩ := stageLoop_spec k c M st x
  have key : ∀ n, n ≤ M → ∑ i ∈ range n, (k i * f (i + 1) + c i * st i) ^ 2 + f 0 ^ 2
      ≤ f n ^ 2 + ∑ i ∈ range n, st i ^ 2 := by
    intro n
    induction n with
    | zero => intro _; simp
    | succ n ih =>
      intro hn
      have hi := ih (by omega)
      rw [sum_range_succ, sum_range_succ]
      have e := h2 n (by omega)
      have hk := h n (by omega)
      have : (k n * f (n + 1) + c n * st n) ^ 2 + f n ^ 2 ≤ f (n + 1) ^ 2 + st n ^ 2 := by
        have e2 : (k n * f (n + 1) + c n * st n) ^ 2 + f n ^ 2
            = (k n ^ 2 + c n ^ 2) * (f (n + 1) ^ 2 + st n ^ 2) := by rw [e]; ring
        rw [e2]
        have : 0 ≤ f (n + 1) ^ 2 + st n ^ 2 := by positivity
        nlinarith
      linarith
  have hM := key M (Nat.le_refl _)
  rw [h1] at hM
  unfold energy
  rw [sum_range_succ']
  rw [h3]
  have : ∑ i ∈ range M, stageLoop k c M st x (i + 1) ^ 2
      = ∑ i ∈ range M, (k i * f (i + 1) + c i * st i) ^ 2 :=
    sum_congr rfl (fun i hi => by rw [h4 i (mem_range.mp hi)])
  rw [this]
  linarith

theorem force_abs {η x : ℝ} (h0 : 0 < η) (h1 : η < 1) : |force η x| < 1 := by
  unfold force
  split
  · assumption
  · split
    · rw [abs_of_nonneg (by linarith)]; linarith
    · rw [abs_of_nonpos (by linarith)]; linarith

theorem force_of_lt {η x : ℝ} (h : |x| < 1) : force η x = x := by
  unfold force; rw [if_pos h]

theorem scattering_sq {η : ℝ} (h0 : 0 < η) (h1 : η < 1) {k : ℕ → ℝ} {i : ℕ} (hk : |k i| < 1) :
    k i ^ 2 + scattering η k i ^ 2 ≤ 1 ∧ 0 < scattering η k i := by
  have hk2 : k i * k i < 1 := by
    have := mul_lt_mul'' hk hk (abs_nonneg _) (abs_nonneg _)
    rwa [abs_mul_abs_self, one_mul] at this
  have hs : 0 < Real.sqrt (1 - k i * k i) := Real.sqrt_pos.mpr (by linarith)
  have hsq : Real.sqrt (1 - k i * k i) ^ 2 = 1 - k i * k i := Real.sq_sqrt (by linarith)
  unfold scattering force
  rw [if_pos hs]
  split
  · rename_i h
    exact ⟨by rw [hsq]; nlinarith, hs⟩
  · rename_i h
    rw [abs_of_pos hs, not_lt] at h
    have hz : k i * k i = 0 := by nlinarith [mul_self_nonneg (k i)]
    refine ⟨?_, by linarith⟩
    nlinarith

theorem scattering_exact {η : ℝ} {k : ℕ → ℝ} {i : ℕ} (hk : |k i| < 1) (hne : k i ≠ 0) :
    scattering η k i = Real.sqrt (1 - k i * k i) := by
  have hk2 : 0 < k i * k i := mul_self_pos.mpr hne
  unfold scattering
  apply force_of_lt
  rw [abs_of_nonneg (Real.sqrt_nonneg _)]
  calc Real.sqrt (1 - k i * k i) < Real.sqrt 1 := by
        apply Real.sqrt_lt_sqrt
        · have := mul_lt_mul'' hk hk (abs_nonneg _) (abs_nonneg _)
          rw [abs_mul_abs_self, one_mul] at this
          linarith
        · linarith
    _ = 1 := Real.sqrt_one

/-! ### Conversion of the transfer function -/

/-- The polynomials `A_m` and `B_m` generated by reflection coefficients. -/
noncomputable def polyAB (k : ℕ → ℝ) : ℕ → ℝ⟦X⟧ × ℝ⟦X⟧
  | 0 => (1, 1)
  | m + 1 =>
    let r := polyAB k m
    (r.1 + C (k m) * (X * r.2), C (k m) * r.1 + X * r.2)

theorem polyAB_congr {k k' : ℕ → ℝ} : ∀ m, (∀ i, i < m → k i = k' i) → polyAB k m = polyAB k' m
  | 0, _ => rfl
  | m + 1, h => by
    rw [polyAB, polyAB, polyAB_congr m (fun i hi => h i (by omega)), h m (by omega)]

/-- First `m + 1` entries of an array as a polynomial, and reversed. -/
noncomputable def up (m : ℕ) (A : ℕ → ℝ) : ℝ⟦X⟧ := ∑ j ∈ range (m + 1), C (A j) * X ^ j

theorem makeLoop_k_ge : ∀ (m : ℕ) (A P k v : ℕ → ℝ) (i : ℕ), m ≤ i →
    (makeLoop m A P k v).1 i = k i
  | 0, A, P, k, v, i, _ => rfl
  | m + 1, A, P, k, v, i, h => by
    rw [makeLoop, makeLoop_k_ge m _ _ _ _ i (by omega), put_ne _ _ (by omega)]

theorem makeLoop_v_gt : ∀ (m : ℕ) (A P k v : ℕ → ℝ) (i : ℕ), m < i →
    (makeLoop m A P k v).2 i = v i
  | 0, A, P, k, v, i, h => by simp only [makeLoop]; exact put_ne _ _ (by omega)
  | m + 1, A, P, k, v, i, h => by
    rw [makeLoop, makeLoop_v_gt m _ _ _ _ i (by omega), put_ne _ _ (by omega)]

theorem up_congr {m : ℕ} {A A' : ℕ → ℝ} (h : ∀ j, j ≤ m → A j = A' j) : up m A = up m A' :=
  sum_congr rfl (fun j hj => by rw [h j (by rw [mem_range] at hj; omega)])

theorem up_succ (m : ℕ) (A : ℕ → ℝ) : up (m + 1) A = up m A + C (A (m + 1)) * X ^ (m + 1) := by
  unfold up; rw [sum_range_succ]

theorem up_succ' (m : ℕ) (A : ℕ → ℝ) : up (m + 1) A = C (A 0) + X * up m (fun j => A (j + 1)) := by
  unfold up
  rw [sum_range_succ', mul_sum, add_comm]
  simp only [pow_zero, mul_one]
  congr 1
  apply sum_congr rfl
  intro j _
  rw [pow_succ]; ring

theorem up_lin (m : ℕ) (A B : ℕ → ℝ) (s : ℝ) :
    up m (fun j => A j + s * B j) = up m A + C s * up m B := by
  unfold up
  rw [mul_sum, ← sum_add_distrib]
  apply sum_congr rfl
  intro j _
  rw [map_add, map_mul]; ring

/-- Main property of the conversion loop: the input polynomials are recovered from the computed
coefficients. -/
theorem makeLoop_spec : ∀ (m : ℕ) (A P k v : ℕ → ℝ), A 0 = 1 →
    (∀ i, i < m → |(makeLoop m A P k v).1 i| ≠ 1) →
    up m A = (polyAB (makeLoop m A P k v).1 m).1 ∧
    up m (fun j => A (m - j)) = (polyAB (makeLoop m A P k v).1 m).2 ∧
    up m P = ∑ i ∈ range (m + 1), C ((makeLoop m A P k v).2 i) * (polyAB (makeLoop m A P k v).1 i).2
  | 0, A, P, k, v, hA, _ => by
    simp [up, polyAB, makeLoop, hA, put]
  | m + 1, A, P, k, v, hA, hk => by
    rw [makeLoop] at hk ⊢
    simp only at hk ⊢
    generalize hA' : (fun j => if j < m + 1 then (A j - A (m + 1) * A (m + 1 - j)) * (1 / (1 - A (m + 1) * A (m + 1))) else A j) = A' at hk ⊢
    generalize hP' : (fun j => if j < m + 1 then P j - A (m + 1 - j) * P (m + 1) else P j) = P' at hk ⊢
    have kM : (makeLoop m A' P' (put k m (A (m + 1))) (put v (m + 1) (P (m + 1)))).1 m = A (m + 1) := by
      rw [makeLoop_k_ge m _ _ _ _ m (Nat.le_refl _), put_same]
    have vM : (makeLoop m A' P' (put k m (A (m + 1))) (put v (m + 1) (P (m + 1)))).2 (m + 1) = P (m + 1) := by
      rw [makeLoop_v_gt m _ _ _ _ (m + 1) (by omega), put_same]
    have hk1 : (1 : ℝ) - A (m + 1) * A (m + 1) ≠ 0 := by
      intro h
      have := hk m (by omega)
      rw [kM] at this
      apply this
      have h2 : |A (m + 1)| * |A (m + 1)| = 1 := by rw [abs_mul_abs_self]; linarith
      nlinarith [abs_nonneg (A (m + 1))]
    have hA'j : ∀ j, j ≤ m → A' j = (A j - A (m + 1) * A (m + 1 - j)) * (1 / (1 - A (m + 1) * A (m + 1))) := by
      intro j hj; rw [← hA']; simp only; rw [if_pos (by omega)]
    have hP'j : ∀ j, j ≤ m → P' j = P j - A (m + 1 - j) * P (m + 1) := by
      intro j hj; rw [← hP']; simp only; rw [if_pos (by omega)]
    have hA0 : A' 0 = 1 := by
      rw [hA'j 0 (by omega), hA, Nat.sub_zero, mul_one_div, div_self hk1]
    obtain ⟨i1, i2, i3⟩ := makeLoop_spec m A' P' (put k m (A (m + 1))) (put v (m + 1) (P (m + 1))) hA0
      (fun i hi => hk i (by omega))
    generalize makeLoop m A' P' (put k m (A (m + 1))) (put v (m + 1) (P (m + 1))) = r at *
    -- coefficientwise: A_{m+1} = A_m + k z B_m
    have hAj : ∀ j, j ≤ m → A (j + 1) = (if j + 1 ≤ m then A' (j + 1) else 0) + A (m + 1) * A' (m - j) := by
      intro j hj
      by_cases hc : j + 1 ≤ m
      · rw [if_pos hc, hA'j (j + 1) hc, hA'j (m - j) (by omega),
          show m + 1 - (m - j) = j + 1 by omega, show m + 1 - (j + 1) = m - j by omega]
        generalize A (j + 1) = p
        generalize A (m - j) = q
        generalize A (m + 1) = s at hk1 ⊢
        have : (1 - s * s) * (1 / (1 - s * s)) = 1 := by rw [mul_one_div, div_self hk1]
        linear_combination (-p) * this
      · have : j = m := by omega
        subst this
        rw [if_neg hc, Nat.sub_self, hA0]; ring
    have hup' : up (m + 1) (fun j => if j ≤ m then A' j else 0) = up m A' := by
      rw [up_succ, if_neg (by omega), map_zero, zero_mul, add_zero]
      exact up_congr (fun j hj => by simp only [if_pos hj])
    have e1 : up (m + 1) A = up m A' + C (A (m + 1)) * (X * up m (fun j => A' (m - j))) := by
      rw [up_succ', ← hup', up_succ']
      have : up m (fun j => A (j + 1)) = up m (fun j => (fun j => if j + 1 ≤ m then A' (j + 1) else 0) j
          + A (m + 1) * (fun j => A' (m - j)) j) := up_congr hAj
      rw [this, up_lin, hA]
      simp only [Nat.zero_le, if_true, hA0]
      ring
    have hBj : ∀ j, j ≤ m + 1 → A (m + 1 - j) = (if j ≤ m then A (m + 1) * A' j else 0)
        + (if 1 ≤ j then A' (m + 1 - j) else 0) := by
      intro j hj
      by_cases h0 : j = 0
      · subst h0
        rw [if_pos (by omega), if_neg (by omega), Nat.sub_zero, hA0]; ring
      · rw [if_pos (by omega : 1 ≤ j)]
        have := hAj (m - j) (by omega)
        by_cases hc : j ≤ m
        · rw [if_pos (by omega), show m - (m - j) = j by omega, show m - j + 1 = m + 1 - j by omega] at this
          rw [if_pos hc, this]; ring
        · have hj : j = m + 1 := by omega
          subst hj
          rw [if_neg hc, Nat.sub_self, hA0, hA]; ring
    have e2 : up (m + 1) (fun j => A (m + 1 - j)) = C (A (m + 1)) * up m A' + X * up m (fun j => A' (m - j)) := by
      have h1 : up (m + 1) (fun j => A (m + 1 - j)) = up (m + 1) (fun j =>
          (fun j => if 1 ≤ j then A' (m + 1 - j) else 0) j
          + A (m + 1) * (fun j => if j ≤ m then A' j else 0) j) := by
        apply up_congr
        intro j hj
        simp only
        rw [hBj j hj]
        split <;> split <;> ring
      rw [h1, up_lin, hup', up_succ' m (fun j => if 1 ≤ j then A' (m + 1 - j) else 0)]
      simp only [Nat.le_add_left, if_true, show ¬ (1 ≤ 0) by omega, if_false, map_zero, zero_add]
      rw [add_comm]
      congr 2
      apply up_congr
      intro j _
      congr 1; omega
    refine ⟨?_, ?_, ?_⟩
    · rw [e1, i1, i2, polyAB, kM]
    · rw [e2, i1, i2, polyAB, kM]
    · rw [sum_range_succ, ← i3, vM]
      have e3 : up (m + 1) P = up m P' + C (P (m + 1)) * up (m + 1) (fun j => A (m + 1 - j)) := by
        have h1 : up m P' + C (P (m + 1)) * up (m + 1) (fun j => A (m + 1 - j))
            = up (m + 1) (fun j => (fun j => if j ≤ m then P' j else 0) j + P (m + 1) * (fun j => A (m + 1 - j)) j) := by
          rw [up_lin]
          congr 1
          rw [up_succ, if_neg (by omega), map_zero, zero_mul, add_zero]
          exact up_congr (fun j hj => by simp only [if_pos hj])
        rw [h1]
        apply up_congr
        intro j hj
        simp only
        by_cases hc : j ≤ m
        · rw [if_pos hc, hP'j j hc]; ring
        · have : j = m + 1 := by omega
          subst this
          rw [if_neg hc, Nat.sub_self, hA]; ring
      rw [e3, e2, i1, i2, polyAB, kM]

/-! ### Tap gains -/

theorem convertTapGains_gt (k : ℕ → ℝ) : ∀ (m : ℕ) (pi : ℝ) (v : ℕ → ℝ) (i : ℕ), m < i →
    convertTapGains k m pi v i = v i
  | 0, pi, v, i, h => by rw [convertTapGains]; exact put_ne _ _ (by omega)
  | m + 1, pi, v, i, h => by
    rw [convertTapGains, convertTapGains_gt k m _ _ i (by omega), put_ne _ _ (by omega)]

theorem convertTapGains_spec (k : ℕ → ℝ) : ∀ (m : ℕ) (pi : ℝ) (v : ℕ → ℝ) (i : ℕ), i ≤ m →
    convertTapGains k m pi v i = v i / (pi * ∏ j ∈ Ico i m, Real.sqrt (1 - k j * k j))
  | 0, pi, v, i, h => by
    have : i = 0 := by omega
    subst this
    simp [convertTapGains, put]
  | m + 1, pi, v, i, h => by
    rw [convertTapGains]
    by_cases hc : i = m + 1
    · subst hc
      rw [convertTapGains_gt k m _ _ _ (by omega), put_same]
      simp
    · rw [convertTapGains_spec k m _ _ i (by omega), put_ne _ _ hc,
        prod_Ico_succ_top (by omega : i ≤ m)]
      congr 1; ring

/-! ### Response of the filter with fixed coefficients -/

/-- Response of the ladder with exact scattering coefficients, as power series. -/
theorem ladder_series (M : ℕ) (k c v : ℕ → ℝ) (hc : ∀ i, i < M → k i ^ 2 + c i ^ 2 = 1)
    (hc0 : ∀ i, i < M → c i ≠ 0) (x : ℕ → ℝ) :
    (polyAB k M).1 * PowerSeries.mk (outAt (step M k c
        (fun i => v i / ∏ j ∈ Ico i M, c j)) (fun _ => 0) x)
      = (∑ i ∈ range (M + 1), C (v i) * (polyAB k i).2) * PowerSeries.mk x := by
  set w : ℕ → ℝ := fun i => v i / ∏ j ∈ Ico i M, c j with hw
  let st : ℕ → ℕ → ℝ := fun n => stateAt (step M k c w) (fun _ => 0) x n
  have hst : ∀ n, st (n + 1) = stageLoop k c M (st n) (x n) := fun n => rfl
  choose f hf1 hf2 hf3 hf4 _ using fun n => stageLoop_spec k c M (st n) (x n)
  let F : ℕ → ℝ⟦X⟧ := fun i => PowerSeries.mk (fun n => f n i)
  let G : ℕ → ℝ⟦X⟧ := fun i => PowerSeries.mk (fun n => st (n + 1) i)
  have hS : ∀ i, PowerSeries.mk (fun n => st n i) = X * G i :=
    fun i => mk_delay rfl (fun n => rfl)
  have hFM : F M = PowerSeries.mk x := by ext n; simp [F, hf1]
  have hF : ∀ i, i < M → F i = C (c i) * F (i + 1) - C (k i) * (X * G i) := by
    intro i hi
    rw [← hS]
    ext n
    simp [F, hf2 n i hi]
  have hG0 : G 0 = F 0 := by ext n; simp [F, G, hst, hf3]
  have hG : ∀ i, i < M → G (i + 1) = C (k i) * F (i + 1) + C (c i) * (X * G i) := by
    intro i hi
    rw [← hS]
    ext n
    simp [F, G, hst, hf4 n i hi]
  have key : ∀ i, i ≤ M → (polyAB k i).1 * F 0 = C (∏ j ∈ range i, c j) * F i ∧
      (polyAB k i).2 * F 0 = C (∏ j ∈ range i, c j) * G i := by
    intro i
    induction i with
    | zero => intro _; simp [polyAB, hG0]
    | succ i ih =>
      intro hi
      obtain ⟨a1, a2⟩ := ih (by omega)
      have h1 := hF i (by omega)
      have h2 := hG i (by omega)
      have h3 : C (k i) ^ 2 + C (c i) ^ 2 = (1 : ℝ⟦X⟧) := by
        rw [← map_pow, ← map_pow, ← map_add, hc i (by omega), map_one]
      rw [polyAB, prod_range_succ, map_mul]
      simp only
      constructor
      · linear_combination a1 + C (k i) * X * a2 + C (∏ j ∈ range i, c j) * h1
      · linear_combination C (k i) * a1 + X * a2 - C (∏ j ∈ range i, c j) * C (c i) * h2
          + C (∏ j ∈ range i, c j) * C (k i) * h1 - C (∏ j ∈ range i, c j) * (X * G i) * h3
  have hprod : ∀ i, i ≤ M → (∏ j ∈ range M, c j) = (∏ j ∈ range i, c j) * ∏ j ∈ Ico i M, c j :=
    fun i hi => (prod_range_mul_prod_Ico _ hi).symm
  have hPne : ∀ i, i ≤ M → (∏ j ∈ Ico i M, c j) ≠ 0 := by
    intro i _
    apply prod_ne_zero_iff.mpr
    intro j hj
    exact hc0 j (mem_Ico.mp hj).2
  have hPM : (∏ j ∈ range M, c j) ≠ 0 := by
    apply prod_ne_zero_iff.mpr
    intro j hj
    exact hc0 j (mem_range.mp hj)
  have hy : PowerSeries.mk (outAt (step M k c w) (fun _ => 0) x)
      = ∑ i ∈ range (M + 1), G i * C (w i) := by
    ext n
    rw [map_sum]
    simp only [coeff_mk, outAt, step, taps, G, coeff_mul_C]
    rfl
  have hscaled : C (∏ j ∈ range M, c j) * PowerSeries.mk (outAt (step M k c w) (fun _ => 0) x)
      = (∑ i ∈ range (M + 1), C (v i) * (polyAB k i).2) * F 0 := by
    rw [hy, mul_sum, sum_mul]
    apply sum_congr rfl
    intro i hi
    rw [mem_range] at hi
    rw [mul_assoc, (key i (by omega)).2, hprod i (by omega), map_mul]
    have : C (∏ j ∈ Ico i M, c j) * C (w i) = (C (v i) : ℝ⟦X⟧) := by
      rw [← map_mul]
      simp only [hw]
      rw [mul_div_cancel₀ _ (hPne i (by omega))]
    linear_combination C (∏ j ∈ range i, c j) * G i * this
  have hA := (key M (Nat.le_refl _)).1
  rw [hFM] at hA
  have hCne : C (∏ j ∈ range M, c j) ≠ (0 : ℝ⟦X⟧) := by
    intro h
    apply hPM
    have := congrArg (coeff 0) h
    simpa using this
  apply mul_left_cancel₀ hCne
  linear_combination (polyAB k M).1 * hscaled + (∑ i ∈ range (M + 1), C (v i) * (polyAB k i).2) * hA

end Verif.Ladder
