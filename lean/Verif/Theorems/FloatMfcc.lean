import Verif.Proof.FloatMfcc
import Verif.Theorems.FloatMel

/-!
# C116, C117: the DCT and the MFCCs in double precision
-/

namespace Verif.FloatMfcc
open Verif.Rounding Verif.Mfcc Verif.MfccSpec Verif.FloatMelSpec Verif.FloatMfccSpec Finset

/-- **C116.** `Initialize` accepts the same sizes as in exact arithmetic. -/
theorem C116_accepts (M : Machine) (d : Dct) (n k : ℤ) : (dctInit M d n k).2 = true ↔ 1 ≤ k ∧ k ≤ n := by
  unfold dctInit
  dsimp only
  split_ifs
  · simp only [Bool.false_eq_true, false_iff]; omega
  · simp only [Bool.false_eq_true, false_iff]; omega
  · simp only [Bool.false_eq_true, false_iff]; omega
  · simp only [true_iff]; omega

theorem dctInit_eq (M : Machine) (d : Dct) (n k : ℕ) (h : (dctInit M d n k).2 = true) :
    (dctInit M d n k).1 = {
      initialized := true
      count := k
      length := n
      cosines := (List.range k).map fun i : ℕ => (List.range n).map fun j : ℕ => cosineEntry M n i j } := by
  have hk := (C116_accepts M d n k).1 h
  unfold dctInit
  dsimp only
  rw [if_neg (by omega), if_neg (by omega), if_neg (by omega)]
  simp only [Int.toNat_natCast]

theorem row_getElem? (M : Machine) (n k i j : ℕ) (hi : i < k) (hj : j < n) :
    (((List.range k).map fun i : ℕ => (List.range n).map fun j : ℕ => cosineEntry M n i j).getD i [])[j]? =
      some (cosineEntry M n i j) := by
  rw [List.getD_eq_getElem _ _ (by simpa using hi), List.getElem_map, List.getElem_range, List.getElem?_map,
    List.getElem?_range hj]
  rfl

/-- **C116.** After every successful `Initialize`, whatever happened before, `Compute` succeeds for every input, and every
coefficient is that of the exact transform of the input (zero-padded or truncated to the initialized length `n`), up to an
error of `30 n` roundings and one error of the cosine, relative to the sum of the magnitudes of the input. -/
theorem C116_accurate (M : Machine) (u w η : ℝ) (A : Rounding.Accurate M.rnd u η)
    (C : ∀ x, |M.cosine x - Real.cos x| ≤ w) (u0 : 0 ≤ u) (w1 : w ≤ 1 / 16) (d : Dct) (n k : ℕ)
    (hη : (n : ℝ) ^ 2 * η ≤ u) (hu : 32 * ((n : ℝ) * u) ≤ 1)
    (h : (dctInit M d n k).2 = true) (x out : List ℝ) (r : Except Err (List ℝ))
    (hr : DctCompute M (dctInit M d n k).1 x out r) :
    ∃ y, r = .ok y ∧ y.length = k ∧ ∀ i < k,
      |y.getD i 0 - dct n (fun j => x.getD j 0) i| ≤
        √(2 / n) * (w + 30 * (n * u)) * ∑ j ∈ range n, |x.getD j 0| + 3 * n * η := by
  have η0 : 0 ≤ η := by simpa using (abs_nonneg _).trans (A 0)
  have hk := (C116_accepts M d n k).1 h
  have n1 : 1 ≤ n := by omega
  have n1' : (1 : ℝ) ≤ n := by exact_mod_cast n1
  rw [dctInit_eq M d n k h] at hr
  unfold DctCompute at hr
  dsimp only at hr
  rw [if_neg (by simp), if_neg (by omega)] at hr
  have hlen : (if (x.length : ℤ) > n then (n : ℤ) else x.length).toNat = min n x.length := by
    split_ifs <;> omega
  rw [hlen, Int.toNat_natCast] at hr
  rcases hr with ⟨_, i, hi, j, hj, hn⟩ | ⟨_, y, rfl, hy, hd⟩
  · rw [row_getElem? M n k i j hi (by omega)] at hn
    simp at hn
  refine ⟨y, rfl, hy, fun i hi => ?_⟩
  have D := hd i (by omega)
  rw [← List.getD_eq_getElem (d := 0)] at D
  have e := FloatVector.DotProduct.error A u0 D
  rw [List.length_map, List.length_range, List.map_map, List.map_map] at e
  have hsum : ∀ f : ℕ → ℝ, ((List.range (min n x.length)).map f).sum = ∑ j ∈ range (min n x.length), f j := fun f => by
    rw [← List.sum_toFinset f List.nodup_range, List.toFinset_range]
  have ext : ∀ f : ℕ → ℝ, ∑ j ∈ range (min n x.length), f j * x.getD j 0 = ∑ j ∈ range n, f j * x.getD j 0 := fun f => by
    refine sum_subset (range_subset_range.2 (min_le_left _ _)) fun j hj hj' => ?_
    rw [mem_range] at hj hj'
    rw [List.getD_eq_default _ _ (by omega), mul_zero]
  have ext' : ∀ f : ℕ → ℝ, ∑ j ∈ range (min n x.length), f j * |x.getD j 0| = ∑ j ∈ range n, f j * |x.getD j 0| := fun f => by
    refine sum_subset (range_subset_range.2 (min_le_left _ _)) fun j hj hj' => ?_
    rw [mem_range] at hj hj'
    rw [List.getD_eq_default _ _ (by omega), abs_zero, mul_zero]
  have m1 : ((List.range (min n x.length)).map ((fun p : ℝ × ℝ => p.1 * p.2) ∘ fun j => ((((List.range k).map fun i : ℕ =>
      (List.range n).map fun j : ℕ => cosineEntry M n i j).getD i []).getD j 0, x.getD j 0))).sum =
      ∑ j ∈ range n, cosineEntry M n i j * x.getD j 0 := by
    rw [hsum, ← ext]
    refine sum_congr rfl fun j hj => ?_
    rw [mem_range] at hj
    dsimp only [Function.comp]
    rw [List.getD_eq_getElem?_getD, row_getElem? M n k i j hi (by omega)]
    rfl
  have m2 : ((List.range (min n x.length)).map ((fun p : ℝ × ℝ => |p.1 * p.2|) ∘ fun j => ((((List.range k).map fun i : ℕ =>
      (List.range n).map fun j : ℕ => cosineEntry M n i j).getD i []).getD j 0, x.getD j 0))).sum =
      ∑ j ∈ range n, |cosineEntry M n i j| * |x.getD j 0| := by
    rw [hsum, ← ext']
    refine sum_congr rfl fun j hj => ?_
    rw [mem_range] at hj
    dsimp only [Function.comp]
    rw [List.getD_eq_getElem?_getD, row_getElem? M n k i j hi (by omega), abs_mul]
    rfl
  rw [m1, m2] at e
  have F0 := Real.sqrt_nonneg (2 / (n : ℝ))
  have w0 : 0 ≤ w := (abs_nonneg _).trans (C 0)
  have ent := fun j (hj : j < n) => entry_error M A C u0 η0 w1 n i j n1 hη hu (by omega) hj
  have U0 : 0 ≤ (n : ℝ) * u := by positivity
  have S0 : 0 ≤ ∑ j ∈ range n, |x.getD j 0| := sum_nonneg fun _ _ => abs_nonneg _
  have size : ∑ j ∈ range n, |cosineEntry M n i j| * |x.getD j 0| ≤ 2 * √(2 / n) * ∑ j ∈ range n, |x.getD j 0| := by
    rw [mul_sum]
    refine sum_le_sum fun j hj => mul_le_mul_of_nonneg_right ?_ (abs_nonneg _)
    have h1 := ent j (mem_range.1 hj)
    have h2 : |√(2 / n) * Real.cos (Real.pi * i * (j + 1 / 2) / n)| ≤ √(2 / n) := by
      rw [abs_mul, abs_of_nonneg F0]
      exact mul_le_of_le_one_right F0 (Real.abs_cos_le_one _)
    have h3 := abs_sub_abs_le_abs_sub (cosineEntry M n i j) (√(2 / n) * Real.cos (Real.pi * i * (j + 1 / 2) / n))
    have h4 : √(2 / (n : ℝ)) * (w + 25 * (n * u)) ≤ √(2 / n) * 1 := mul_le_mul_of_nonneg_left (by linarith) F0
    linarith
  have table : |∑ j ∈ range n, cosineEntry M n i j * x.getD j 0 - dct n (fun j => x.getD j 0) i| ≤
      √(2 / n) * (w + 25 * (n * u)) * ∑ j ∈ range n, |x.getD j 0| := by
    unfold dct
    rw [← sum_sub_distrib, mul_sum]
    refine (abs_sum_le_sum_abs _ _).trans (sum_le_sum fun j hj => ?_)
    rw [← sub_mul, abs_mul]
    exact mul_le_mul_of_nonneg_right (ent j (mem_range.1 hj)) (abs_nonneg _)
  have pw := pow_error u0 n1 hu (min_le_left n x.length)
  have pw1 : 1 ≤ (1 + u) ^ (min n x.length + 1) := one_le_pow₀ (by linarith)
  have ml : ((min n x.length : ℕ) : ℝ) ≤ n := by exact_mod_cast min_le_left n x.length
  generalize (1 + u) ^ (min n x.length + 1) = P at *
  generalize ((min n x.length : ℕ) : ℝ) = m at *
  have t1 : (P - 1) * ∑ j ∈ range n, |cosineEntry M n i j| * |x.getD j 0| ≤
      215 / 100 * (n * u) * (2 * √(2 / n) * ∑ j ∈ range n, |x.getD j 0|) :=
    mul_le_mul (by linarith) size (sum_nonneg fun _ _ => by positivity) (by positivity)
  have t2 : 2 * m * P * η ≤ 3 * n * η := by
    refine mul_le_mul_of_nonneg_right ?_ η0
    have : 2 * m * P ≤ 2 * n * P := by nlinarith
    nlinarith
  have tri := abs_sub_le (y.getD i 0) (∑ j ∈ range n, cosineEntry M n i j * x.getD j 0) (dct n (fun j => x.getD j 0) i)
  have FS : 0 ≤ √(2 / n) * (n * u) * ∑ j ∈ range n, |x.getD j 0| := by positivity
  nlinarith

theorem exists_dot (rnd : ℝ → ℝ) (l : List (ℝ × ℝ)) : ∃ s, FloatVector.DotProduct rnd l s := by
  induction l using List.reverseRecOn with
  | nil => exact ⟨0, .nil⟩
  | append_singleton l p ih =>
    obtain ⟨s, hs⟩ := ih
    exact ⟨_, .snoc hs (.inl rfl)⟩

/-- `Compute` has a result for all arguments. -/
theorem exists_dctCompute (M : Machine) (d : Dct) (x out : List ℝ) : ∃ r, DctCompute M d x out r := by
  unfold DctCompute
  by_cases c1 : d.initialized = false
  · exact ⟨_, by rw [if_pos c1]⟩
  by_cases c2 : d.count < 0
  · exact ⟨_, by rw [if_neg c1, if_pos c2]⟩
  · simp only [if_neg c1, if_neg c2]
    by_cases c : ∃ i < d.count.toNat, ∃ j < (if (x.length : ℤ) > d.length then d.length else x.length).toNat,
        (d.cosines.getD i [])[j]? = none
    · exact ⟨_, .inl ⟨rfl, c⟩⟩
    · push Not at c
      choose f hf using fun i : ℕ => exists_dot M.rnd
        ((List.range (if (x.length : ℤ) > d.length then d.length else x.length).toNat).map fun j =>
          ((d.cosines.getD i []).getD j 0, x.getD j 0))
      refine ⟨_, .inr ⟨c, (List.range d.count.toNat).map f, rfl, by simp, fun i hi => ?_⟩⟩
      rw [List.getElem_map, List.getElem_range]
      exact hf i

theorem ideal_accurate' : Machine.ideal.Accurate (1 / 2 ^ 53) (1 / 2 ^ 53) (1 / 2 ^ 52) (1 / 2 ^ 1075) :=
  ⟨binary64_accurate, fun x _ => binary64_accurate (Real.log x), fun x => by
    have h := binary64_accurate (Real.cos x)
    have c := Real.abs_cos_le_one x
    have hη : (1 : ℝ) / 2 ^ 1075 ≤ 1 / 2 ^ 53 :=
      one_div_le_one_div_of_le (by positivity) (pow_le_pow_right₀ (by norm_num) (by norm_num))
    refine h.trans ?_
    generalize (1 : ℝ) / 2 ^ 1075 = η at *
    norm_num at hη ⊢
    linarith⟩

/-- The hypotheses of `C116_accurate` are met by the default configuration of the MFCCs in IEEE 754 doubles: 13 coefficients of
40 channels, with an error of less than `1.4e-13` relative to the sum of the magnitudes (and less than `1e-300`). -/
example (d : Dct) (x out : List ℝ) : ∃ y, DctCompute .ideal (dctInit .ideal d 40 13).1 x out (.ok y) ∧ y.length = 13 ∧
    ∀ i < 13, |y.getD i 0 - dct 40 (fun j => x.getD j 0) i| ≤
      √(1 / 20) * (14 / 10 ^ 14) * ∑ j ∈ range 40, |x.getD j 0| + 1 / 2 ^ 1000 := by
  obtain ⟨r, hr⟩ := exists_dctCompute .ideal (dctInit .ideal d 40 13).1 x out
  have hη : (1 : ℝ) / 2 ^ 1075 ≤ 1 / 2 ^ 80 :=
    one_div_le_one_div_of_le (by positivity) (pow_le_pow_right₀ (by norm_num) (by norm_num))
  have hη2 : 120 * ((1 : ℝ) / 2 ^ 1075) ≤ 1 / 2 ^ 1000 := by
    rw [show (1075 : ℕ) = 75 + 1000 from rfl, pow_add, ← one_div_mul_one_div, ← mul_assoc]
    exact mul_le_of_le_one_left (by positivity) (by norm_num)
  obtain ⟨y, rfl, hy, hd⟩ := C116_accurate .ideal (1 / 2 ^ 53) (1 / 2 ^ 52) (1 / 2 ^ 1075) binary64_accurate
    ideal_accurate'.cosine (by positivity) (by norm_num) d 40 13
    (by generalize (1 : ℝ) / 2 ^ 1075 = η at *; push_cast; norm_num at hη ⊢; linarith) (by push_cast; norm_num)
    ((C116_accepts _ _ _ _).2 (by norm_num)) x out r hr
  refine ⟨y, hr, hy, fun i hi => (hd i hi).trans ?_⟩
  have S0 : 0 ≤ ∑ j ∈ range 40, |x.getD j 0| := sum_nonneg fun _ _ => abs_nonneg _
  generalize (1 : ℝ) / 2 ^ 1075 = η at *
  generalize (1 : ℝ) / 2 ^ 1000 = ζ at *
  generalize ∑ j ∈ range 40, |x.getD j 0| = S at *
  have : (2 : ℝ) / (40 : ℕ) = 1 / 20 := by norm_num
  rw [this]
  have F0 := Real.sqrt_nonneg (1 / 20)
  generalize √(1 / 20) = F at *
  have k : (1 : ℝ) / 2 ^ 52 + 30 * ((40 : ℕ) * (1 / 2 ^ 53)) ≤ 14 / 10 ^ 14 := by norm_num
  have := mul_le_mul_of_nonneg_right (mul_le_mul_of_nonneg_left k F0) S0
  push_cast at this ⊢
  linarith

theorem Machine.Accurate.mel {M : Machine} {u v w η : ℝ} (A : M.Accurate u v w η) : M.toMachine.Accurate u v η :=
  ⟨A.rnd, fun x hx => by
    have := A.log x (by linarith)
    rwa [abs_of_nonneg (Real.log_nonneg hx)] at this⟩

/-- The coefficients of an inexact mel spectrum. -/
theorem mfcc_error (M : Machine) {u v w η : ℝ} (A : M.Accurate u v w η) (u0 : 0 ≤ u) (v0 : 0 ≤ v)
    (v1 : v ≤ 1 / 16) (w1 : w ≤ 1 / 16) (hη : η ≤ u / 10 ^ 12) (d : Dct) (n k : ℕ) (h1 : 1 ≤ k) (h2 : k ≤ n)
    (hηn : (n : ℝ) ^ 2 * η ≤ u) (hu : 32 * ((n : ℝ) * u) ≤ 1) (L : ℕ → ℝ) (E : ℝ)
    (hE : ∀ c < n, 8 * E ≤ floored (L c)) (working : List ℝ) (hl : working.length = n)
    (hw : ∀ c < n, |working.getD c 0 - L c| ≤ E) (out : List ℝ) (r : Except Err (List ℝ))
    (hr : DctCompute M (dctInit M d n k).1 (working.map (floorLog M)) out r) :
    ∃ y, r = .ok y ∧ y.length = k ∧ ∀ i < k, |y.getD i 0 - dct n (fun c => Real.log (floored (L c))) i| ≤
      √(2 / n) * ((w + 30 * (n * u) + 2 * v) * ∑ c ∈ range n, |Real.log (floored (L c))| +
        8 * (n * u) + 4 * ∑ c ∈ range n, E / floored (L c)) + 6 * n * η := by
  have η0 : 0 ≤ η := by simpa using (abs_nonneg _).trans (A.rnd 0)
  have n1' : (1 : ℝ) ≤ n := by exact_mod_cast h1.trans h2
  obtain ⟨y, rfl, hy, hd⟩ := C116_accurate M u w η A.rnd A.cosine u0 w1 d n k hηn hu
    ((C116_accepts M d n k).2 (by omega)) _ out r hr
  refine ⟨y, rfl, hy, fun i hi => ?_⟩
  have e := hd i hi
  have F0 := Real.sqrt_nonneg (2 / (n : ℝ))
  have F1 : √(2 / (n : ℝ)) ≤ 3 / 2 := by
    rw [Real.sqrt_le_left (by norm_num), div_le_iff₀ (by linarith)]
    linarith
  have err : ∀ c ∈ range n, |(working.map (floorLog M)).getD c 0 - Real.log (floored (L c))| ≤
      v * |Real.log (floored (L c))| + 2 * (E / floored (L c)) + 4 * u + η := by
    intro c hc
    rw [mem_range] at hc
    have : (working.map (floorLog M)).getD c 0 = floorLog M (working.getD c 0) := by
      rw [List.getD_eq_getElem _ _ (by rw [List.length_map]; omega), List.getElem_map, List.getD_eq_getElem _ _ (by omega)]
    rw [this]
    exact log_floor_error M A (by nlinarith) v0 v1 hη (hE c hc) (hw c hc)
  have lin : |dct n (fun j => (working.map (floorLog M)).getD j 0) i - dct n (fun c => Real.log (floored (L c))) i| ≤
      √(2 / n) * ∑ c ∈ range n, |(working.map (floorLog M)).getD c 0 - Real.log (floored (L c))| := by
    unfold dct
    rw [← sum_sub_distrib, mul_sum]
    refine (abs_sum_le_sum_abs _ _).trans (sum_le_sum fun j _ => ?_)
    rw [← mul_sub, abs_mul, abs_mul, abs_of_nonneg F0]
    refine mul_le_mul_of_nonneg_right ?_ (abs_nonneg _)
    exact mul_le_of_le_one_right F0 (Real.abs_cos_le_one _)
  have total : ∑ c ∈ range n, |(working.map (floorLog M)).getD c 0 - Real.log (floored (L c))| ≤
      v * ∑ c ∈ range n, |Real.log (floored (L c))| + 2 * ∑ c ∈ range n, E / floored (L c) + 4 * (n * u) + n * η := by
    refine (sum_le_sum err).trans ?_
    rw [sum_add_distrib, sum_add_distrib, sum_add_distrib, ← mul_sum, ← mul_sum, sum_const, sum_const, card_range,
      nsmul_eq_mul, nsmul_eq_mul]
    linarith
  have size : ∑ c ∈ range n, |(working.map (floorLog M)).getD c 0| ≤ ∑ c ∈ range n, |Real.log (floored (L c))| +
      ∑ c ∈ range n, |(working.map (floorLog M)).getD c 0 - Real.log (floored (L c))| := by
    rw [← sum_add_distrib]
    refine sum_le_sum fun c _ => ?_
    have := abs_sub_abs_le_abs_sub ((working.map (floorLog M)).getD c 0) (Real.log (floored (L c)))
    linarith
  have tri := abs_sub_le (y.getD i 0) (dct n (fun j => (working.map (floorLog M)).getD j 0) i)
    (dct n (fun c => Real.log (floored (L c))) i)
  have w0 : 0 ≤ w := (abs_nonneg _).trans (A.cosine 0)
  have U0 : 0 ≤ (n : ℝ) * u := by positivity
  have S0 : 0 ≤ ∑ c ∈ range n, |(working.map (floorLog M)).getD c 0 - Real.log (floored (L c))| :=
    sum_nonneg fun _ _ => abs_nonneg _
  have Nη : 0 ≤ (n : ℝ) * η := by positivity
  generalize dct n (fun j => (working.map (floorLog M)).getD j 0) i = a at *
  generalize dct n (fun c => Real.log (floored (L c))) i = b at *
  generalize ∑ c ∈ range n, |(working.map (floorLog M)).getD c 0 - Real.log (floored (L c))| = D at *
  generalize ∑ c ∈ range n, |(working.map (floorLog M)).getD c 0| = X at *
  generalize ∑ c ∈ range n, |Real.log (floored (L c))| = Y at *
  generalize ∑ c ∈ range n, E / floored (L c) = Z at *
  generalize √(2 / (n : ℝ)) = F at *
  have W1 : w + 30 * (n * u) ≤ 1 := by linarith
  have W0 : 0 ≤ w + 30 * (n * u) := by positivity
  rw [mul_assoc (3 : ℝ)] at e
  rw [mul_assoc (6 : ℝ)]
  generalize w + 30 * ((n : ℝ) * u) = W at *
  generalize (n : ℝ) * η = H at *
  generalize (n : ℝ) * u = U at *
  have k1 : F * W * X ≤ F * W * (Y + D) := mul_le_mul_of_nonneg_left size (by positivity)
  have k2 : F * W * D ≤ F * D := mul_le_mul_of_nonneg_right (mul_le_of_le_one_right F0 W1) S0
  have k3 := mul_le_mul_of_nonneg_left total F0
  have k4 : F * H ≤ 3 / 2 * H := mul_le_mul_of_nonneg_right F1 Nη
  have k5 : F * W * (Y + D) = F * W * Y + F * W * D := by ring
  linarith

/-- **C117 (the full statement would omit the condition `hin` on the bins, as in `C112_accurate_partial`).** For every machine
with an accurate arithmetic, and for every accepted configuration in which the used bins are inside the limits by more than the
error of a position, `Initialize` succeeds, and `Compute` accesses nothing out of bounds and returns accurate coefficients for
every power spectrum for which the error of the filterbank is at most an eighth of its outputs (or of the floor): the error is
made of one of the cosine, two of the logarithm and `30 n` roundings, relative to the sum of the magnitudes of the log-mel
spectrum, and of the error of the filterbank relative to its outputs. -/
theorem C117_accurate_partial (M : Machine) (u v w η : ℝ) (A : M.Accurate u v w η) (R : Regular M.rnd) (u1 : u ≤ 1 / 1000)
    (v0 : 0 ≤ v) (v1 : v ≤ 1 / 1000) (w1 : w ≤ 1 / 16) (hη : η ≤ u / 10 ^ 12)
    (m : Mfcc) (fft n k : ℕ) (hn : m.channelCount = n) (hk : m.coefficientCount = k) (h1 : 1 ≤ k) (h2 : k ≤ n)
    (hηn : (n : ℝ) ^ 2 * η ≤ u) (hu : 32 * ((n : ℝ) * u) ≤ 1)
    (rate : ℝ) (hr : 0 < rate) (hf : 2 ≤ fft) (hlo : 0 ≤ m.lower) (hhi : m.lower < m.upper)
    (hε : (n + 1) * positionError u v m.lower m.upper ≤ 1 / 16)
    (hηm : η * (n + 1) ≤ u * (mel m.upper - mel m.lower))
    (hz : ℝ) (start stop : ℕ) (hhz : FloatMel.hzPerSbin M.toMachine fft rate = hz)
    (hstart : castInt (M.rnd (3 / 2 + M.rnd (m.lower / hz))) = .ok start)
    (hstop : castInt (M.rnd (m.upper / hz)) = .ok stop)
    (hfft : stop < fft) (hK : 8 * (((stop + 1 - start : ℕ) : ℝ) * u) ≤ 1)
    (hin : ∀ i, start ≤ i → i ≤ stop →
      -1 + (n + 1) * positionError u v m.lower m.upper < position n m.lower m.upper (i * hz) ∧
      position n m.lower m.upper (i * hz) ≤ n - (n + 1) * positionError u v m.lower m.upper) :
    ∃ m', init M m fft rate = .ok (m', true) ∧
      ∀ (s out : List ℝ) (L : ℕ → ℝ) (E : ℝ), (∀ x ∈ s, 0 ≤ x) → stop < s.length →
        L = output n m.lower m.upper hz start stop (fun i => s.getD i 0) →
        E = melError u v η n m.lower m.upper (stop + 1 - start) (∑ i ∈ Icc start stop, √(s.getD i 0)) →
        (∀ c < n, 8 * E ≤ floored (L c)) →
        ∀ r, Compute M m' s out r → ∃ y, r = .ok y ∧ y.length = k ∧ ∀ i < k,
          |y.getD i 0 - dct n (fun c => Real.log (floored (L c))) i| ≤
            √(2 / n) * ((w + 30 * (n * u) + 2 * v) * ∑ c ∈ range n, |Real.log (floored (L c))| +
              8 * (n * u) + 4 * ∑ c ∈ range n, E / floored (L c)) + 6 * n * η := by
  have η0 : 0 ≤ η := by simpa using (abs_nonneg _).trans (A.rnd 0)
  have u0 : 0 ≤ u := by
    by_contra c
    have : u / 10 ^ 12 < 0 := div_neg_of_neg_of_pos (not_le.1 c) (by positivity)
    linarith
  obtain ⟨mel', i1, i2⟩ := FloatMel.C112_accurate_partial M.toMachine u v η A.mel R u1 v0 v1 (by linarith) m.mel fft n rate
    m.lower m.upper (by omega) hr hf hlo hhi hε hηm hz start stop hhz hstart hstop hfft hK hin
  have d1 : (dctInit M m.dct n k).2 = true := (C116_accepts M m.dct n k).2 (by omega)
  refine ⟨{ m with mel := mel', dct := (dctInit M m.dct n k).1, initialized := true }, ?_, ?_⟩
  · unfold init
    rw [hn, hk, i1]
    simp only [bind, Except.bind, pure, Except.pure, d1]
    rfl
  · intro s out L E hs hl hL hE h8 r hr
    obtain ⟨working, w1', w2, w3⟩ := i2 s [] hs hl
    unfold Compute at hr
    dsimp only at hr
    rw [if_neg (by simp), w1'] at hr
    refine mfcc_error M A u0 v0 (by linarith) w1 hη m.dct n k h1 h2 hηn hu L E h8 working w2 (fun c hc => ?_) out r hr
    rw [hL, hE]
    exact w3 c hc

theorem exists_compute (M : Machine) (m : Mfcc) (s out : List ℝ) : ∃ r, Compute M m s out r := by
  unfold Compute
  split_ifs
  · exact ⟨_, rfl⟩
  · split
    · exact ⟨_, rfl⟩
    · exact exists_dctCompute _ _ _ _

/-- **C117.** `Initialize`, when it returns, reports success exactly for valid settings, and the object then counts as
initialized exactly if it reported success. -/
theorem C117_accepts (M : Machine) (m m' : Mfcc) (len : ℤ) (rate : ℝ) (ok : Bool) (h : init M m len rate = .ok (m', ok)) :
    (ok = true ↔ 0 < rate ∧ 2 ≤ len ∧ 0 ≤ m.lower ∧ m.lower < m.upper ∧ 1 ≤ m.coefficientCount ∧
      m.coefficientCount ≤ m.channelCount) ∧ m'.initialized = ok := by
  unfold init at h
  cases he : FloatMel.init M.toMachine m.mel len rate m.channelCount m.lower m.upper with
  | error e => rw [he] at h; cases h
  | ok q =>
    obtain ⟨mel, ok1⟩ := q
    rw [he] at h
    have h2 := C116_accepts M m.dct m.channelCount m.coefficientCount
    generalize dctInit M m.dct m.channelCount m.coefficientCount = d at *
    obtain ⟨d, ok2⟩ := d
    simp only [bind, Except.bind, pure, Except.pure, Except.ok.injEq, Prod.mk.injEq] at h
    obtain ⟨h3, h4⟩ := h
    rw [← h3, ← h4]
    refine ⟨?_, rfl⟩
    have h1 : ok1 = true ↔ ¬ m.channelCount < 1 ∧ ¬ rate ≤ 0 ∧ ¬ len < 2 ∧ ¬ m.lower < 0 ∧ ¬ m.upper ≤ m.lower := by
      unfold FloatMel.init at he
      dsimp only at he
      by_cases c1 : m.channelCount < 1
      · rw [if_pos c1] at he; cases he; simp [c1]
      by_cases c2 : rate ≤ 0
      · rw [if_neg c1, if_pos c2] at he; cases he; simp [c2]
      by_cases c3 : len < 2
      · rw [if_neg c1, if_neg c2, if_pos c3] at he; cases he; simp [c3]
      by_cases c4 : m.lower < 0
      · rw [if_neg c1, if_neg c2, if_neg c3, if_pos c4] at he; cases he; simp [c4]
      by_cases c5 : m.upper ≤ m.lower
      · rw [if_neg c1, if_neg c2, if_neg c3, if_neg c4, if_pos c5] at he; cases he; simp [c5]
      rw [if_neg c1, if_neg c2, if_neg c3, if_neg c4, if_neg c5] at he
      have : ok1 = true := by
        simp only [bind, Except.bind, pure, Except.pure] at he
        repeat' (split at he <;> try cases he)
        all_goals rfl
      simp only [this, c1, c2, c3, c4, c5, not_false_eq_true, and_self]
    simp only [Bool.and_eq_true, h1, h2, not_lt, not_le]
    constructor
    · rintro ⟨⟨a, b, c, d, e⟩, f, g⟩; exact ⟨b, c, d, e, f, g⟩
    · rintro ⟨b, c, d, e, f, g⟩; exact ⟨⟨by omega, b, c, d, e⟩, f, g⟩

/-- The hypotheses of `C117_accurate_partial` are met: two coefficients of two channels between 0 Hz and 1750 Hz, the flat
spectrum of four bins at 4200 Hz. -/
example (m : Mfcc) (h1 : m.lower = 0) (h2 : m.upper = 1750) (h3 : m.channelCount = 2) (h4 : m.coefficientCount = 2) :
    ∃ m', init .ideal m 4 4200 = .ok (m', true) ∧ ∃ y, Compute .ideal m' [1, 1, 1, 1] [] (.ok y) ∧ y.length = 2 := by
  have hη : (1 : ℝ) / 2 ^ 1075 ≤ 1 / 2 ^ 100 :=
    one_div_le_one_div_of_le (by positivity) (pow_le_pow_right₀ (by norm_num) (by norm_num))
  obtain ⟨c1, c2, c3, c4, c5, c6⟩ := FloatMel.example_config
  have := C117_accurate_partial .ideal _ _ _ _ ideal_accurate' binary64_regular (by norm_num) (by norm_num) (by norm_num)
    (by norm_num) (hη.trans (by norm_num)) m 4 2 2 h3 h4 (by norm_num) le_rfl
    (by generalize (1 : ℝ) / 2 ^ 1075 = η at *; push_cast; norm_num at hη ⊢; linarith) (by push_cast; norm_num)
    4200 (by norm_num) (by norm_num) h1.ge (by rw [h1, h2]; norm_num) (by rw [h1, h2]; exact c1) (by rw [h1, h2]; exact c2)
    700 1 2 c3 (by rw [h1]; exact c4) (by rw [h2]; exact c5) (by norm_num) (by norm_num) (by rw [h1, h2]; exact c6)
  obtain ⟨m', e1, e2⟩ := this
  obtain ⟨r, hr⟩ := exists_compute .ideal m' [1, 1, 1, 1] []
  obtain ⟨y, rfl, hy, -⟩ := e2 [1, 1, 1, 1] [] _ _ (by simp) (by simp) rfl rfl (fun c _ => by
    refine le_trans ?_ (le_max_left _ _)
    rw [h1, h2]
    have ε := FloatMel.example_error
    unfold melError
    have s : ∑ i ∈ Icc 1 2, √(([1, 1, 1, 1] : List ℝ).getD i 0) = 2 := by
      rw [show Icc 1 2 = {1, 2} from rfl, sum_pair (by norm_num)]
      norm_num
    rw [s]
    generalize (1 : ℝ) / 2 ^ 1075 = η at *
    generalize positionError (1 / 2 ^ 53) (1 / 2 ^ 53) 0 1750 = e at *
    push_cast
    norm_num at hη ε ⊢
    linarith) r hr
  exact ⟨m', e1, y, hr, hy⟩

end Verif.FloatMfcc
