import Verif.Proof.FftUtil
import Mathlib.Analysis.SpecificLimits.Basic
import Mathlib.Analysis.Real.Pi.Bounds
import Mathlib.Analysis.SpecialFunctions.Log.Basic
import Mathlib.Analysis.Complex.ExponentialBounds

/-!
# C70: periodic Gaussian convolution
-/

namespace Verif.Fft
open Finset DftSpec

theorem gaussLoop_length (rr : ℝ) (w r : ℝ) (l : List ℂ) : (gaussLoop rr w r l).length = l.length := by
  induction l generalizing w r with
  | nil => rfl
  | cons x xs ih => simp [gaussLoop, ih]

theorem gaussLoop_aux (f w : ℝ) (l : List ℂ) (i : ℕ) (k : ℕ) :
    (gaussLoop (Real.exp (-2 * f)) (w * Real.exp (-f * i ^ 2)) (Real.exp (-f * (2 * i + 1))) l).getD k 0
      = l.getD k 0 * ((w * Real.exp (-f * (i + k : ℕ) ^ 2) : ℝ) : ℂ) := by
  induction l generalizing i k with
  | nil => simp [gaussLoop]
  | cons x xs ih =>
    rw [gaussLoop]
    cases k with
    | zero => simp
    | succ k =>
      rw [List.getD_cons_succ, List.getD_cons_succ]
      have h := ih (i + 1) k
      have e1 : w * Real.exp (-f * i ^ 2) * Real.exp (-f * (2 * i + 1))
          = w * Real.exp (-f * ((i + 1 : ℕ) : ℝ) ^ 2) := by
        rw [mul_assoc, ← Real.exp_add]; congr 2; push_cast; ring
      have e2 : Real.exp (-f * (2 * i + 1)) * Real.exp (-2 * f)
          = Real.exp (-f * (2 * ((i + 1 : ℕ) : ℝ) + 1)) := by
        rw [← Real.exp_add]; congr 1; push_cast; ring
      rw [e1, e2, h, show i + 1 + k = i + (k + 1) by ring]

theorem gaussLoop_getD (f w : ℝ) (l : List ℂ) (k : ℕ) :
    (gaussLoop (Real.exp (-2 * f)) w (Real.exp (-f)) l).getD k 0
      = l.getD k 0 * ((w * Real.exp (-f * (k : ℝ) ^ 2) : ℝ) : ℂ) := by
  have h := gaussLoop_aux f w l 0 k
  simpa using h

/-- The bins of the unnormalized inverse of a spectrum with real first bin and real bin at half the sample
rate. -/
theorem bin_reG {n : ℕ} (hn : 0 < n) (S : List ℂ) (him : ∀ k, k = 0 ∨ 2 * k = n → (S.getD k 0).im = 0)
    {k : ℕ} (hk : k ≤ n / 2) :
    F n (fun m => ((G n (fun j => (hermitian n S).getD j 0) m).re : ℂ)) k = n * S.getD k 0 := by
  have hk' : k < n := by omega
  rw [F_reG hn _ hk', hermitian_getD _ hk', if_pos hk]
  congr 1
  by_cases h0 : k = 0
  · subst h0
    rw [show res n (-((0 : ℕ) : ℤ)) = 0 by simp [res], hermitian_getD _ hk', if_pos (by omega),
      Complex.conj_eq_iff_im.mpr (him 0 (.inl rfl))]
    ring
  · have : res n (-(k : ℤ)) = n - k := by
      unfold res
      rw [← Int.add_emod_left, Int.emod_eq_of_lt (by omega) (by omega)]; omega
    rw [this, hermitian_getD _ (by omega)]
    by_cases h2 : 2 * k = n
    · have : n - k = k := by omega
      rw [this, if_pos (by omega), Complex.conj_eq_iff_im.mpr (him k (.inr h2))]
      ring
    · rw [if_neg (by omega), show n - (n - k) = k by omega, Complex.conj_conj]
      ring

/-- Real signals with the same nonnegative frequencies are equal. -/
theorem bins_ext {x y : List ℝ} (hl : x.length = y.length)
    (h : ∀ k ≤ x.length / 2, bin x k = bin y k) : x = y := by
  by_cases hn : x.length = 0
  · have h1 : x = [] := List.length_eq_zero_iff.mp hn
    have h2 : y = [] := List.length_eq_zero_iff.mp (by omega)
    rw [h1, h2]
  have hn : 0 < x.length := by omega
  have hc : (x.length : ℂ) ≠ 0 := by exact_mod_cast hn.ne'
  apply list_ext_getD 0 hl
  intro i hi
  have hx := G_F hn (fun j => (x.getD j 0 : ℂ)) hi
  have hy := G_F hn (fun j => (y.getD j 0 : ℂ)) hi
  have e : ∀ k < x.length, F x.length (fun j => (x.getD j 0 : ℂ)) k
      = F x.length (fun j => (y.getD j 0 : ℂ)) k := by
    intro k hk
    rw [← hermitian_F hn (fun j => x.getD j 0)
        (X := (List.range (x.length / 2 + 1)).map (F x.length fun j => (x.getD j 0 : ℂ)))
        (fun k hk => getD_range_map _ _ _ (by omega)) hk,
      ← hermitian_F hn (fun j => y.getD j 0)
        (X := (List.range (x.length / 2 + 1)).map (F x.length fun j => (x.getD j 0 : ℂ)))
        (fun k hk => ?_) hk]
    rw [getD_range_map _ _ _ (by omega)]
    have := h k hk
    rw [bin_eq, bin_eq, ← hl] at this
    exact this
  rw [G_congr e, hy] at hx
  exact_mod_cast (mul_left_cancel₀ hc hx).symm

/-- **C70**: the convolution multiplies bin `k` of the Fourier transform of the input by the Gaussian
`exp(-2 (π σ k / n)²)`, for every length and every `σ`. -/
theorem C70_spectrum {next : ℕ → ℕ} (hnext : ∀ n, n ≤ next n) (x : List ℝ) (hne : x ≠ []) (sigma : ℝ) :
    ∃ y, periodicGaussianConvolution next x sigma = some y ∧ y.length = x.length ∧
      ∀ k ≤ x.length / 2,
        bin y k = Real.exp (-2 * (Real.pi * sigma * k / x.length) ^ 2) * bin x k := by
  have hn : 0 < x.length := List.length_pos_iff.mpr hne
  have hc : (x.length : ℂ) ≠ 0 := by exact_mod_cast hn.ne'
  obtain ⟨t, ht, _⟩ := real_make (next := next) hn false
  obtain ⟨S, hS⟩ : ∃ S, S = gaussLoop (Real.exp (-2 * (2 * (Real.pi * sigma / x.length) ^ 2)))
    (1 / (x.length : ℝ)) (Real.exp (-(2 * (Real.pi * sigma / x.length) ^ 2)))
    ((List.range (x.length / 2 + 1)).map (F x.length fun j => (x.getD j 0 : ℂ))) := ⟨_, rfl⟩
  have hSl : S.length = x.length / 2 + 1 := by rw [hS, gaussLoop_length]; simp
  have hSk : ∀ k ≤ x.length / 2, S.getD k 0 = bin x k *
      ((1 / (x.length : ℝ) * Real.exp (-2 * (Real.pi * sigma * k / x.length) ^ 2) : ℝ) : ℂ) := by
    intro k hk
    rw [hS, gaussLoop_getD, getD_range_map _ _ _ (by omega), bin_eq]
    congr 4
    ring
  have hval : periodicGaussianConvolution next x sigma = t.inverse S := by
    unfold periodicGaussianConvolution
    rw [ht]
    simp only [Option.bind_eq_bind, Option.bind_some]
    rw [make_forward hnext ht rfl]
    simp only [Option.bind_some]
    rw [hS]
  refine ⟨_, by rw [hval, make_inverse hnext ht hSl], by simp, fun k hk => ?_⟩
  rw [bin_map]
  simp only [Bool.false_eq_true, if_false, mul_one]
  rw [bin_reG hn S _ hk, hSk k hk]
  · push_cast
    field_simp
  · intro k h
    rw [hSk k (by omega), mul_comm, Complex.im_ofReal_mul]
    rcases h with rfl | h
    · rw [bin_zero_im, mul_zero]
    · rw [bin_nyquist_im x h, mul_zero]

/-- **C70**: an empty input is refused. -/
theorem C70_empty (next : ℕ → ℕ) (sigma : ℝ) : periodicGaussianConvolution next [] sigma = none := by
  simp [periodicGaussianConvolution, RealFft.make]

theorem bin_zero_sum (x : List ℝ) : bin x 0 = (x.sum : ℝ) := by
  rw [bin]
  simp only [Nat.cast_zero, mul_zero, zero_mul, zero_div, neg_zero, Complex.exp_zero, mul_one]
  rw [← Complex.ofReal_sum]
  congr 1
  induction x with
  | nil => simp
  | cons a l ih =>
    rw [List.length_cons, sum_range_succ', List.sum_cons, add_comm]
    simp only [List.getD_cons_zero, List.getD_cons_succ]
    rw [ih]

/-- **C70**: unit DC gain: the sum of the samples is preserved. -/
theorem C70_sum {next : ℕ → ℕ} {x y : List ℝ} (hnext : ∀ n, n ≤ next n) {sigma : ℝ}
    (h : periodicGaussianConvolution next x sigma = some y) : y.sum = x.sum := by
  have hne : x ≠ [] := by rintro rfl; rw [C70_empty] at h; exact absurd h (by simp)
  obtain ⟨y', hy', _, hb⟩ := C70_spectrum hnext x hne sigma
  obtain rfl : y' = y := by rw [hy'] at h; exact Option.some.inj h
  have := hb 0 (by omega)
  rw [bin_zero_sum, bin_zero_sum] at this
  simp only [Nat.cast_zero, mul_zero, zero_div, ne_eq, OfNat.ofNat_ne_zero, not_false_eq_true, zero_pow,
    Real.exp_zero, Complex.ofReal_one, one_mul] at this
  exact_mod_cast this

/-- **C70**: with `σ = 0` the output is the input. -/
theorem C70_zero {next : ℕ → ℕ} (hnext : ∀ n, n ≤ next n) (x : List ℝ) (hne : x ≠ []) :
    periodicGaussianConvolution next x 0 = some x := by
  obtain ⟨y, hy, hl, hb⟩ := C70_spectrum hnext x hne 0
  rw [hy]
  congr 1
  refine bins_ext hl fun k hk => ?_
  rw [hb k (by rw [← hl]; exact hk)]
  simp

/-- **C70**: convolving twice is convolving once with the variances added. -/
theorem C70_compose {next : ℕ → ℕ} (hnext : ∀ n, n ≤ next n) (x : List ℝ) (hne : x ≠ [])
    (s1 s2 s : ℝ) (hs : s ^ 2 = s1 ^ 2 + s2 ^ 2) :
    (periodicGaussianConvolution next x s1).bind (fun y => periodicGaussianConvolution next y s2)
      = periodicGaussianConvolution next x s := by
  obtain ⟨y, hy, hyl, hyb⟩ := C70_spectrum hnext x hne s1
  have hyne : y ≠ [] := by
    rintro rfl; exact hne (List.length_eq_zero_iff.mp hyl.symm)
  obtain ⟨z, hz, hzl, hzb⟩ := C70_spectrum hnext y hyne s2
  obtain ⟨w, hw, hwl, hwb⟩ := C70_spectrum hnext x hne s
  rw [hy, Option.bind_some, hz, hw]
  congr 1
  refine bins_ext (by omega) fun k hk => ?_
  have hnc : (x.length : ℝ) ≠ 0 := by exact_mod_cast (List.length_pos_iff.mpr hne).ne'
  rw [hzb k (by omega), hyb k (by omega), hwb k (by omega), ← mul_assoc, ← Complex.ofReal_mul,
    ← Real.exp_add, hyl]
  congr 3
  field_simp
  rw [hs]; ring

theorem bin_replicate (n : ℕ) (c : ℝ) {k : ℕ} (h0 : 0 < k) (hk : k < n) :
    bin (List.replicate n c) k = 0 := by
  rw [bin_eq, List.length_replicate]
  have : F n (fun j => ((List.replicate n c).getD j 0 : ℂ)) k = F n (fun _ => (c : ℂ)) k :=
    F_congr (fun j hj => by simp [List.getD, List.getElem?_replicate, hj]) k
  rw [this, F, ← mul_sum]
  have hs := sum_W (n := n) (by omega) (-(k : ℤ))
  rw [if_neg (by
    rw [dvd_neg]
    intro hd
    have := Int.le_of_dvd (by omega) hd
    omega)] at hs
  have e : ∑ j ∈ range n, W n (-(k * j : ℤ)) = ∑ j ∈ range n, W n (j * (-(k : ℤ))) :=
    sum_congr rfl fun j _ => by congr 1; ring
  rw [e, hs, mul_zero]

/-- **C70**: constant signals are unchanged. -/
theorem C70_constant {next : ℕ → ℕ} (hnext : ∀ n, n ≤ next n) (n : ℕ) (hn : 0 < n) (c sigma : ℝ) :
    periodicGaussianConvolution next (List.replicate n c) sigma = some (List.replicate n c) := by
  obtain ⟨y, hy, hl, hb⟩ := C70_spectrum hnext (List.replicate n c) (by simp; omega) sigma
  rw [hy]
  congr 1
  have hl' : y.length = n := by simpa using hl
  refine bins_ext hl fun k hk => ?_
  rw [hb k (by rw [← hl]; exact hk)]
  by_cases h0 : k = 0
  · subst h0; simp
  · rw [bin_replicate n c (by omega) (by omega), mul_zero]

/-! ### The documented sum -/

theorem weight_eq {sigma : ℝ} (hs : sigma ^ 2 = 1 / (2 * Real.log 2)) (n : ℤ) :
    Real.exp (-(n : ℝ) ^ 2 / (2 * sigma ^ 2)) = (1 / 2 : ℝ) ^ (n.natAbs ^ 2) := by
  have hlog : 0 < Real.log 2 := Real.log_pos (by norm_num)
  rw [hs, show -(n : ℝ) ^ 2 / (2 * (1 / (2 * Real.log 2))) = ((n.natAbs ^ 2 : ℕ) : ℝ) * -Real.log 2 by
    rw [show ((n.natAbs ^ 2 : ℕ) : ℝ) = (n : ℝ) ^ 2 by
      push_cast
      rw [← Int.cast_natCast, Int.natCast_natAbs, Int.cast_abs, sq_abs]]
    field_simp]
  rw [Real.exp_nat_mul, Real.exp_neg, Real.exp_log (by norm_num)]
  norm_num

theorem tail_summable (e : ℕ → ℕ) (he : ∀ n, n ≤ e n) : Summable fun n => (1 / 2 : ℝ) ^ (e n) :=
  Summable.of_nonneg_of_le (fun n => by positivity)
    (fun n => pow_le_pow_of_le_one (by norm_num) (by norm_num) (he n)) summable_geometric_two

theorem tail_bound : ∑' n : ℕ, (1 / 2 : ℝ) ^ ((n + 3) ^ 2) ≤ 1 / 256 := by
  have h1 : ∀ n : ℕ, (1 / 2 : ℝ) ^ ((n + 3) ^ 2) ≤ (1 / 2 : ℝ) ^ n * (1 / 2) ^ 9 := by
    intro n
    rw [← pow_add]
    exact pow_le_pow_of_le_one (by norm_num) (by norm_num) (by nlinarith)
  calc ∑' n : ℕ, (1 / 2 : ℝ) ^ ((n + 3) ^ 2) ≤ ∑' n : ℕ, (1 / 2 : ℝ) ^ n * (1 / 2) ^ 9 :=
        Summable.tsum_le_tsum h1 (tail_summable _ fun n => by nlinarith)
          (summable_geometric_two.mul_right _)
    _ = 1 / 256 := by rw [tsum_mul_right, tsum_geometric_two]; norm_num

/-- Sum over the integers of an even function dominated by an even weight. -/
theorem int_sum_aux (s : ℤ → ℝ) (w : ℕ → ℝ) (hw : ∀ n, 0 ≤ w n) (hsw : Summable w)
    (hs : ∀ n, |s n| ≤ 1) (heven : ∀ n, s (-n) = s n) :
    Summable (fun n : ℤ => s n * w n.natAbs) ∧
    |∑' n : ℤ, s n * w n.natAbs - (s 0 * w 0 + 2 * (s 1 * w 1) + 2 * (s 2 * w 2))|
      ≤ 2 * ∑' n : ℕ, w (n + 3) := by
  have h1 : Summable fun n : ℕ => s (n : ℤ) * w n :=
    Summable.of_norm_bounded hsw fun n => by
      rw [Real.norm_eq_abs, abs_mul, abs_of_nonneg (hw n)]
      exact mul_le_of_le_one_left (hw n) (hs _)
  have h2 : Summable fun n : ℕ => s ((n + 1 : ℕ) : ℤ) * w (n + 1) :=
    (summable_nat_add_iff (f := fun n : ℕ => s (n : ℤ) * w n) 1).mpr h1
  have h3 : Summable fun n : ℕ => s ((n + 3 : ℕ) : ℤ) * w (n + 3) :=
    (summable_nat_add_iff (f := fun n : ℕ => s (n : ℤ) * w n) 3).mpr h1
  have hf := HasSum.of_nat_of_neg_add_one (f := fun n : ℤ => s n * w n.natAbs)
    (m := ∑' n : ℕ, s (n : ℤ) * w n) (m' := ∑' n : ℕ, s ((n + 1 : ℕ) : ℤ) * w (n + 1))
    (by simpa only [Int.natAbs_natCast] using h1.hasSum)
    (by
      have e : (fun n : ℕ => s (-((n : ℤ) + 1)) * w (-((n : ℤ) + 1)).natAbs)
          = fun n : ℕ => s ((n + 1 : ℕ) : ℤ) * w (n + 1) := by
        funext n
        rw [heven, show (-((n : ℤ) + 1)).natAbs = n + 1 by omega]
        push_cast; rfl
      rw [e]
      exact h2.hasSum)
  refine ⟨hf.summable, ?_⟩
  rw [hf.tsum_eq, ← h1.sum_add_tsum_nat_add 3, ← h2.sum_add_tsum_nat_add 2]
  obtain ⟨R, hR⟩ : ∃ R, R = ∑' n : ℕ, s ((n + 3 : ℕ) : ℤ) * w (n + 3) := ⟨_, rfl⟩
  have hRb : |R| ≤ ∑' n : ℕ, w (n + 3) := by
    rw [hR]
    calc |∑' n : ℕ, s ((n + 3 : ℕ) : ℤ) * w (n + 3)|
        ≤ ∑' n : ℕ, |s ((n + 3 : ℕ) : ℤ) * w (n + 3)| := by
          have := norm_tsum_le_tsum_norm h3.norm
          simpa only [Real.norm_eq_abs] using this
      _ ≤ ∑' n : ℕ, w (n + 3) := by
          refine Summable.tsum_le_tsum (fun n => ?_) h3.abs ((summable_nat_add_iff 3).mpr hsw)
          rw [abs_mul, abs_of_nonneg (hw _)]
          exact mul_le_of_le_one_left (hw _) (hs _)
  have e2 : ∑' n : ℕ, s ((n + 2 + 1 : ℕ) : ℤ) * w (n + 2 + 1) = R := by rw [hR]
  rw [e2]
  simp only [sum_range_succ, range_zero, sum_empty, Nat.cast_zero, Nat.cast_one, Nat.cast_ofNat,
    zero_add, Nat.reduceAdd]
  have hRb' := abs_le.mp hRb
  rw [abs_le]
  constructor <;> linarith [hRb'.1, hRb'.2]

theorem int_sum (s : ℤ → ℝ) (hs : ∀ n, |s n| ≤ 1) (heven : ∀ n, s (-n) = s n) :
    |∑' n : ℤ, s n * (1 / 2 : ℝ) ^ (n.natAbs ^ 2) - (s 0 + s 1 + s 2 / 8)| ≤ 1 / 128 := by
  have h := (int_sum_aux s (fun n => (1 / 2 : ℝ) ^ (n ^ 2)) (fun n => by positivity)
    (tail_summable _ fun n => Nat.le_self_pow (by norm_num) n) hs heven).2
  have e : s 0 * (1 / 2 : ℝ) ^ (0 ^ 2) + 2 * (s 1 * (1 / 2 : ℝ) ^ (1 ^ 2)) +
      2 * (s 2 * (1 / 2 : ℝ) ^ (2 ^ 2)) = s 0 + s 1 + s 2 / 8 := by norm_num; ring
  rw [e] at h
  linarith [tail_bound]

theorem exp_three : (19.6 : ℝ) < Real.exp 3 := by
  have h := Real.exp_one_gt_d9
  have : Real.exp 3 = Real.exp 1 ^ 3 := by rw [← Real.exp_nat_mul]; norm_num
  rw [this]
  calc (19.6 : ℝ) < 2.7182818283 ^ 3 := by norm_num
    _ ≤ _ := pow_le_pow_left₀ (by norm_num) h.le 3

/-- **C70**, violation: the output is documented to be the convolution with samples of a Gaussian. The
multiplier used for the Fourier transform is that of the continuous Gaussian, without its aliases; at half
the sample rate this loses half of the value (the documented sum is over 1/19 in this case, the computed
output below). -/
theorem C70_documented_sum_violation {next : ℕ → ℕ} (hnext : ∀ n, n ≤ next n) :
    ∃ sigma > 0, ∃ y, periodicGaussianConvolution next [1, -1] sigma = some y ∧
      y.getD 0 0 < 1 / 19.6 ∧ 1 / 19.6 < gaussianConv [1, -1] sigma 0 := by
  have hlog : 0 < Real.log 2 := Real.log_pos (by norm_num)
  obtain ⟨sigma, hsig⟩ : ∃ s, s = Real.sqrt (1 / (2 * Real.log 2)) := ⟨_, rfl⟩
  have hpos : 0 < sigma := by rw [hsig]; positivity
  have hs : sigma ^ 2 = 1 / (2 * Real.log 2) := by rw [hsig, Real.sq_sqrt (by positivity)]
  obtain ⟨y, hy, hl, hb⟩ := C70_spectrum hnext [1, -1] (by simp) sigma
  refine ⟨sigma, hpos, y, hy, ?_, ?_⟩
  · obtain ⟨a, b, rfl⟩ : ∃ a b, y = [a, b] := List.length_eq_two.mp (by simpa using hl)
    have h0 := hb 0 (by simp)
    have h1 := hb 1 (by simp)
    have hexp : Complex.exp (-(2 * (Real.pi : ℂ) * Complex.I * ((1 : ℕ) : ℂ) * ((0 + 1 : ℕ) : ℂ)
        / ((0 + 1 + 1 : ℕ) : ℂ))) = -1 := by
      rw [show -(2 * (Real.pi : ℂ) * Complex.I * ((1 : ℕ) : ℂ) * ((0 + 1 : ℕ) : ℂ)
        / ((0 + 1 + 1 : ℕ) : ℂ)) = -(Real.pi * Complex.I) by push_cast; ring, Complex.exp_neg,
        Complex.exp_pi_mul_I]
      norm_num
    have hbin : ∀ a b : ℝ, bin [a, b] 1 = ((a - b : ℝ) : ℂ) := by
      intro a b
      simp only [bin, List.length_cons, List.length_nil, sum_range_succ, range_zero, sum_empty,
        List.getD_cons_zero, List.getD_cons_succ, hexp]
      push_cast
      simp [sub_eq_add_neg]
    rw [bin_zero_sum, bin_zero_sum] at h0
    rw [hbin, hbin, ← Complex.ofReal_mul, Complex.ofReal_inj] at h1
    have h0' : a + b = 0 := by
      have := h0
      norm_num at this
      exact_mod_cast this
    have ha : a = Real.exp (-2 * (Real.pi * sigma * (1 : ℕ) / (([1, -1] : List ℝ).length : ℕ)) ^ 2) := by
      linarith
    rw [List.getD_cons_zero, ha]
    have hle : (3 : ℝ) ≤ 2 * (Real.pi * sigma * (1 : ℕ) / (([1, -1] : List ℝ).length : ℕ)) ^ 2 := by
      have e : 2 * (Real.pi * sigma * (1 : ℕ) / (([1, -1] : List ℝ).length : ℕ)) ^ 2
          = Real.pi ^ 2 / (4 * Real.log 2) := by
        rw [div_pow, mul_pow, mul_pow, hs]
        norm_num
        field_simp
      rw [e, le_div_iff₀ (by positivity)]
      nlinarith [Real.pi_gt_three, Real.log_two_lt_d9]
    calc Real.exp (-2 * (Real.pi * sigma * (1 : ℕ) / (([1, -1] : List ℝ).length : ℕ)) ^ 2)
        ≤ Real.exp (-3) := Real.exp_le_exp.mpr (by linarith)
      _ = 1 / Real.exp 3 := by rw [Real.exp_neg, one_div]
      _ < 1 / 19.6 := one_div_lt_one_div_of_lt (by norm_num) exp_three
  · unfold gaussianConv
    simp only [weight_eq hs]
    obtain ⟨T, hT⟩ : ∃ T, T = ∑' j : ℤ, (1 / 2 : ℝ) ^ (j.natAbs ^ 2) := ⟨_, rfl⟩
    rw [← hT]
    have h3 := int_sum (fun _ => 1) (by simp) (by simp)
    simp only [one_mul] at h3
    rw [← hT] at h3
    have hsgn : ∀ n : ℤ, ([1, -1] : List ℝ).getD ((0 - n) % (([1, -1] : List ℝ).length : ℕ)).toNat 0
        = if n % 2 = 0 then 1 else -1 := by
      intro n
      have : (([1, -1] : List ℝ).length : ℤ) = 2 := by simp
      rw [this]
      rcases Int.emod_two_eq_zero_or_one n with h | h
      · rw [if_pos h, show ((0 - n) % 2).toNat = 0 by omega]; rfl
      · rw [if_neg (by omega), show ((0 - n) % 2).toNat = 1 by omega]; rfl
    have h4 := int_sum (fun n => if n % 2 = 0 then 1 else -1)
      (fun n => by split_ifs <;> simp)
      (fun n => by
        rcases Int.emod_two_eq_zero_or_one n with h | h
        · rw [if_pos h, if_pos (by omega)]
        · rw [if_neg (by omega), if_neg (by omega)])
    simp only [hsgn, ← mul_div_assoc]
    rw [tsum_div_const]
    have h3' := abs_le.mp h3
    have h4' := abs_le.mp h4
    norm_num at h3' h4'
    have hTpos : 0 < T := by linarith [h3'.1]
    rw [lt_div_iff₀ hTpos]
    norm_num
    linarith [h3'.2, h4'.1]

/-- Case: two samples. -/
example {next : ℕ → ℕ} (hnext : ∀ n, n ≤ next n) :
    periodicGaussianConvolution next [5, 5, 5] 2 = some [5, 5, 5] :=
  C70_constant hnext 3 (by norm_num) 5 2

end Verif.Fft
