import Verif.Proof.FftReal
import Verif.Theorems.Fft
import Verif.Model.FftUtil

/-! Lemmas about spectra of real signals, convolution and resampling. -/

namespace Verif.Fft
open Finset DftSpec

theorem make_pos {next : ℕ → ℕ} {n : ℕ} {norm : Bool} {t : RealFft}
    (ht : RealFft.make next n norm = some t) : 0 < n := by
  have := (C39_make next n norm).2.mp ⟨t, ht⟩; omega

theorem make_impl {next : ℕ → ℕ} {n : ℕ} {norm : Bool} {t : RealFft}
    (ht : RealFft.make next n norm = some t) : t.normalization = norm ∧ RealOk next n t.impl := by
  obtain ⟨t', ht', h⟩ := real_make (next := next) (make_pos ht) norm
  obtain rfl : t' = t := by rw [ht'] at ht; exact Option.some.inj ht
  exact h

theorem make_transformedSize {next : ℕ → ℕ} {n : ℕ} {norm : Bool} {t : RealFft}
    (ht : RealFft.make next n norm = some t) : t.transformedSize = n / 2 + 1 := by
  rw [RealFft.transformedSize, realImpl_size next (make_impl ht).2]

theorem make_forward {next : ℕ → ℕ} (hnext : ∀ n, n ≤ next n) {n : ℕ} {norm : Bool} {t : RealFft}
    (ht : RealFft.make next n norm = some t) {x : List ℝ} (hx : x.length = n) :
    t.forward x = some ((List.range (n / 2 + 1)).map (F n fun j => (x.getD j 0 : ℂ))) := by
  rw [RealFft.forward, realImpl_size next (make_impl ht).2, if_neg (by simp [hx]),
    realImpl_forward (make_pos ht) next hnext (make_impl ht).2]

theorem make_inverse {next : ℕ → ℕ} (hnext : ∀ n, n ≤ next n) {n : ℕ} {norm : Bool} {t : RealFft}
    (ht : RealFft.make next n norm = some t) {X : List ℂ} (hX : X.length = n / 2 + 1) :
    t.inverse X = some ((List.range n).map fun m : ℕ =>
      (G n (fun j => (hermitian n X).getD j 0) m).re * (if norm then 1 / (n : ℝ) else 1)) := by
  rw [RealFft.inverse, make_transformedSize ht, if_neg (by simp [hX]),
    realImpl_inverse (make_pos ht) next hnext (make_impl ht).2 hX, (make_impl ht).1,
    realImpl_size next (make_impl ht).2]
  cases norm <;> simp [List.map_map, Function.comp_def]

theorem hermitian_symm {n : ℕ} {X : List ℂ} {Z : ℕ → ℂ} (hX : ∀ k ≤ n / 2, X.getD k 0 = Z k)
    (hZ : ∀ k, 0 < k → k < n → starRingEnd ℂ (Z (n - k)) = Z k) {k : ℕ} (hk : k < n) :
    (hermitian n X).getD k 0 = Z k := by
  rw [hermitian_getD _ hk]
  by_cases h : k ≤ n / 2
  · rw [if_pos h, hX k h]
  · rw [if_neg h, hX _ (by omega), hZ k (by omega) hk]

theorem resize_getD {α : Type*} [Zero α] (n : ℕ) (v : List α) (k : ℕ) :
    (resize n v).getD k 0 = if k < n then v.getD k 0 else 0 := by
  unfold resize
  by_cases h : k < n
  · rw [if_pos h]
    by_cases h2 : k < v.length
    · rw [List.getD_append _ _ _ _ (by simp; omega)]
      simp [List.getD, h]
    · rw [List.getD_append_right _ _ _ _ (by simp; omega), List.getD_eq_default v _ (by omega)]
      simp only [List.getD, List.getElem?_replicate]
      split <;> rfl
  · rw [if_neg h, List.getD_eq_default _ _ (by simp; omega)]

theorem resize_length {α : Type*} [Zero α] (n : ℕ) (v : List α) : (resize n v).length = n := by
  unfold resize; simp; omega

/-! ### Convolution -/

theorem conv_length (a b : List ℝ) : (conv a b).length = a.length + b.length - 1 := by simp [conv]

theorem conv_getD (a b : List ℝ) (hab : 0 < a.length ∧ 0 < b.length) (k : ℕ) :
    (conv a b).getD k 0 = ∑ j ∈ range (k + 1), a.getD j 0 * b.getD (k - j) 0 := by
  by_cases h : k < a.length + b.length - 1
  · rw [conv, getD_range_map _ _ _ h]
  · rw [List.getD_eq_default _ _ (by rw [conv_length]; omega)]
    symm
    apply sum_eq_zero
    intro j hj
    by_cases h2 : j < a.length
    · rw [List.getD_eq_default b _ (by omega), mul_zero]
    · rw [List.getD_eq_default a _ (by omega), zero_mul]

theorem circ_conv {M : ℕ} (hM : 0 < M) (a b : List ℝ) (hab : 0 < a.length ∧ 0 < b.length)
    (hlen : a.length + b.length - 1 ≤ M) {k : ℕ} (hk : k < M) :
    ∑ j ∈ range M, (a.getD j 0 : ℂ) * (b.getD (res M ((k : ℤ) - j)) 0 : ℂ)
      = ((conv a b).getD k 0 : ℂ) := by
  rw [conv_getD a b hab, Complex.ofReal_sum]
  rw [← sum_subset (range_subset_range.mpr (show k + 1 ≤ M by omega))]
  · refine sum_congr rfl fun j hj => ?_
    have hj := mem_range.mp hj
    rw [Complex.ofReal_mul]
    congr 3
    unfold res
    rw [Int.emod_eq_of_lt (by omega) (by omega)]; omega
  · intro j hj hj2
    have hj := mem_range.mp hj
    have hj2 : k < j := by
      by_contra h; exact hj2 (mem_range.mpr (by omega))
    by_cases h : j < a.length
    · have e : res M ((k : ℤ) - j) = M + k - j := by
        unfold res
        rw [← Int.add_emod_left, Int.emod_eq_of_lt (by omega) (by omega)]; omega
      rw [e, List.getD_eq_default b _ (by omega)]; simp
    · rw [List.getD_eq_default a _ (by omega)]; simp

theorem F_conv {M : ℕ} (hM : 0 < M) (a b : List ℝ) (hab : 0 < a.length ∧ 0 < b.length)
    (hlen : a.length + b.length - 1 ≤ M) {k : ℕ} (hk : k < M) :
    F M (fun j => ((conv a b).getD j 0 : ℂ)) k
      = F M (fun j => (a.getD j 0 : ℂ)) k * F M (fun j => (b.getD j 0 : ℂ)) k := by
  have hMc : (M : ℂ) ≠ 0 := by exact_mod_cast hM.ne'
  have h := F_G hM (fun i => F M (fun j => (a.getD j 0 : ℂ)) i * F M (fun j => (b.getD j 0 : ℂ)) i) hk
  have e : ∀ i < M, G M (fun i => F M (fun j => (a.getD j 0 : ℂ)) i *
      F M (fun j => (b.getD j 0 : ℂ)) i) i = M * ((conv a b).getD i 0 : ℂ) := by
    intro i hi
    rw [conv_thm hM, circ_conv hM a b hab hlen hi]
  rw [F_congr e] at h
  have e2 : F M (fun j => (M : ℂ) * ((conv a b).getD j 0 : ℂ)) k
      = M * F M (fun j => ((conv a b).getD j 0 : ℂ)) k := by
    unfold F; rw [mul_sum]; exact sum_congr rfl fun j _ => by ring
  rw [e2] at h
  exact mul_left_cancel₀ hMc h

theorem F_resize (M : ℕ) (a : List ℝ) (k : ℕ) :
    F M (fun j => ((resize M a).getD j 0 : ℂ)) k = F M (fun j => (a.getD j 0 : ℂ)) k :=
  F_congr (fun j hj => by rw [resize_getD, if_pos hj]) k

/-- The normalized inverse transform of the nonnegative frequencies of a real signal. -/
theorem inverse_of_bins {next : ℕ → ℕ} (hnext : ∀ n, n ≤ next n) {n : ℕ} {t : RealFft}
    (ht : RealFft.make next n true = some t) {X : List ℂ} (hX : X.length = n / 2 + 1) (z : ℕ → ℝ)
    (h : ∀ k ≤ n / 2, X.getD k 0 = F n (fun j => (z j : ℂ)) k) :
    t.inverse X = some ((List.range n).map z) := by
  have hn := make_pos ht
  have hc : (n : ℝ) ≠ 0 := by exact_mod_cast hn.ne'
  rw [make_inverse hnext ht hX]
  congr 1
  refine List.map_congr_left fun m hm => ?_
  have hm := List.mem_range.mp hm
  rw [G_congr (fun j hj => hermitian_F hn z h hj), G_F hn _ hm]
  rw [← Complex.ofReal_natCast, ← Complex.ofReal_mul, Complex.ofReal_re]
  simp only [if_true]
  field_simp

theorem convPow_length (x : List ℝ) (hx : 0 < x.length) (n : ℕ) :
    (convPow x n).length = (x.length - 1) * (n + 1) + 1 := by
  induction n with
  | zero => simp [convPow]; omega
  | succ n ih =>
    rw [convPow, conv_length, ih]
    obtain ⟨m, hm⟩ : ∃ m, x.length = m + 1 := ⟨x.length - 1, by omega⟩
    rw [hm]; simp only [Nat.add_sub_cancel]
    ring_nf; omega

theorem F_convPow {M : ℕ} (hM : 0 < M) (x : List ℝ) (hx : 0 < x.length) (n : ℕ)
    (hlen : (x.length - 1) * (n + 1) + 1 ≤ M) {k : ℕ} (hk : k < M) :
    F M (fun j => ((convPow x n).getD j 0 : ℂ)) k = F M (fun j => (x.getD j 0 : ℂ)) k ^ (n + 1) := by
  induction n with
  | zero => simp [convPow]
  | succ n ih =>
    have hl : (x.length - 1) * (n + 1) + 1 ≤ M :=
      le_trans (Nat.add_le_add_right (Nat.mul_le_mul_left _ (by omega)) 1) hlen
    have hl2 := convPow_length x hx (n + 1)
    rw [convPow, conv_length] at hl2
    rw [convPow, F_conv hM _ _ ⟨by rw [convPow_length x hx]; omega, hx⟩ (by omega) hk, ih hl,
      pow_succ _ (n + 1)]

/-! ### The explicit inverse transform -/

theorem reG {n : ℕ} (hn : 0 < n) (X : List ℂ) (m : ℕ) :
    (G n (fun j => (hermitian n X).getD j 0) m).re
      = ∑ k ∈ range (n / 2 + 1), mirrorCount n k * (X.getD k 0 * W n (m * k : ℤ)).re := by
  unfold G
  rw [show n = (n / 2 + 1) + (n - 1 - n / 2) by omega, sum_range_add,
    ← show n = (n / 2 + 1) + (n - 1 - n / 2) by omega, Complex.add_re, Complex.re_sum, Complex.re_sum]
  have h1 : ∀ k ∈ range (n / 2 + 1), ((hermitian n X).getD k 0 * W n (m * (k : ℕ) : ℤ)).re
      = (X.getD k 0 * W n (m * k : ℤ)).re := by
    intro k hk
    have hk := mem_range.mp hk
    by_cases h : k < n
    · rw [hermitian_getD _ h, if_pos (by omega)]
    · omega
  rw [sum_congr rfl h1]
  have h2 : ∑ j ∈ range (n - 1 - n / 2), ((hermitian n X).getD (n / 2 + 1 + j) 0 *
        W n (m * ((n / 2 + 1 + j : ℕ) : ℤ))).re
      = ∑ k ∈ range (n - 1 - n / 2), (X.getD (k + 1) 0 * W n (m * (k + 1 : ℕ) : ℤ)).re := by
    rw [← sum_range_reflect]
    refine sum_congr rfl fun j hj => ?_
    have hj := mem_range.mp hj
    rw [hermitian_getD _ (by omega), if_neg (by omega)]
    rw [← Complex.conj_re, map_mul, Complex.conj_conj, W_conj]
    rw [show n - (n / 2 + 1 + (n - 1 - n / 2 - 1 - j)) = j + 1 by omega]
    congr 2
    apply W_congr hn
    refine ⟨-m, ?_⟩
    have : ((n / 2 + 1 + (n - 1 - n / 2 - 1 - j) : ℕ) : ℤ) = n - ((j + 1 : ℕ) : ℤ) := by omega
    rw [this]; ring
  rw [h2]
  have h3 : ∀ k, mirrorCount n k * (X.getD k 0 * W n (m * k : ℤ)).re
      = (X.getD k 0 * W n (m * k : ℤ)).re
        + (if k = 0 ∨ 2 * k = n then 0 else (X.getD k 0 * W n (m * k : ℤ)).re) := by
    intro k
    unfold mirrorCount
    split_ifs <;> ring
  simp only [h3, sum_add_distrib]
  congr 1
  rw [sum_range_succ' (n := n / 2), if_pos (Or.inl rfl), add_zero]
  rw [← sum_subset (range_subset_range.mpr (show n - 1 - n / 2 ≤ n / 2 by omega))]
  · refine sum_congr rfl fun k hk => ?_
    have hk := mem_range.mp hk
    rw [if_neg (by omega)]
  · intro k hk hk2
    have hk := mem_range.mp hk
    rw [if_pos]
    right
    have : ¬ k < n - 1 - n / 2 := fun h => hk2 (mem_range.mpr h)
    omega

/-- The transform of the real part of an inverse transform. -/
theorem F_reG {n : ℕ} (hn : 0 < n) (Z : ℕ → ℂ) {k : ℕ} (hk : k < n) :
    F n (fun m => ((G n Z m).re : ℂ)) k = n * ((Z k + starRingEnd ℂ (Z (res n (-k)))) / 2) := by
  have h1 := F_G hn Z hk
  have h2 : F n (fun m => starRingEnd ℂ (G n Z m)) k = n * starRingEnd ℂ (Z (res n (-k))) := by
    unfold F G
    have : ∀ m : ℕ, starRingEnd ℂ (∑ j ∈ range n, Z j * W n (m * j : ℤ)) * W n (-(k * m : ℤ))
        = ∑ j ∈ range n, starRingEnd ℂ (Z j) * W n (m * (-(k : ℤ) - j)) := by
      intro m
      rw [map_sum, sum_mul]
      refine sum_congr rfl fun j _ => ?_
      rw [map_mul, W_conj, mul_assoc, ← W_add]; congr 2; ring
    simp only [this]
    rw [sum_comm]
    simp only [← mul_sum, sum_W hn]
    rw [sum_pick hn (-(k : ℤ)) (fun j => starRingEnd ℂ (Z j)), mul_comm]
  have h3 : F n (fun m => ((G n Z m).re : ℂ)) k
      = (F n (G n Z) k + F n (fun m => starRingEnd ℂ (G n Z m)) k) / 2 := by
    unfold F
    rw [← sum_add_distrib, sum_div]
    refine sum_congr rfl fun m _ => ?_
    dsimp only
    rw [Complex.re_eq_add_conj]; ring
  rw [h3, h1, h2]; ring

theorem bin_eq (x : List ℝ) (k : ℕ) : bin x k = F x.length (fun j => (x.getD j 0 : ℂ)) k := by
  unfold bin F
  refine sum_congr rfl fun j _ => ?_
  rw [W]; congr 2; push_cast; ring

theorem bin_map {n : ℕ} (z : ℕ → ℝ) (k : ℕ) :
    bin ((List.range n).map z) k = F n (fun j => (z j : ℂ)) k := by
  rw [bin_eq, List.length_map, List.length_range]
  exact F_congr (fun j hj => by rw [getD_range_map _ _ _ hj]) k

theorem bin_zero_im (x : List ℝ) : (bin x 0).im = 0 := by
  rw [bin, Complex.im_sum]
  exact sum_eq_zero fun j _ => by simp

theorem bin_nyquist_im (x : List ℝ) {k : ℕ} (hk : 2 * k = x.length) : (bin x k).im = 0 := by
  by_cases hn : x.length = 0
  · rw [bin, hn]; simp
  have h := F_real (n := x.length) (by omega) (fun j => x.getD j 0) (k := k) (k' := k)
    ⟨1, by push_cast; omega⟩
  rw [bin_eq]
  exact Complex.conj_eq_iff_im.mp h

end Verif.Fft
