import Verif.Proof.Dct

/-!
# C36: the DCT of the MFCC package
-/

namespace Verif.Mfcc
open Finset Verif.MfccSpec

/-- **C36.** `Initialize` accepts exactly `1 ≤ count ≤ length`, from every state. -/
theorem C36_accepts (d : Dct) (n k : ℤ) : (d.init n k).2 = true ↔ 1 ≤ k ∧ k ≤ n := by
  unfold Dct.init
  dsimp only
  split_ifs with h1 h2 h3
  · simp only [Bool.false_eq_true, false_iff]; omega
  · simp only [Bool.false_eq_true, false_iff]; omega
  · simp only [Bool.false_eq_true, false_iff]; omega
  · simp only [true_iff]; omega

/-- **C36.** After every successful `Initialize`, whatever happened before, `Compute` succeeds for every
input and returns the DCT of the input, zero-padded or truncated to the initialized length. -/
theorem C36_transform (d : Dct) (n k : ℕ) (h : (d.init n k).2 = true) (x out : List ℝ) :
    (d.init n k).1.compute x out = .ok ((List.range k).map fun i =>
      dct n (fun j => x.getD j 0) i) := by
  have hk := (C36_accepts d n k).1 h
  have hinit : (d.init n k).1 = {
      initialized := true
      count := k
      length := n
      cosines := (List.range k).map fun i : ℕ => (List.range n).map fun j : ℕ =>
        √(2 / (n : ℝ)) * Real.cos (i * (Real.pi / (n : ℝ)) * (j + 1 / 2)) } := by
    unfold Dct.init
    dsimp only
    rw [if_neg (by omega), if_neg (by omega), if_neg (by omega)]
    simp only [Int.toNat_natCast, Int.cast_natCast]
  rw [hinit]
  unfold Dct.compute
  dsimp only
  rw [if_neg (by simp), if_neg (by omega), Int.toNat_natCast]
  apply mapM_ok
  intro i hi
  rw [List.mem_range] at hi
  have hlen : (if (x.length : ℤ) > n then (n : ℤ) else x.length).toNat = min n x.length := by
    split_ifs <;> omega
  rw [hlen]
  have hterm : ∀ j < min n x.length, Dct.term {
      initialized := true
      count := k
      length := n
      cosines := (List.range k).map fun i : ℕ => (List.range n).map fun j : ℕ =>
        √(2 / (n : ℝ)) * Real.cos (i * (Real.pi / (n : ℝ)) * (j + 1 / 2)) } x i j =
      .ok (√(2 / (n : ℝ)) * Real.cos (Real.pi * i * (j + 1 / 2) / n) * x.getD j 0) := by
    intro j hj
    unfold Dct.term
    dsimp only
    rw [List.getElem?_map, List.getElem?_range hi]
    simp only [Option.map_some]
    rw [List.getElem?_map, List.getElem?_range (by omega), List.getElem?_eq_getElem (by omega)]
    simp only [Option.map_some]
    rw [List.getD_eq_getElem _ _ (by omega)]
    congr 4
    ring
  rw [foldlM_sum _ _ _ hterm, zero_add]
  congr 1
  unfold dct
  symm
  have hsub : range (min n x.length) ⊆ range n := by
    intro j hj; rw [mem_range] at *; omega
  rw [← sum_subset hsub]
  · intro j hj hj'
    rw [mem_range] at hj hj'
    dsimp only; rw [List.getD_eq_default _ _ (by omega), mul_zero]

/-- **C36.** The rows of the transform are orthogonal: rows of index at least 1 have norm 1, row 0 has
squared norm 2. -/
theorem C36_orthogonal (n : ℕ) (hn : 0 < n) (i k : ℕ) (hi : i < n) (hk : k < n) :
    ∑ j ∈ range n, dct n (fun l => if l = j then 1 else 0) i *
      dct n (fun l => if l = j then 1 else 0) k =
    if i = k then (if i = 0 then 2 else 1) else 0 := by
  rw [← dct_orthogonal n hn i k hi hk]
  apply sum_congr rfl
  intro j hj
  unfold dct
  simp [Finset.sum_ite_eq', mem_range.1 hj]

/-- **C36.** The full transform can be inverted: no information is lost when `count = length`. -/
theorem C36_inverse (n : ℕ) (hn : 0 < n) (x : ℕ → ℝ) (i : ℕ) (hi : i < n) :
    ∑ k ∈ range n, (if k = 0 then 1 / 2 else 1) *
      (√(2 / n) * Real.cos (Real.pi * k * (i + 1 / 2) / n)) * dct n x k = x i := by
  unfold dct
  simp only [mul_sum]
  rw [sum_comm]
  have : ∀ j ∈ range n, (∑ k ∈ range n, (if k = 0 then 1 / 2 else 1) *
      (√(2 / n) * Real.cos (Real.pi * k * (i + 1 / 2) / n)) *
      (√(2 / n) * Real.cos (Real.pi * k * (j + 1 / 2) / n) * x j)) =
      (if i = j then 1 else 0) * x j := by
    intro j hj
    rw [← dct_columns n hn i j hi (mem_range.1 hj), sum_mul]
    apply sum_congr rfl
    intro k _
    ring
  rw [sum_congr rfl this]
  simp [hi]

/-- **C36.** Energy is preserved up to the factor of coefficient 0. -/
theorem C36_parseval (n : ℕ) (hn : 0 < n) (x : ℕ → ℝ) :
    ∑ k ∈ range n, (if k = 0 then 1 / 2 else 1) * dct n x k ^ 2 = ∑ j ∈ range n, x j ^ 2 := by
  have : ∀ j ∈ range n, x j ^ 2 = ∑ k ∈ range n, (if k = 0 then 1 / 2 else 1) * dct n x k *
      (√(2 / n) * Real.cos (Real.pi * k * (j + 1 / 2) / n) * x j) := by
    intro j hj
    rw [sq]
    nth_rw 1 [← C36_inverse n hn x j (mem_range.1 hj)]
    rw [sum_mul]
    apply sum_congr rfl
    intro k _
    ring
  rw [sum_congr rfl this, sum_comm]
  apply sum_congr rfl
  intro k _
  rw [← mul_sum]
  have e : ∑ j ∈ range n, √(2 / n) * Real.cos (Real.pi * k * (j + 1 / 2) / n) * x j = dct n x k := rfl
  rw [e]
  ring

/-- **C36.** Before the first successful `Initialize`, `Compute` leaves the output alone. -/
theorem C36_uninitialized (d : Dct) (h : d.initialized = false) (x out : List ℝ) :
    d.compute x out = .ok out := by
  unfold Dct.compute; rw [if_pos h]

/-- A failed `Initialize` does not make an initialized object unusable: it overwrites the sizes but
keeps the old table, and `Compute` then reads outside the table. -/
theorem C36_failed_reinitialize_violation (d : Dct) :
    (d.init 2 2).2 = true ∧ ((d.init 2 2).1.init 2 3).2 = false ∧
    ((d.init 2 2).1.init 2 3).1.compute [1, 1] [] = .error .oob := by
  refine ⟨(C36_accepts _ _ _).2 (by norm_num), ?_, ?_⟩
  · rw [← Bool.not_eq_true, C36_accepts]; norm_num
  · have h : ((d.init 2 2).1.init 2 3).1 = { (d.init 2 2).1 with count := 3, length := 2 } := by
      rw [Dct.init]
      simp
    rw [h]
    unfold Dct.init
    simp only [show ¬ (2 : ℤ) < 1 by norm_num, show ¬ (2 : ℤ) > 2 by norm_num, if_false]
    unfold Dct.compute
    have hr : List.range 3 = [0, 1, 2] := rfl
    have hr2 : List.range 2 = [0, 1] := rfl
    simp [hr, hr2, Dct.term, bind, Except.bind, pure, Except.pure]

/-- A non-trivial case of the hypotheses. -/
example : ((⟨false, 0, 0, []⟩ : Dct).init (3 : ℕ) (2 : ℕ)).2 = true :=
  (C36_accepts _ _ _).2 (by norm_num)

end Verif.Mfcc
