import Verif.Proof.Spectrogram
import Verif.Proof.Dft

/-! The transform of the spectrogram and its inverse. -/

namespace Verif.Spectrogram

open Real Finset

theorem rdftCos_eq (n : ℕ) (a : List ℝ) (k : ℕ) :
    rdftCos n a k = ∑ j ∈ range n, a.getD j 0 * cos (2 * π * j * k / n) :=
  Dft.list_sum_range (fun j : ℕ => a.getD j 0 * cos (2 * π * j * k / n)) n

theorem rdftSin_eq (n : ℕ) (a : List ℝ) (k : ℕ) :
    rdftSin n a k = ∑ j ∈ range n, a.getD j 0 * sin (2 * π * j * k / n) :=
  Dft.list_sum_range (fun j : ℕ => a.getD j 0 * sin (2 * π * j * k / n)) n

theorem rdftSin_zero (n : ℕ) (a : List ℝ) : rdftSin n a 0 = 0 := by
  rw [rdftSin_eq]; simp

theorem rdftSin_half {h : ℕ} (hh : 0 < h) (a : List ℝ) : rdftSin (2 * h) a h = 0 := by
  rw [rdftSin_eq]
  apply sum_eq_zero
  intro j _
  have : 2 * π * (j : ℝ) * h / ((2 * h : ℕ) : ℝ) = j * π := by
    have : (h : ℝ) ≠ 0 := by positivity
    push_cast; field_simp
  rw [this, sin_nat_mul_pi, mul_zero]

/-- The slice in terms of the cosine and sine sums. -/
theorem slice_values {h : ℕ} (hh : 0 < h) (x : List ℝ) (i : ℕ) (hi : i ≤ h) :
    let r := rdftForward (2 * h) x
    let b := r.set 1 0 ++ [r.getD 1 0, 0]
    b.getD (2 * i) 0 = rdftCos (2 * h) x i ∧ b.getD (2 * i + 1) 0 = rdftSin (2 * h) x i := by
  intro r b
  have hlen : r.length = 2 * h := by simp [r, rdftForward]
  have hr : ∀ m, m < 2 * h → r.getD m 0 = if m = 1 then rdftCos (2 * h) x (2 * h / 2)
      else if m % 2 = 0 then rdftCos (2 * h) x (m / 2) else rdftSin (2 * h) x (m / 2) := by
    intro m hm
    simp only [r, rdftForward]
    rw [List.getD_eq_getElem?_getD, List.getElem?_map, List.getElem?_range hm]
    simp
  have hb1 : ∀ m, m < 2 * h → m ≠ 1 → b.getD m 0 = r.getD m 0 := by
    intro m hm h1
    simp only [b]
    rw [List.getD_eq_getElem?_getD, List.getElem?_append_left (by simp [hlen, hm]),
      List.getElem?_set_ne (by omega), ← List.getD_eq_getElem?_getD]
  have hb2 : b.getD 1 0 = 0 := by
    simp only [b]
    rw [List.getD_eq_getElem?_getD, List.getElem?_append_left (by simp [hlen]; omega),
      List.getElem?_set_self (by omega)]
    simp
  have hb3 : b.getD (2 * h) 0 = r.getD 1 0 := by
    simp only [b]
    rw [List.getD_eq_getElem?_getD, List.getElem?_append_right (by simp [hlen])]
    simp [hlen]
  have hb4 : b.getD (2 * h + 1) 0 = 0 := by
    simp only [b]
    rw [List.getD_eq_getElem?_getD, List.getElem?_append_right (by simp [hlen])]
    simp [hlen]
  rcases Nat.lt_or_ge i h with h1 | h1
  · constructor
    · rw [hb1 _ (by omega) (by omega), hr _ (by omega), if_neg (by omega), if_pos (by omega)]
      congr 1; omega
    · rcases Nat.eq_zero_or_pos i with h0 | h0
      · subst h0
        rw [show 2 * 0 + 1 = 1 from rfl, hb2, rdftSin_zero]
      · rw [hb1 _ (by omega) (by omega), hr _ (by omega), if_neg (by omega), if_neg (by omega)]
        congr 1; omega
  · have : i = h := by omega
    subst this
    constructor
    · rw [hb3, hr _ (by omega), if_pos rfl]
      congr 1; omega
    · rw [hb4, rdftSin_half hh]

/-- Inverse of the transform, up to the factor `n / 2`. -/
theorem rdft_inverse {h : ℕ} (hh : 0 < h) (x : List ℝ) (hx : x.length = 2 * h) (slice : List (ℝ × ℝ))
    (hs : ∀ i, i ≤ h → slice.getD i (0, 0) = (rdftCos (2 * h) x i, rdftSin (2 * h) x i)) :
    rdftInverse (2 * h) (Inv.pack (2 * h) slice) = x.map (· * (h : ℝ)) := by
  have hp : ∀ m, m < 2 * h → (Inv.pack (2 * h) slice).getD m 0
      = if m = 0 then rdftCos (2 * h) x 0 else if m = 1 then rdftCos (2 * h) x h
        else if m % 2 = 0 then rdftCos (2 * h) x (m / 2) else rdftSin (2 * h) x (m / 2) := by
    intro m hm
    unfold Inv.pack
    rw [List.getD_eq_getElem?_getD, List.getElem?_map, List.getElem?_range hm]
    simp only [Option.map_some, Option.getD_some]
    rw [hs 0 (by omega), show 2 * h / 2 = h by omega, hs h le_rfl, hs (m / 2) (by omega)]
  have hz : (h : ℝ) ≠ 0 := by positivity
  apply List.ext_getElem?
  intro k
  rcases Nat.lt_or_ge k (2 * h) with hk | hk
  · unfold rdftInverse
    rw [List.getElem?_map, List.getElem?_range hk, List.getElem?_map, List.getElem?_eq_getElem (by omega)]
    simp only [Option.map_some]
    congr 1
    rw [hp 0 (by omega), hp 1 (by omega), if_pos rfl, if_neg (by omega), if_pos rfl,
      show 2 * h / 2 - 1 = h - 1 by omega]
    have s1 := Dft.list_sum_range' (fun j : ℕ => (Inv.pack (2 * h) slice).getD (2 * j) 0 *
      cos (2 * π * j * k / ((2 * h : ℕ) : ℝ))) 1 (h - 1)
    have s2 := Dft.list_sum_range' (fun j : ℕ => (Inv.pack (2 * h) slice).getD (2 * j + 1) 0 *
      sin (2 * π * j * k / ((2 * h : ℕ) : ℝ))) 1 (h - 1)
    rw [s1, s2, add_assoc, ← sum_add_distrib]
    have e1 : ∀ j ∈ range (h - 1), (Inv.pack (2 * h) slice).getD (2 * (1 + j)) 0 *
        cos (2 * π * ((1 + j : ℕ) : ℝ) * k / ((2 * h : ℕ) : ℝ)) +
        (Inv.pack (2 * h) slice).getD (2 * (1 + j) + 1) 0 *
        sin (2 * π * ((1 + j : ℕ) : ℝ) * k / ((2 * h : ℕ) : ℝ)) =
        ∑ m ∈ range (2 * h), x.getD m 0 *
          cos (2 * π * ((1 + j : ℕ) : ℝ) * ((m : ℤ) - (k : ℤ) : ℤ) / ((2 * h : ℕ) : ℝ)) := by
      intro j hj
      rw [mem_range] at hj
      rw [hp _ (by omega), hp _ (by omega), if_neg (by omega), if_neg (by omega), if_pos (by omega),
        if_neg (by omega), if_neg (by omega), if_neg (by omega), show 2 * (1 + j) / 2 = 1 + j by omega,
        show (2 * (1 + j) + 1) / 2 = 1 + j by omega, rdftCos_eq, rdftSin_eq, sum_mul, sum_mul,
        ← sum_add_distrib]
      apply sum_congr rfl
      intro m _
      have : 2 * π * ((1 + j : ℕ) : ℝ) * (((m : ℤ) - (k : ℤ) : ℤ) : ℝ) / ((2 * h : ℕ) : ℝ)
          = 2 * π * (m : ℝ) * ((1 + j : ℕ) : ℝ) / ((2 * h : ℕ) : ℝ)
            - 2 * π * ((1 + j : ℕ) : ℝ) * (k : ℝ) / ((2 * h : ℕ) : ℝ) := by
        push_cast; ring
      rw [this, cos_sub]; ring
    rw [sum_congr rfl e1, sum_comm]
    have e2 : (rdftCos (2 * h) x 0 + rdftCos (2 * h) x h * cos (π * k)) / 2
        = ∑ m ∈ range (2 * h), x.getD m 0 * ((1 + cos (π * ((m : ℤ) - (k : ℤ) : ℤ))) / 2) := by
      rw [rdftCos_eq, rdftCos_eq, sum_mul, ← sum_add_distrib, sum_div]
      apply sum_congr rfl
      intro m _
      have a1 : 2 * π * (m : ℝ) * h / ((2 * h : ℕ) : ℝ) = m * π := by push_cast; field_simp
      have a2 : π * (((m : ℤ) - (k : ℤ) : ℤ) : ℝ) = m * π - π * k := by push_cast; ring
      rw [a1, a2, cos_sub, sin_nat_mul_pi]
      simp; ring
    rw [e2, ← sum_add_distrib]
    have e3 : ∀ m ∈ range (2 * h), x.getD m 0 * ((1 + cos (π * ((m : ℤ) - (k : ℤ) : ℤ))) / 2) +
        ∑ j ∈ range (h - 1), x.getD m 0 *
          cos (2 * π * ((1 + j : ℕ) : ℝ) * ((m : ℤ) - (k : ℤ) : ℤ) / ((2 * h : ℕ) : ℝ))
        = x.getD m 0 * if m = k then (h : ℝ) else 0 := by
      intro m hm
      rw [mem_range] at hm
      rw [← mul_sum, ← mul_add, Dft.half_sum_cos hh]
      congr 1
      by_cases hmk : m = k
      · subst hmk; simp
      · rw [if_neg hmk, if_neg]
        intro hd
        have := Int.eq_zero_of_abs_lt_dvd hd (by rw [abs_lt]; omega)
        omega
    rw [sum_congr rfl e3]
    simp only [mul_ite, mul_zero]
    rw [sum_ite_eq' (range (2 * h)) k, if_pos (mem_range.2 hk), List.getD_eq_getElem?_getD,
      List.getElem?_eq_getElem (by omega)]
    rfl
  · rw [List.getElem?_eq_none (by simp [rdftInverse]; omega), List.getElem?_eq_none (by simp; omega)]

end Verif.Spectrogram
