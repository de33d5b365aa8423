import Verif.Model.ThreeTapSmoother
import Verif.Model.Float32
import Mathlib.Data.List.GetD
import Mathlib.Algebra.BigOperators.Intervals
import Mathlib.Algebra.BigOperators.Ring.Finset
import Mathlib.Algebra.Order.BigOperators.Group.Finset
import Mathlib.Tactic.Linarith
import Mathlib.Tactic.NormNum
import Mathlib.Tactic.IntervalCases

/-!
# C38: three-tap smoothing
-/

namespace Verif.ThreeTap
open Finset

variable {K : Type} [Field K] [LinearOrder K]

/-- The signal extended beyond its ends by at most one sample, as documented for the three modes:
periodic, reflected about the end points, zero. -/
def extended (b : Boundary) (x : List K) (i : ℤ) : K :=
  match b with
  | .circular => x.getD (i % x.length).toNat 0
  | .reflect => x.getD (if i < 0 then -i else if i < x.length then i else 2 * x.length - 2 - i).toNat 0
  | .zeroPad => if 0 ≤ i ∧ i < x.length then x.getD i.toNat 0 else 0

theorem temp_get (b : Boundary) (x : List K) (hl : 2 ≤ x.length) (i : ℕ) (hi : i < x.length) :
    ((endpoints b x).1 :: (List.zipWith (· + ·) (x.take (x.length - 2)) ((x.drop 2).take (x.length - 2)) ++
      [(endpoints b x).2]))[i]? = some (extended b x (i - 1) + extended b x (i + 1)) := by
  have hlen : (List.zipWith (· + ·) (x.take (x.length - 2)) ((x.drop 2).take (x.length - 2))).length =
      x.length - 2 := by
    simp
  have inner : ∀ j : ℤ, 0 ≤ j → j < x.length → extended b x j = x.getD j.toNat 0 := by
    intro j h0 h1
    cases b
    · simp only [extended]; rw [Int.emod_eq_of_lt h0 h1]
    · simp only [extended]; rw [if_neg (by omega), if_pos h1]
    · simp only [extended]; rw [if_pos ⟨h0, h1⟩]
  cases i with
  | zero =>
    rw [List.getElem?_cons_zero]
    congr 1
    have h1 : extended b x ((0 : ℕ) + 1) = x.getD 1 0 := by rw [inner _ (by omega) (by omega)]; rfl
    rw [h1]
    cases b
    · simp only [endpoints, extended]
      congr 2
      have : ((0 : ℕ) - 1 : ℤ) % x.length = x.length - 1 := by
        rw [Int.emod_eq_iff (by omega)]
        refine ⟨by omega, by omega, ⟨1, by push_cast; ring⟩⟩
      rw [this]; omega
    · simp only [endpoints, extended]
      rw [if_pos (by omega)]
      rfl
    · simp only [endpoints, extended]
      rw [if_neg (by omega), zero_add]
  | succ i =>
    rw [List.getElem?_cons_succ]
    by_cases hlast : i = x.length - 2
    · subst hlast
      rw [List.getElem?_append_right (by omega), hlen, Nat.sub_self, List.getElem?_cons_zero]
      congr 1
      have h1 : extended b x ((x.length - 2 + 1 : ℕ) - 1) = x.getD (x.length - 2) 0 := by
        rw [inner _ (by omega) (by omega)]
        congr 1
        omega
      rw [h1]
      cases b
      · simp only [endpoints, extended]
        congr 2
        have : ((x.length - 2 + 1 : ℕ) + 1 : ℤ) = x.length := by omega
        rw [this, Int.emod_self]
        rfl
      · simp only [endpoints, extended]
        rw [if_neg (by omega), if_neg (by omega)]
        congr 2
        omega
      · simp only [endpoints, extended]
        rw [if_neg (by omega), add_zero]
    · rw [List.getElem?_append_left (by omega), List.getElem?_zipWith, List.getElem?_take,
        List.getElem?_take, List.getElem?_drop, if_pos (by omega), if_pos (by omega),
        List.getElem?_eq_getElem (by omega), List.getElem?_eq_getElem (by omega)]
      simp only
      rw [inner _ (by omega) (by omega), inner _ (by omega) (by omega)]
      rw [show ((i + 1 : ℕ) - 1 : ℤ).toNat = i by omega, show ((i + 1 : ℕ) + 1 : ℤ).toNat = 2 + i by omega,
        List.getD_eq_getElem _ _ (by omega), List.getD_eq_getElem _ _ (by omega)]

/-- **C38.** A smoother exists for every size above one. -/
theorem C38_make (n : ℤ) : (make n = some n ↔ 1 < n) ∧ (make n = none ↔ n ≤ 1) := by
  unfold make
  split_ifs with h
  · simp; omega
  · simp; omega

/-- **C38.** Arrays of another size, and coefficients outside of `(0, 1/3]`, are rejected. -/
theorem C38_rejects (n : ℤ) (b : Boundary) (s : K) (x : List K)
    (h : ¬ ((x.length : ℤ) = n ∧ 0 < s ∧ s ≤ oneThird)) : smooth n b s x = none := by
  unfold smooth
  by_cases h1 : (x.length : ℤ) = n
  · rw [if_neg (not_not.2 h1)]
    by_cases h2 : s > 0
    · rw [if_neg (not_not.2 h2), if_pos (by tauto)]
    · rw [if_pos h2]
  · rw [if_pos h1]

/-- **C38.** In all three boundary modes the result has the size of the input, and is the convolution of
the extended signal with the impulse response `[s, 1 - 2s, s]` centred at the output. -/
theorem C38_convolution (n : ℤ) (b : Boundary) (s : K) (x : List K) (hn : make n = some n)
    (hx : (x.length : ℤ) = n) (hs : 0 < s) (hs' : s ≤ oneThird) :
    ∃ y, smooth n b s x = some y ∧ y.length = x.length ∧ ∀ i : ℕ, i < x.length →
      y.getD i 0 = s * extended b x (i - 1) + (1 - 2 * s) * extended b x i + s * extended b x (i + 1) := by
  have hl : 2 ≤ x.length := by have := (C38_make n).1.1 hn; omega
  unfold smooth
  rw [if_neg (not_not.2 hx), if_neg (not_not.2 hs), if_neg (not_not.2 hs')]
  dsimp only
  refine ⟨_, rfl, ?_, ?_⟩
  · simp; omega
  · intro i hi
    rw [List.getD_eq_getElem?_getD, List.getElem?_zipWith, temp_get b x hl i hi,
      List.getElem?_eq_getElem hi]
    simp only [Option.getD_some]
    have : extended b x i = x[i] := by
      cases b
      · simp only [extended]; rw [Int.emod_eq_of_lt (by omega) (by omega), Int.toNat_natCast,
          List.getD_eq_getElem _ _ hi]
      · simp only [extended]; rw [if_neg (by omega), if_pos (by omega), Int.toNat_natCast,
          List.getD_eq_getElem _ _ hi]
      · simp only [extended]; rw [if_pos (by omega), Int.toNat_natCast, List.getD_eq_getElem _ _ hi]
    rw [this]
    ring

example : smooth 3 .circular (1 / 4) [4, 8, (0 : ℚ)] = some [4, 5, 3] ∧
    smooth 3 .reflect (1 / 4) [4, 8, (0 : ℚ)] = some [6, 5, 4] ∧
    smooth 3 .zeroPad (1 / 4) [4, 8, (0 : ℚ)] = some [4, 5, 2] := by decide +kernel

theorem extended_mem (b : Boundary) (hb : b ≠ .zeroPad) (x : List K) (hl : 2 ≤ x.length) (i : ℤ)
    (h0 : -1 ≤ i) (h1 : i ≤ x.length) : extended b x i ∈ x := by
  have key : ∀ j : ℕ, j < x.length → x.getD j 0 ∈ x := fun j hj => by
    rw [List.getD_eq_getElem _ _ hj]; exact List.getElem_mem hj
  cases b
  · have := Int.emod_nonneg i (show (x.length : ℤ) ≠ 0 by omega)
    have := Int.emod_lt_of_pos i (show (0 : ℤ) < x.length by omega)
    exact key _ (by omega)
  · apply key
    split_ifs <;> omega
  · exact absurd rfl hb

/-- **C38.** Constants are preserved by the circular and the symmetric mode. -/
theorem C38_constant (n : ℕ) (b : Boundary) (hb : b ≠ .zeroPad) (s v : K) (hn : 2 ≤ n)
    (hs : 0 < s) (hs' : s ≤ oneThird) :
    smooth n b s (List.replicate n v) = some (List.replicate n v) := by
  obtain ⟨y, h1, h2, h3⟩ := C38_convolution n b s (List.replicate n v) ((C38_make n).1.2 (by omega))
    (by simp) hs hs'
  rw [h1]
  congr 1
  apply List.ext_getElem (by simpa using h2)
  intro i hi hi'
  have h4 := h3 i (by simpa using hi')
  rw [List.getD_eq_getElem _ _ hi] at h4
  simp only [List.length_replicate] at hi'
  have e : ∀ j : ℤ, -1 ≤ j → j ≤ n → extended b (List.replicate n v) j = v := fun j h0 h1 =>
    List.eq_of_mem_replicate (extended_mem b hb _ (by simpa using hn) j h0 (by simpa using h1))
  rw [h4, e _ (by omega) (by omega), e _ (by omega) (by omega), e _ (by omega) (by omega),
    List.getElem_replicate]
  ring

/-- **C38.** The circular mode preserves the sum. -/
theorem C38_circular_sum (n : ℕ) (s : K) (x y : List K) (hn : 2 ≤ n)
    (h : smooth n .circular s x = some y) : y.sum = x.sum := by
  by_cases hc : (x.length : ℤ) = n ∧ 0 < s ∧ s ≤ oneThird
  swap
  · rw [C38_rejects _ _ _ _ hc] at h; cases h
  obtain ⟨hx, hs, hs'⟩ := hc
  obtain ⟨y', h1, h2, h3⟩ := C38_convolution n .circular s x ((C38_make n).1.2 (by omega)) hx hs hs'
  rw [h] at h1
  obtain rfl := Option.some.inj h1
  have hx' : x.length = n := by omega
  have sum_getD : ∀ l : List K, l.sum = ∑ i ∈ range l.length, l.getD i 0 := by
    intro l
    induction l with
    | nil => simp
    | cons a l ih => rw [List.sum_cons, List.length_cons, sum_range_succ', ih, add_comm]; simp
  rw [sum_getD y, h2, sum_getD x]
  have hE : ∀ j : ℕ, j < n → extended .circular x j = x.getD j 0 := by
    intro j hj
    simp only [extended]
    rw [Int.emod_eq_of_lt (by omega) (by omega), Int.toNat_natCast]
  obtain ⟨m, rfl⟩ : ∃ m, n = m + 2 := ⟨n - 2, by omega⟩
  rw [hx'] at h3 ⊢
  rw [sum_congr rfl fun i hi => h3 i (mem_range.1 hi), sum_add_distrib, sum_add_distrib, ← mul_sum, ← mul_sum,
    ← mul_sum]
  have up : ∑ i ∈ range (m + 2), extended .circular x ((i : ℤ) + 1) = ∑ i ∈ range (m + 2), x.getD i 0 := by
    rw [sum_range_succ, sum_range_succ' (fun i => x.getD i 0)]
    congr 1
    · apply sum_congr rfl
      intro i hi
      rw [mem_range] at hi
      have := hE (i + 1) (by omega)
      push_cast at this
      exact this
    · simp only [extended]
      have : (((m + 1 : ℕ) : ℤ) + 1) % (x.length : ℤ) = 0 := by
        rw [hx']; push_cast
        have : (m : ℤ) + 1 + 1 = m + 2 := by ring
        rw [this, Int.emod_self]
      rw [this]; rfl
  have down : ∑ i ∈ range (m + 2), extended .circular x ((i : ℤ) - 1) = ∑ i ∈ range (m + 2), x.getD i 0 := by
    rw [sum_range_succ', sum_range_succ (fun i => x.getD i 0)]
    congr 1
    · apply sum_congr rfl
      intro i hi
      rw [mem_range] at hi
      have := hE i (by omega)
      push_cast
      rw [add_sub_cancel_right]
      exact this
    · simp only [extended]
      have : (((0 : ℕ) : ℤ) - 1) % (x.length : ℤ) = x.length - 1 := by
        rw [Int.emod_eq_iff (by omega)]
        refine ⟨by omega, by omega, ⟨1, by push_cast; ring⟩⟩
      rw [this, hx']
      congr 1
      omega
  have mid : ∑ i ∈ range (m + 2), extended .circular x (i : ℤ) = ∑ i ∈ range (m + 2), x.getD i 0 :=
    sum_congr rfl fun i hi => hE i (mem_range.1 hi)
  rw [up, down, mid]
  ring

/-- **C38.** The circular and the symmetric mode stay within the range of the signal, zero padding within
the range of the signal and zero. -/
theorem C38_range [IsStrictOrderedRing K] (n : ℕ) (b : Boundary) (s : K) (x y : List K) (hn : 2 ≤ n)
    (h : smooth n b s x = some y) (lo hi : K) (hx : ∀ v ∈ x, lo ≤ v ∧ v ≤ hi)
    (hb : b = .zeroPad → lo ≤ 0 ∧ 0 ≤ hi) : ∀ v ∈ y, lo ≤ v ∧ v ≤ hi := by
  by_cases hc : (x.length : ℤ) = n ∧ 0 < s ∧ s ≤ oneThird
  swap
  · rw [C38_rejects _ _ _ _ hc] at h; cases h
  obtain ⟨hl, hs, hs'⟩ := hc
  obtain ⟨y', h1, h2, h3⟩ := C38_convolution n b s x ((C38_make n).1.2 (by omega)) hl hs hs'
  rw [h] at h1
  obtain rfl := Option.some.inj h1
  have hE : ∀ j : ℤ, -1 ≤ j → j ≤ x.length → lo ≤ extended b x j ∧ extended b x j ≤ hi := by
    intro j h0 h1
    by_cases hz : b = .zeroPad
    · subst hz
      simp only [extended]
      split_ifs with hj
      · rw [List.getD_eq_getElem _ _ (by omega)]
        exact hx _ (List.getElem_mem _)
      · exact hb rfl
    · exact hx _ (extended_mem b hz x (by omega) j h0 h1)
  have h12 : 0 ≤ 1 - 2 * s := by
    have : (oneThird : K) ≤ 1 / 2 := by
      unfold oneThird
      norm_num
    linarith
  intro v hv
  obtain ⟨i, hi, rfl⟩ := List.getElem_of_mem hv
  have h4 := h3 i (by omega)
  rw [List.getD_eq_getElem _ _ hi] at h4
  rw [h4]
  obtain ⟨a1, a2⟩ := hE (i - 1) (by omega) (by omega)
  obtain ⟨b1, b2⟩ := hE i (by omega) (by omega)
  obtain ⟨c1, c2⟩ := hE (i + 1) (by omega) (by omega)
  constructor
  · nlinarith [mul_nonneg hs.le (sub_nonneg.2 a1), mul_nonneg h12 (sub_nonneg.2 b1),
      mul_nonneg hs.le (sub_nonneg.2 c1)]
  · nlinarith [mul_nonneg hs.le (sub_nonneg.2 a2), mul_nonneg h12 (sub_nonneg.2 b2),
      mul_nonneg hs.le (sub_nonneg.2 c2)]

/-- **C38 (violation).** The documented range of coefficients includes ⅓, but the float nearest to ⅓ is
larger than the double `1 / 3.0` it is compared with, and is rejected. -/
theorem C38_one_third_violation (n : ℤ) (b : Boundary) (x : List ℚ) :
    smooth n b (Float32.f32 (1 / 3)) x = none := by
  apply C38_rejects
  rintro ⟨-, -, h⟩
  revert h
  decide +kernel

/-- **C38 (violation).** The documented example of zero padding, `[1, 2, 3]` to `[1.1, 2.2, 2.9]`, is the
result for no coefficient. -/
theorem C38_example_violation (s : ℚ) : smooth 3 .zeroPad s [1, 2, 3] ≠ some [1.1, 2.2, 2.9] := by
  intro h
  by_cases hc : (([1, 2, 3] : List ℚ).length : ℤ) = 3 ∧ 0 < s ∧ s ≤ oneThird
  swap
  · rw [C38_rejects _ _ _ _ hc] at h; cases h
  obtain ⟨y, h1, -, h3⟩ := C38_convolution 3 .zeroPad s [1, 2, 3] (by decide) hc.1 hc.2.1 hc.2.2
  rw [h] at h1
  obtain rfl := Option.some.inj h1
  have := h3 0 (by simp)
  norm_num [extended] at this
  linarith

end Verif.ThreeTap
