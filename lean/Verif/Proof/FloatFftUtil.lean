import Verif.Model.FloatFftUtil
import Verif.Proof.FloatQuadratic
import Verif.Theorems.FftUtil

/-! # Lemmas for `Verif.Theorems.FloatFftUtil` -/

namespace Verif.FloatFftUtil
open Verif.Rounding
open Verif.Fft
open Verif.FloatQuadratic (nat_exact int_exact r32)

theorem mono {a b : ℝ} (h : a ≤ b) : binary32 a ≤ binary32 b := binary32_regular.mono h

/-- The result, bin by bin. -/
theorem result (input : List ℂ) (low high w : ℝ) (hne : input ≠ []) (hw : 0 < w) (hlow : 0 ≤ low) (hlh : low ≤ high)
    (hhigh : high ≤ binary32 (w * binary32 input.length)) (hlen : input.length ≤ 2 ^ 24) (out : Option (List ℂ)) :
    hardBandpassSpectrum binary32 input low high w out
      = some ((List.range input.length).map fun k : ℕ =>
          if binary32 (low / w) ≤ k ∧ (k : ℝ) ≤ binary32 (high / w) then input.getD k 0 else 0) := by
  unfold hardBandpassSpectrum
  rw [if_neg hne, if_neg (by simpa using hlow), if_neg (by simpa using hlh), if_neg (by simpa using hhigh), if_neg hw.not_ge]
  dsimp only
  congr 1
  have z : binary32 0 = 0 := binary32_regular.zero
  have q1 : 0 ≤ binary32 (low / w) := by have := mono (show 0 ≤ low / w by positivity); rwa [z] at this
  have h0 : 0 ≤ high := hlow.trans hlh
  have q2 : 0 ≤ binary32 (high / w) := by have := mono (show 0 ≤ high / w by positivity); rwa [z] at this
  have hc : (0 : ℤ) ≤ ⌈binary32 (low / w)⌉ := Int.ceil_nonneg q1
  have hf : (0 : ℤ) ≤ ⌊binary32 (high / w)⌋ := Int.floor_nonneg.mpr q2
  have key : ∀ k : ℕ, (binary32 (low / w) ≤ k ∧ (k : ℝ) ≤ binary32 (high / w)) ↔
      (⌈binary32 (low / w)⌉ ≤ k ∧ (k : ℤ) ≤ ⌊binary32 (high / w)⌋) := by
    intro k
    rw [Int.ceil_le, Int.le_floor]
    push_cast; rfl
  -- the float addition is exact, or both sides are beyond the end
  have stop : ∀ k : ℕ, k < input.length → ((k : ℤ) < ⌊binary32 (1 + (⌊binary32 (high / w)⌋ : ℝ))⌋ ↔
      (k : ℤ) ≤ ⌊binary32 (high / w)⌋) := by
    intro k hk
    generalize ⌊binary32 (high / w)⌋ = f at *
    rcases le_or_gt (1 + f) (2 ^ 24) with h | h
    · have e := int_exact (n := 1 + f) (by rw [abs_of_nonneg (by omega)]; exact h)
      push_cast at e
      rw [e, show (1 : ℝ) + f = ((1 + f : ℤ) : ℝ) by push_cast; rfl, Int.floor_intCast]
      omega
    · have e := int_exact (n := 2 ^ 24) (by norm_num)
      have h1 : ((2 ^ 24 : ℤ) : ℝ) ≤ 1 + (f : ℝ) := by exact_mod_cast h.le
      have h2 := mono h1
      rw [e] at h2
      have h3 : (2 ^ 24 : ℤ) ≤ ⌊binary32 (1 + (f : ℝ))⌋ := Int.le_floor.2 h2
      omega
  have stop0 : 0 ≤ ⌊binary32 (1 + (⌊binary32 (high / w)⌋ : ℝ))⌋ := by
    refine Int.floor_nonneg.mpr ?_
    have hf' : (0 : ℝ) ≤ ⌊binary32 (high / w)⌋ := by exact_mod_cast hf
    have := mono (show (0 : ℝ) ≤ 1 + (⌊binary32 (high / w)⌋ : ℝ) by linarith)
    rwa [z] at this
  apply list_ext_getD 0
  · cases out <;> simp [fillZero, copyRange, resize_length]
  intro k hk0
  have hk : k < input.length := by
    cases out <;> simpa [fillZero, copyRange, resize_length] using hk0
  rw [getD_range_map _ _ _ hk]
  simp only [key]
  have st := stop k hk
  generalize ⌊binary32 (1 + (⌊binary32 (high / w)⌋ : ℝ))⌋ = T at *
  generalize ⌈binary32 (low / w)⌉ = A at *
  generalize ⌊binary32 (high / w)⌋ = F at *
  cases out with
  | none =>
    dsimp only
    rw [fillZero_getD _ _ _ (by rw [fillZero_length]; exact hk), fillZero_getD _ _ _ hk, fillZero_length]
    split_ifs <;> first | rfl | (exfalso; omega)
  | some o =>
    dsimp only
    rw [fillZero_getD _ _ _ (by rw [copyRange_length, fillZero_length, resize_length]; exact hk),
      copyRange_getD _ _ _ _ (by rw [fillZero_length, resize_length]; exact hk),
      fillZero_getD _ _ _ (by rw [resize_length]; exact hk), copyRange_length, fillZero_length, resize_length]
    split_ifs <;> first | rfl | (exfalso; omega)

/-- A rounded quotient against an index. -/
theorem quotient {x w : ℝ} (hx : 0 ≤ x) (hw : 0 < w) {k : ℕ} (hk : k ≤ 2 ^ 24) :
    (x ≤ k * w → binary32 (x / w) ≤ k) ∧ (k * w ≤ x → (k : ℝ) ≤ binary32 (x / w)) ∧
      (x * (1 + 1 / 2 ^ 23) < k * w → binary32 (x / w) < k) ∧
      (k * w + 1 / 2 ^ 148 * w < x * (1 - 1 / 2 ^ 23) → (k : ℝ) < binary32 (x / w)) := by
  have e := nat_exact hk
  obtain ⟨q, hq⟩ : ∃ q, q = x / w := ⟨_, rfl⟩
  have hxq : x = q * w := by rw [hq]; field_simp
  have q0 : 0 ≤ q := by rw [hq]; positivity
  have k0 : (0 : ℝ) ≤ k := by positivity
  rw [← hq]
  obtain ⟨a1, a2⟩ := abs_le.1 (binary32_accurate q)
  rw [abs_of_nonneg q0] at a1 a2
  refine ⟨fun h => ?_, fun h => ?_, fun h => ?_, fun h => ?_⟩
  · rw [hxq] at h
    have := mono (le_of_mul_le_mul_right h hw)
    rwa [e] at this
  · rw [hxq] at h
    have := mono (le_of_mul_le_mul_right h hw)
    rwa [e] at this
  · rw [hxq] at h
    have h1 : q * (1 + 1 / 2 ^ 23) < k := by
      refine lt_of_mul_lt_mul_right ?_ hw.le
      linarith
    have k1 : (1 : ℝ) ≤ k := by
      have : (0 : ℝ) < k := by nlinarith
      have : 0 < k := by exact_mod_cast this
      exact_mod_cast this
    have tiny : (1 : ℝ) / 2 ^ 150 ≤ 1 / 2 ^ 40 := by norm_num
    generalize (1 : ℝ) / 2 ^ 150 = η at *
    linarith
  · rw [hxq] at h
    have h1 : k + 1 / 2 ^ 148 < q * (1 - 1 / 2 ^ 23) := by
      refine lt_of_mul_lt_mul_right ?_ hw.le
      linarith
    have e148 : (1 : ℝ) / 2 ^ 148 = 4 * (1 / 2 ^ 150) := by norm_num
    have η0 : (0 : ℝ) < 1 / 2 ^ 150 := by positivity
    rw [e148] at h1
    generalize (1 : ℝ) / 2 ^ 150 = η at *
    linarith

end Verif.FloatFftUtil
