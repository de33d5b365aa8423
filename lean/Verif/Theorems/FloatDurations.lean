import Verif.Model.FloatDurations
import Verif.Proof.FloatQuadratic

/-!
# C127: a duration given in seconds becomes the intended number of samples
-/

namespace Verif.FloatDurations
open Verif.Rounding
open Verif.FloatQuadratic (nat_exact int_exact r32)

theorem product {t rate k : ℝ} (k0 : 0 ≤ k) (k2 : k ≤ 2 ^ 21) (hr : 0 < rate) (hr2 : rate ≤ 2 ^ 100)
    (ht : t = binary32 (k / rate)) : |t * rate - k| ≤ 1 / 2 ^ 24 * k + 1 / 2 ^ 50 := by
  have q0 : 0 ≤ k / rate := by positivity
  have A := binary32_accurate (k / rate)
  rw [abs_of_nonneg q0, ← ht] at A
  have e : t * rate - k = (t - k / rate) * rate := by field_simp
  rw [e, abs_mul, abs_of_pos hr]
  have h1 := mul_le_mul_of_nonneg_right A hr.le
  have h2 : (1 / 2 ^ 24 * (k / rate) + 1 / 2 ^ 150) * rate = 1 / 2 ^ 24 * k + 1 / 2 ^ 150 * rate := by field_simp
  have h3 : (1 : ℝ) / 2 ^ 150 * rate ≤ 1 / 2 ^ 150 * 2 ^ 100 := mul_le_mul_of_nonneg_left hr2 (by positivity)
  have h4 : (1 : ℝ) / 2 ^ 150 * 2 ^ 100 = 1 / 2 ^ 50 := by norm_num
  linarith

/-- The look-ahead of the dynamic range control and of the loudness compressor: the float nearest to `k / rate` seconds gives `k`
samples, for up to 2^21 samples and every sample rate. -/
theorem C127_lookahead (k : ℕ) (hk : k ≤ 2 ^ 21) (rate : ℝ) (hr : 0 < rate) (hr2 : rate ≤ 2 ^ 100) :
    lookaheadSamples binary32 (binary32 (k / rate)) rate = k := by
  have k0 : (0 : ℝ) ≤ k := by positivity
  have k2 : (k : ℝ) ≤ 2 ^ 21 := by exact_mod_cast hk
  obtain ⟨a1, a2⟩ := abs_le.1 (product k0 k2 hr hr2 rfl)
  unfold lookaheadSamples
  generalize binary32 (k / rate) * rate = p at *
  obtain ⟨b1, b2⟩ := abs_le.1 (r32 (x := p) (B := 2 ^ 21 + 1) (by rw [abs_le]; constructor <;> linarith))
  have tiny : (1 : ℝ) / 2 ^ 150 ≤ 1 / 2 ^ 50 := by norm_num
  generalize (1 : ℝ) / 2 ^ 150 = η at *
  rw [Int.floor_eq_iff]
  push_cast
  constructor <;> linarith

/-- The warm-up of the automatic gain control, likewise; with or without contraction of the product and the sum. -/
theorem C127_warm_up (k : ℕ) (hk : k ≤ 2 ^ 21) (rate : ℝ) (hr : 0 < rate) (hr2 : rate ≤ 2 ^ 100) (n : ℤ)
    (h : IsWarmUpSamples binary32 rate (binary32 (k / rate)) n) : n = k := by
  have k0 : (0 : ℝ) ≤ k := by positivity
  have k2 : (k : ℝ) ≤ 2 ^ 21 := by exact_mod_cast hk
  obtain ⟨a1, a2⟩ := abs_le.1 (product k0 k2 hr hr2 rfl)
  obtain ⟨y, hy, rfl⟩ := h
  rw [mul_comm (binary32 (k / rate)) rate] at a1 a2
  have tiny : (1 : ℝ) / 2 ^ 150 ≤ 1 / 2 ^ 50 := by norm_num
  rw [Int.floor_eq_iff]
  push_cast
  rcases hy with hy | hy
  · rw [hy]
    generalize rate * binary32 (k / rate) = p at *
    obtain ⟨b1, b2⟩ := abs_le.1 (r32 (x := p) (B := 2 ^ 21 + 1) (by rw [abs_le]; constructor <;> linarith))
    generalize binary32 p = p' at *
    obtain ⟨c1, c2⟩ := abs_le.1 (r32 (x := p' + 1 / 2) (B := 2 ^ 21 + 2) (by
      generalize (1 : ℝ) / 2 ^ 150 = η at *
      rw [abs_le]; constructor <;> linarith))
    generalize (1 : ℝ) / 2 ^ 150 = η at *
    constructor <;> linarith
  · rw [hy]
    generalize rate * binary32 (k / rate) = p at *
    obtain ⟨c1, c2⟩ := abs_le.1 (r32 (x := p + 1 / 2) (B := 2 ^ 21 + 2) (by rw [abs_le]; constructor <;> linarith))
    generalize (1 : ℝ) / 2 ^ 150 = η at *
    constructor <;> linarith

/-- For every duration the number of samples is within 1/2 of the product, and one rounding of it. -/
theorem C127_lookahead_error (t rate : ℝ) (ht : 0 ≤ t) (hr : 0 ≤ rate) :
    |(lookaheadSamples binary32 t rate : ℝ) - t * rate| ≤ 1 / 2 + (1 / 2 ^ 24 * (t * rate) + 1 / 2 ^ 150) := by
  have A := binary32_accurate (t * rate)
  rw [abs_of_nonneg (mul_nonneg ht hr)] at A
  obtain ⟨a1, a2⟩ := abs_le.1 A
  unfold lookaheadSamples
  have f1 := Int.floor_le (binary32 (t * rate) + 1 / 2)
  have f2 := Int.lt_floor_add_one (binary32 (t * rate) + 1 / 2)
  generalize (1 : ℝ) / 2 ^ 150 = η at *
  rw [abs_le]
  constructor <;> linarith

/-- 5 ms at 44.1 kHz are 220.5 samples; 10 ms are 441. -/
example : lookaheadSamples binary32 (binary32 (1 / 100)) 44100 = 441 := by
  have := C127_lookahead 441 (by norm_num) 44100 (by norm_num) (by norm_num)
  rwa [show (((441 : ℕ) : ℝ) / 44100) = 1 / 100 by norm_num] at this

/-- For very long durations the warm-up is off, even if the time constant is exact: 2^23 + 1 seconds at 1 Hz become 2^23 + 2
samples (without contraction: the sum with 1/2 is a tie). -/
theorem C127_long_violation :
    ¬ ∀ (k : ℕ) (rate : ℝ), k ≤ 2 ^ 24 → 0 < rate → rate ≤ 2 ^ 100 → binary32 rate = rate → binary32 (k / rate) = k / rate →
      ∀ n, IsWarmUpSamples binary32 rate (k / rate) n → n = k := by
  intro H
  have e1 : binary32 (8388609 : ℝ) = 8388609 := by have := nat_exact (n := 8388609) (by norm_num); simpa using this
  have e2 : binary32 ((8388609 : ℝ) + 1 / 2) = 8388610 := by
    unfold binary32
    rw [ieee_eq (e := 0) (m := 8388610) (by norm_num) (by norm_num) (by norm_num) (by norm_num [abs_le])]
    norm_num
  have := H 8388609 1 (by norm_num) (by norm_num) (by norm_num) binary32_regular.one (by norm_num; exact e1) 8388610
    ⟨8388610, Or.inl (by rw [div_one, one_mul]; push_cast; rw [e1, e2]), by norm_num⟩
  norm_num at this

end Verif.FloatDurations
