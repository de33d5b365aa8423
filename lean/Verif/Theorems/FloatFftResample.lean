import Verif.Proof.FloatFftUtil

/-!
# C126: the size of the FFT resampler's output and the weights of the Gaussian convolution, in floating point
-/

namespace Verif.FloatFftUtil
open Verif.Rounding
open Verif.FloatQuadratic (nat_exact int_exact r32)

/-- The number of samples after `FftPeriodicResample` of up to 2^24 samples is within 1/2 of `n * out / in`, and a relative error
of about two roundings. -/
theorem C126_size_error (n : ℕ) (hn : n ≤ 2 ^ 24) (inRate outRate : ℝ) (hi : 0 < inRate) (ho : 0 < outRate) :
    |(resampledSize binary32 n inRate outRate : ℝ) - n * outRate / inRate| ≤
      1 / 2 + (2.01 / 2 ^ 24 * (n * outRate / inRate) + 1 / 2 ^ 120) := by
  unfold resampledSize
  rw [nat_exact hn]
  obtain ⟨q, hq⟩ : ∃ q, q = outRate / inRate := ⟨_, rfl⟩
  have q0 : 0 < q := by rw [hq]; positivity
  have e : (n : ℝ) * outRate / inRate = n * q := by rw [hq]; ring
  have n0 : (0 : ℝ) ≤ n := by positivity
  have n2 : (n : ℝ) ≤ 2 ^ 24 := by exact_mod_cast hn
  rw [e, ← hq]
  have A := binary32_accurate q
  rw [abs_of_pos q0] at A
  have A' : |n * binary32 q - n * q| ≤ 1 / 2 ^ 24 * (n * q) + 2 ^ 24 * (1 / 2 ^ 150) := by
    rw [← mul_sub, abs_mul, abs_of_nonneg n0]
    have h1 := mul_le_mul_of_nonneg_left A n0
    have h2 := mul_le_mul_of_nonneg_right n2 (by positivity : (0 : ℝ) ≤ 1 / 2 ^ 150)
    linarith
  obtain ⟨a1, a2⟩ := abs_le.1 A'
  have nq : 0 ≤ n * q := by positivity
  have η0 : (0 : ℝ) < 1 / 2 ^ 150 := by positivity
  have e120 : (1 : ℝ) / 2 ^ 120 = 2 ^ 30 * (1 / 2 ^ 150) := by norm_num
  rw [e120]
  obtain ⟨b1, b2⟩ := abs_le.1 (r32 (x := n * binary32 q) (B := 1.001 * (n * q) + 2 ^ 25 * (1 / 2 ^ 150)) (by
    rw [abs_le]; constructor <;> linarith))
  have f1 := Int.floor_le (binary32 (n * binary32 q) + 1 / 2)
  have f2 := Int.lt_floor_add_one (binary32 (n * binary32 q) + 1 / 2)
  generalize (1 : ℝ) / 2 ^ 150 = η at *
  rw [abs_le]
  constructor <;> linarith

/-- If the exact number of samples is an integer of at most 2^21, this is the size of the output. -/
theorem C126_size_partial (n : ℕ) (hn : n ≤ 2 ^ 24) (inRate outRate : ℝ) (hi : 0 < inRate) (ho : 0 < outRate) (m : ℕ)
    (hm : m ≤ 2 ^ 21) (h : n * outRate = m * inRate) : resampledSize binary32 n inRate outRate = m := by
  have e : (n : ℝ) * outRate / inRate = m := by rw [h]; field_simp
  have A := C126_size_error n hn inRate outRate hi ho
  rw [e] at A
  have m2 : (m : ℝ) ≤ 2 ^ 21 := by exact_mod_cast hm
  have tiny : (1 : ℝ) / 2 ^ 120 ≤ 1 / 2 ^ 40 := by norm_num
  obtain ⟨a1, a2⟩ := abs_le.1 A
  have h1 : (((resampledSize binary32 n inRate outRate) - m : ℤ) : ℝ) < 1 := by push_cast; linarith
  have h2 : (-1 : ℝ) < ((resampledSize binary32 n inRate outRate) - m : ℤ) := by push_cast; linarith
  have h1' : resampledSize binary32 n inRate outRate - m < 1 := by exact_mod_cast h1
  have h2' : -1 < resampledSize binary32 n inRate outRate - m := by exact_mod_cast h2
  omega

example : resampledSize binary32 441000 44100 48000 = 480000 :=
  C126_size_partial 441000 (by norm_num) 44100 48000 (by norm_num) (by norm_num) 480000 (by norm_num) (by norm_num)

/-- For longer signals the size can be wrong: 6701877 samples at 44.1 kHz are 7294560 samples at 48 kHz (151.97 seconds), but the
output has 7294561. -/
theorem C126_size_violation :
    ¬ ∀ (n : ℕ) (inRate outRate : ℝ) (m : ℕ), n ≤ 2 ^ 24 → m ≤ 2 ^ 24 → binary32 inRate = inRate → binary32 outRate = outRate →
      0 < inRate → 0 < outRate → n * outRate = m * inRate → resampledSize binary32 n inRate outRate = m := by
  intro H
  have r1 : binary32 44100 = 44100 := by have := nat_exact (n := 44100) (by norm_num); simpa using this
  have r2 : binary32 48000 = 48000 := by have := nat_exact (n := 48000) (by norm_num); simpa using this
  have := H 6701877 44100 48000 7294560 (by norm_num) (by norm_num) r1 r2 (by norm_num) (by norm_num) (by norm_num)
  unfold resampledSize at this
  rw [nat_exact (by norm_num)] at this
  have q : binary32 (48000 / 44100) = 9130458 / 2 ^ 23 := by
    unfold binary32
    rw [ieee_eq (e := -23) (m := 9130458) (by norm_num) (by norm_num) (by norm_num) (by norm_num [abs_lt])]
    norm_num
  rw [q] at this
  have p : binary32 (((6701877 : ℕ) : ℝ) * (9130458 / 2 ^ 23)) = 7294560 + 1 / 2 := by
    unfold binary32
    rw [ieee_eq (e := -1) (m := 14589121) (by norm_num) (by norm_num) (by norm_num) (by norm_num [abs_lt])]
    norm_num
  rw [p] at this
  norm_num at this

/-- Resampling to the same rate can change the number of samples, too: 2^24 + 1 samples become 2^24. -/
theorem C126_same_rate_violation :
    ¬ ∀ (n : ℕ) (rate : ℝ), 0 < rate → binary32 rate = rate → resampledSize binary32 n rate rate = n := by
  intro H
  have := H 16777217 1 (by norm_num) binary32_regular.one
  unfold resampledSize at this
  have e : binary32 ((16777217 : ℕ) : ℝ) = 16777216 := by
    unfold binary32
    rw [ieee_eq (e := 1) (m := 8388608) (by norm_num) (by norm_num) (by norm_num) (by norm_num [abs_le])]
    norm_num
  have e2 : binary32 16777216 = 16777216 := by have := nat_exact (n := 16777216) (by norm_num); simpa using this
  rw [e, div_one, binary32_regular.one, mul_one, e2] at this
  norm_num at this

/-- The weights of the Gaussian convolution are nonnegative and never increase, if the computed exponentials are in [0, 1]: the
convolution amplifies no frequency, whatever the rounding errors. -/
theorem C126_weights (weight ratio ratioRatio : ℝ) (hw : binary32 weight = weight) (hr : binary32 ratio = ratio)
    (w0 : 0 ≤ weight) (r0 : 0 ≤ ratio) (r1 : ratio ≤ 1) (s0 : 0 ≤ ratioRatio) (s1 : ratioRatio ≤ 1) (j k : ℕ) (hjk : j ≤ k) :
    0 ≤ (gaussian binary32 weight ratio ratioRatio k).1 ∧
      (gaussian binary32 weight ratio ratioRatio k).1 ≤ (gaussian binary32 weight ratio ratioRatio j).1 ∧
      (gaussian binary32 weight ratio ratioRatio k).1 ≤ weight := by
  have z : binary32 0 = 0 := binary32_regular.zero
  have inv : ∀ k, let s := gaussian binary32 weight ratio ratioRatio k
      binary32 s.1 = s.1 ∧ binary32 s.2 = s.2 ∧ 0 ≤ s.1 ∧ 0 ≤ s.2 ∧ s.2 ≤ 1 := by
    intro k
    induction k with
    | zero => exact ⟨hw, hr, w0, r0, r1⟩
    | succ k ih =>
      obtain ⟨i1, i2, i3, i4, i5⟩ := ih
      simp only [gaussian]
      refine ⟨binary32_regular.idem _, binary32_regular.idem _, ?_, ?_, ?_⟩
      · have := mono (mul_nonneg i3 i4); rwa [z] at this
      · have := mono (mul_nonneg i4 s0); rwa [z] at this
      · have := mono (mul_le_of_le_one_right i4 s1)
        rw [i2] at this
        exact this.trans i5
  have step : ∀ k, (gaussian binary32 weight ratio ratioRatio (k + 1)).1 ≤ (gaussian binary32 weight ratio ratioRatio k).1 := by
    intro k
    obtain ⟨i1, i2, i3, i4, i5⟩ := inv k
    have := mono (mul_le_of_le_one_right i3 i5)
    rw [i1] at this
    exact this
  have anti : Antitone fun k => (gaussian binary32 weight ratio ratioRatio k).1 := antitone_nat_of_succ_le step
  exact ⟨(inv k).2.2.1, anti hjk, anti (Nat.zero_le k)⟩

/-- They are accurate: weight `k` is `weight * ratio^k * ratio_ratio^(k (k - 1) / 2)` (the Gaussian, if `ratio_ratio = ratio^2`) up
to `k^2` roundings of the first weight. -/
theorem C126_weight_error (weight ratio ratioRatio : ℝ) (hw : binary32 weight = weight) (hr : binary32 ratio = ratio)
    (w0 : 0 ≤ weight) (r0 : 0 ≤ ratio) (r1 : ratio ≤ 1) (s0 : 0 ≤ ratioRatio) (s1 : ratioRatio ≤ 1) (k : ℕ) :
    |(gaussian binary32 weight ratio ratioRatio k).1 - weight * ratio ^ k * ratioRatio ^ (k.choose 2)| ≤
      k ^ 2 * ((1 / 2 ^ 24 + 1 / 2 ^ 150) * weight + 1 / 2 ^ 150) := by
  have main : ∀ k, let s := gaussian binary32 weight ratio ratioRatio k
      |s.2 - ratio * ratioRatio ^ k| ≤ k * (1 / 2 ^ 24 + 1 / 2 ^ 150) ∧ s.2 ≤ 1 ∧ 0 ≤ s.2 ∧
      |s.1 - weight * ratio ^ k * ratioRatio ^ (k.choose 2)| ≤ k ^ 2 * ((1 / 2 ^ 24 + 1 / 2 ^ 150) * weight + 1 / 2 ^ 150) := by
    intro k
    induction k with
    | zero => simp [gaussian, r0, r1]
    | succ k ih =>
      have W := C126_weights weight ratio ratioRatio hw hr w0 r0 r1 s0 s1 0 k (Nat.zero_le _)
      obtain ⟨i1, i2, i3, i4⟩ := ih
      simp only [gaussian]
      have c2 : (k + 1).choose 2 = k + k.choose 2 := by rw [Nat.choose_succ_succ' k 1, Nat.choose_one_right]
      have p1 : ratioRatio ^ k ≤ 1 := pow_le_one₀ s0 s1
      have p0 : 0 ≤ ratioRatio ^ k := pow_nonneg s0 k
      obtain ⟨E, hE⟩ : ∃ E, E = weight * ratio ^ k * ratioRatio ^ (k.choose 2) := ⟨_, rfl⟩
      have E' : weight * ratio ^ (k + 1) * ratioRatio ^ ((k + 1).choose 2) = E * (ratio * ratioRatio ^ k) := by
        rw [hE, c2, pow_succ, pow_add]; ring
      obtain ⟨R, hR⟩ : ∃ R, R = ratio * ratioRatio ^ k := ⟨_, rfl⟩
      have R' : ratio * ratioRatio ^ (k + 1) = R * ratioRatio := by rw [hR, pow_succ]; ring
      have E0 : 0 ≤ E := by rw [hE]; exact mul_nonneg (mul_nonneg w0 (pow_nonneg r0 _)) (pow_nonneg s0 _)
      have E1 : E ≤ weight := by
        rw [hE, mul_assoc]
        exact mul_le_of_le_one_right w0 (mul_le_one₀ (pow_le_one₀ r0 r1) (pow_nonneg s0 _) (pow_le_one₀ s0 s1))
      rw [E', R', ← hR]
      rw [← hE] at i4
      rw [← hR] at i1
      generalize (gaussian binary32 weight ratio ratioRatio k).1 = w at *
      generalize (gaussian binary32 weight ratio ratioRatio k).2 = r at *
      obtain ⟨w1, -, w2⟩ := W
      have a1 : |r * ratioRatio| ≤ 1 := by
        rw [abs_of_nonneg (mul_nonneg i3 s0)]; exact mul_le_one₀ i2 s0 s1
      have a2 := r32 a1
      have b1 : |w * r| ≤ weight := by
        rw [abs_of_nonneg (mul_nonneg w1 i3)]; exact (mul_le_of_le_one_right w1 i2).trans w2
      have b2 := r32 b1
      have k0 : (0 : ℝ) ≤ k := by positivity
      have η0 : (0 : ℝ) < 1 / 2 ^ 150 := by positivity
      push_cast
      refine ⟨?_, ?_, ?_, ?_⟩
      · have h1 : |(r - R) * ratioRatio| ≤ |r - R| := by
          rw [abs_mul, abs_of_nonneg s0]; exact mul_le_of_le_one_right (abs_nonneg _) s1
        have h2 := abs_add_le (binary32 (r * ratioRatio) - r * ratioRatio) ((r - R) * ratioRatio)
        rw [show binary32 (r * ratioRatio) - r * ratioRatio + (r - R) * ratioRatio = binary32 (r * ratioRatio) - R * ratioRatio by
          ring] at h2
        linarith
      · have := mono (abs_le.1 a1).2
        rwa [binary32_regular.one] at this
      · have := mono (mul_nonneg i3 s0)
        rwa [binary32_regular.zero] at this
      · have h1 : |(w - E) * r| ≤ |w - E| := by
          rw [abs_mul, abs_of_nonneg i3]; exact mul_le_of_le_one_right (abs_nonneg _) i2
        have h2 : |E * (r - R)| ≤ weight * (k * (1 / 2 ^ 24 + 1 / 2 ^ 150)) := by
          rw [abs_mul, abs_of_nonneg E0]
          exact mul_le_mul E1 i1 (abs_nonneg _) w0
        have h3 := abs_add_le (binary32 (w * r) - w * r) ((w - E) * r + E * (r - R))
        have h4 := abs_add_le ((w - E) * r) (E * (r - R))
        rw [show binary32 (w * r) - w * r + ((w - E) * r + E * (r - R)) = binary32 (w * r) - E * R by ring] at h3
        generalize (1 : ℝ) / 2 ^ 150 = η at *
        have h5 : 0 ≤ k * ((1 / 2 ^ 24 + η) * weight) := by positivity
        have h6 : 0 ≤ k * η := by positivity
        have h7 : 0 ≤ η * weight := by positivity
        nlinarith
  exact (main k).2.2.2

example : (gaussian binary32 (1 / 4) (1 / 2) (1 / 4) 1).1 = 1 / 8 := by
  simp only [gaussian]
  rw [show (1 / 4 * (1 / 2) : ℝ) = 1 / 8 by norm_num]
  exact ieee_of_representable (by norm_num) ⟨1, -3, by norm_num, by norm_num, by norm_num⟩

end Verif.FloatFftUtil
