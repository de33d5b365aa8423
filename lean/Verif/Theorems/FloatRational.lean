import Verif.Proof.FloatRational

/-!
# C122: the resampling factor is recovered exactly in floating point

`QResamplerParams` (resampler_q.h:223-224): "If the factor can be expressed as a rational a/b with b <= max_denominator, the
resampling factor is represented exactly." The factor is known only as a rounded `double`, and the continued fraction is computed
with rounded operations.
-/

namespace Verif.FloatRational
open Verif.Rounding
open Verif.RationalApproximation (Frac)
open Verif.NumberUtil (ck intMin intMax)

/-- The approximation of a double within one unit in the last place of the fraction `a / b` in lowest terms is exactly `(a, b)`,
and that of its negative is `(-a, b)`, for every bound `maxDen` of the denominator that admits `b`. -/
theorem C122_recovers (a b maxDen : ℤ) (ha : 0 ≤ a) (hb : 1 ≤ b) (hg : Int.gcd a b = 1) (hbM : b ≤ maxDen)
    (hM : maxDen ≤ 400000000) (haM : a * maxDen ≤ 2 ^ 45) (ha2 : a ≤ 2 ^ 31 - 2) (x : ℝ)
    (hx : |x - a / b| ≤ 1 / 2 ^ 52 * (a / b)) :
    approximate x maxDen = some (a, b) ∧ approximate (-x) maxDen = some (-a, b) := by
  have hM0 : ¬ maxDen ≤ 0 := by omega
  rcases eq_or_lt_of_le ha with h0 | h0
  · -- zero
    subst h0
    have hb1 : b = 1 := by
      rw [Int.gcd_zero_left] at hg
      omega
    have hx0 : x = 0 := by
      simpa using hx
    subst hx0 hb1
    have : approximate 0 maxDen = some (0, 1) := by
      have ht := tolD_bounds.1
      unfold tolD at ht
      have hz : binary64 0 = 0 := binary64_regular.zero
      have hc : |binary64 (0 : ℝ)| ≤ binary64 (1 / 10 ^ 9) := by
        rw [hz, abs_zero]; exact le_trans (by norm_num) ht
      unfold approximate rationalApproximation
      rw [if_neg hM0, if_neg (by unfold intMax; norm_num), if_neg (by unfold intMin; norm_num)]
      simp only
      rw [abs_zero, Int.floor_zero, RationalApproximation.ck_of (by norm_num) (by norm_num), Option.bind_some,
        run_converged (by simpa using hc)]
      simp [ck, intMin, intMax]
    simpa using this
  · obtain ⟨x0, x1, hck, hrun⟩ := run_start h0 hb hg hbM hM haM ha2 hx
    unfold tolD at hrun
    have e45 : ((47 : ℤ) - 2).toNat = 45 := by decide
    constructor
    · unfold approximate rationalApproximation
      rw [if_neg hM0, if_neg (not_lt.2 x1), if_neg (by unfold intMin; push_cast; linarith)]
      simp only
      rw [abs_of_pos x0, if_neg (not_lt.2 x0.le), hck, Option.bind_some, e45, hrun, Option.bind_some, one_mul,
        RationalApproximation.ck_of (by simp only; omega) (by simp only; omega), Option.bind_some]
    · unfold approximate rationalApproximation
      have hmin : ¬ -x < (intMin : ℝ) + 1 / 2 := by
        unfold intMin; unfold intMax at x1; push_cast at *; linarith
      rw [if_neg hM0, if_neg (by unfold intMax; push_cast; linarith), if_neg hmin]
      simp only
      rw [abs_neg, abs_of_pos x0, if_pos (by linarith), hck, Option.bind_some, e45, hrun, Option.bind_some, neg_one_mul,
        RationalApproximation.ck_of (by simp only; omega) (by simp only; omega), Option.bind_some]

/-- A resampler whose two sample rates are in the ratio `a : b` (in lowest terms) has the factor `a / b`. -/
theorem C122_factor (inputRate outputRate : ℝ) (a b maxDen : ℤ) (ha : 1 ≤ a) (hb : 1 ≤ b) (hg : Int.gcd a b = 1)
    (hab : inputRate / outputRate = a / b) (hbM : b ≤ maxDen) (hM : maxDen ≤ 400000000) (haM : a * maxDen ≤ 2 ^ 45)
    (ha2 : a ≤ 2 ^ 31 - 2) : resamplerFactor inputRate outputRate maxDen = some (a, b) := by
  unfold resamplerFactor kernelFactor
  refine (C122_recovers a b maxDen (by omega) hb hg hbM hM haM ha2 _ ?_).1
  rw [hab]
  have har : (1 : ℝ) ≤ a := by exact_mod_cast ha
  have hbr : (1 : ℝ) ≤ b := by exact_mod_cast hb
  have hbr2 : (b : ℝ) ≤ 400000000 := by exact_mod_cast hbM.trans hM
  obtain ⟨h1, h2⟩ := r64ε (x := (a : ℝ) / b) (by
    rw [le_div_iff₀ (by linarith)]
    norm_num
    linarith)
  unfold ε at h1 h2
  rw [abs_le]
  constructor <;> linarith

/-- With integer sample rates the factor is the ratio of the rates divided by their greatest common divisor. -/
theorem C122_integer_rates (m n : ℕ) (maxDen : ℤ) (hm : 0 < m) (hn : 0 < n) (hbM : ((n / Nat.gcd m n : ℕ) : ℤ) ≤ maxDen)
    (hM : maxDen ≤ 400000000) (haM : ((m / Nat.gcd m n : ℕ) : ℤ) * maxDen ≤ 2 ^ 45)
    (ha2 : ((m / Nat.gcd m n : ℕ) : ℤ) ≤ 2 ^ 31 - 2) :
    resamplerFactor m n maxDen = some (((m / Nat.gcd m n : ℕ) : ℤ), ((n / Nat.gcd m n : ℕ) : ℤ)) := by
  have hg : 0 < Nat.gcd m n := Nat.gcd_pos_of_pos_left _ hm
  have hm' : 0 < m / Nat.gcd m n := Nat.div_pos (Nat.le_of_dvd hm (Nat.gcd_dvd_left m n)) hg
  have hn' : 0 < n / Nat.gcd m n := Nat.div_pos (Nat.le_of_dvd hn (Nat.gcd_dvd_right m n)) hg
  refine C122_factor m n _ _ maxDen (by exact_mod_cast hm') (by exact_mod_cast hn') ?_ ?_ hbM hM haM ha2
  · rw [Int.gcd_natCast_natCast]; exact Nat.coprime_div_gcd_div_gcd hg
  · have gr : (Nat.gcd m n : ℝ) ≠ 0 := by exact_mod_cast hg.ne'
    have nr : (n : ℝ) ≠ 0 := by exact_mod_cast hn.ne'
    have e1 : ((m / Nat.gcd m n : ℕ) : ℝ) = m / Nat.gcd m n := Nat.cast_div (Nat.gcd_dvd_left m n) gr
    have e2 : ((n / Nat.gcd m n : ℕ) : ℝ) = n / Nat.gcd m n := Nat.cast_div (Nat.gcd_dvd_right m n) gr
    rw [Int.cast_natCast, Int.cast_natCast, e1, e2]
    field_simp

/-- With the default `max_denominator = 1000` (resampler_q.h:231), no further condition on the size is needed than that the
numerator is an `int`. -/
theorem C122_default (inputRate outputRate : ℝ) (a b : ℤ) (ha : 1 ≤ a) (hb : 1 ≤ b) (hg : Int.gcd a b = 1)
    (hab : inputRate / outputRate = a / b) (hb2 : b ≤ 1000) (ha2 : a ≤ 2 ^ 31 - 2) :
    resamplerFactor inputRate outputRate 1000 = some (a, b) :=
  C122_factor inputRate outputRate a b 1000 ha hb hg hab hb2 (by norm_num) (by omega) ha2

/-- From 44.1 kHz to 48 kHz. -/
example : resamplerFactor 44100 48000 1000 = some (147, 160) :=
  C122_default 44100 48000 147 160 (by norm_num) (by norm_num) (by decide) (by norm_num) (by norm_num) (by norm_num)

/-- The factor 147/160 is not a `double`: the quotient of the rates is rounded. -/
example : (44100 / 48000 : ℝ) ≠ kernelFactor 44100 48000 := by
  unfold kernelFactor
  intro h
  obtain ⟨m, e, h1, h2, h3⟩ := ieee_representable 53 (-1074) (44100 / 48000)
  have h4 : (44100 / 48000 : ℝ) = m * 2 ^ e := by rw [← h3]; exact h
  have h5 : (147 : ℝ) = 160 * m * 2 ^ e := by linarith
  rcases le_or_gt 0 e with he | he
  · lift e to ℕ using he
    rw [zpow_natCast] at h5
    have : (147 : ℤ) = 160 * m * 2 ^ e := by exact_mod_cast h5
    have : (5 : ℤ) ∣ 147 := ⟨32 * m * 2 ^ e, by rw [this]; ring⟩
    omega
  · obtain ⟨k, hk⟩ : ∃ k : ℕ, e = -k := ⟨e.natAbs, by omega⟩
    subst hk
    rw [zpow_neg, zpow_natCast, ← div_eq_mul_inv, eq_div_iff (by positivity)] at h5
    have h6 : (147 : ℤ) * 2 ^ k = 160 * m := by exact_mod_cast h5
    have h7 : (5 : ℤ) ∣ 147 * 2 ^ k := ⟨32 * m, by rw [h6]; ring⟩
    have h8 : IsCoprime (5 : ℤ) (2 ^ k) := IsCoprime.pow_right (Int.isCoprime_iff_gcd_eq_one.2 (by decide))
    have := h8.dvd_of_dvd_mul_right h7
    omega

/-- Beyond the range of the theorems the claim fails: the factor from 1 Hz to 2^30 Hz is 1 / 2^30, exactly a `double`, and
`max_denominator` admits it, but the continued fraction counts as converged at once, and the factor is 0 / 1. -/
theorem C122_tolerance_violation : resamplerFactor 1 (2 ^ 30) (2 ^ 30) = some (0, 1) := by
  have hx : binary64 (1 / 2 ^ 30) = 1 / 2 ^ 30 :=
    ieee_of_representable (by norm_num) ⟨1, -30, by norm_num, by norm_num, by norm_num⟩
  unfold resamplerFactor kernelFactor
  rw [hx]
  have hf : ⌊(1 / 2 ^ 30 : ℝ)⌋ = 0 := by rw [Int.floor_eq_iff]; norm_num
  have hc : |binary64 (1 / 2 ^ 30 : ℝ)| ≤ binary64 (1 / 10 ^ 9) := by
    rw [abs_of_nonneg (binary64_regular.nonneg (by norm_num))]
    exact binary64_regular.mono (by norm_num)
  have hp : |(1 / 2 ^ 30 : ℝ)| = 1 / 2 ^ 30 := abs_of_pos (by positivity)
  unfold approximate rationalApproximation
  rw [if_neg (by norm_num), if_neg (by unfold intMax; norm_num), if_neg (by unfold intMin; norm_num)]
  simp only
  rw [hp, hf, RationalApproximation.ck_of (by norm_num) (by norm_num), Option.bind_some,
    run_converged (by rw [Int.cast_zero, sub_zero]; exact hc)]
  simp [ck, intMin, intMax]

end Verif.FloatRational
