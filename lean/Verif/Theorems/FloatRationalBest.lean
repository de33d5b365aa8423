import Verif.Proof.FloatRationalBest
import Verif.Theorems.RationalApproximation

/-!
# C123: `RationalApproximation` in floating point is as good as the best fraction

C11 is about exact arithmetic. Here every operation on `double` is rounded; the competitors are, as there, all `a'/b'` with
`0 < b' <= max_denominator` and `|a'| <= INT_MAX`.
-/

namespace Verif.FloatRational
open Verif.Rounding
open Verif.RationalApproximation (Frac ck_of sign_dist gcd_sign closest_huge closest_tiny initial_inv)
open Verif.NumberUtil (ck intMin intMax)

/-- For every double and every `max_denominator` up to 4 * 10^8, the result is defined (no `int` overflows), admissible and in
lowest terms, and no admissible fraction is closer to the value by more than about 2^-45 (and 2^-51 of the value). -/
theorem C123_near_best (value : ℝ) (hv : binary64 value = value) (maxDen : ℤ) (hm : 1 ≤ maxDen) (hM : maxDen ≤ 400000000) :
    ∃ a b, approximate value maxDen = some (a, b) ∧ 1 ≤ b ∧ b ≤ maxDen ∧ Int.gcd a b = 1 ∧
      ∀ a' b' : ℤ, 1 ≤ b' → b' ≤ maxDen → |a'| ≤ 2 ^ 31 - 1 →
        |value - a / b| ≤ |value - a' / b'| + 1 / 2 ^ 45 + 1 / 2 ^ 51 * |value| := by
  have pos : (0 : ℝ) ≤ 1 / 2 ^ 45 + 1 / 2 ^ 51 * |value| := by positivity
  by_cases h1 : value > (2 ^ 31 - 1) - 1 / 2
  · refine ⟨2 ^ 31 - 1, 1, ?_, le_rfl, hm, by norm_num, fun a' b' x y z => ?_⟩
    · unfold approximate rationalApproximation
      rw [if_neg (by omega), if_pos (by unfold intMax; push_cast; linarith)]; rfl
    · have := closest_huge (maxDen := maxDen) h1 a' b' x y z
      linarith
  by_cases h2 : value < -2 ^ 31 + 1 / 2
  · refine ⟨-2 ^ 31, 1, ?_, le_rfl, hm, by norm_num, fun a' b' x y z => ?_⟩
    · unfold approximate rationalApproximation
      rw [if_neg (by omega), if_neg (by unfold intMax; push_cast; linarith), if_pos (by unfold intMin; push_cast; linarith)]; rfl
    · have := closest_tiny (maxDen := maxDen) h2 a' b' x y z
      linarith
  have habs : binary64 |value| = |value| := by
    rcases abs_choice value with h | h <;> rw [h]
    · exact hv
    · rw [binary64_regular.neg, hv]
  have hlt : |value| < 2 ^ 31 := by rw [abs_lt]; constructor <;> linarith
  have f0 : 0 ≤ ⌊|value|⌋ := Int.floor_nonneg.mpr (abs_nonneg _)
  have f1 : ⌊|value|⌋ < 2 ^ 31 := Int.floor_lt.mpr (by push_cast; linarith)
  obtain ⟨f, e, nb⟩ := run_near hM (abs_nonneg value) 45 1 (by omega) le_rfl |value| habs (abs_nonneg _) ⟨1, 0⟩ ⟨⌊|value|⌋, 1⟩
    |value| (initial_inv (abs_nonneg _) hlt hm) (by simp)
  unfold tolD at e
  have e45 : ((47 : ℤ) - 2).toNat = 45 := by decide
  have a0 := nb.a0
  have aM := nb.aM
  refine ⟨(if value < 0 then -1 else 1) * f.a, f.b, ?_, nb.b1, nb.bM, ?_, ?_⟩
  · unfold approximate rationalApproximation
    rw [if_neg (by omega), if_neg (by unfold intMax; push_cast; linarith), if_neg (by unfold intMin; push_cast; linarith)]
    simp only
    rw [ck_of (by omega) (by omega), Option.bind_some, e45, e, Option.bind_some,
      ck_of (by split <;> omega) (by split <;> omega), Option.bind_some]
  · rw [gcd_sign]; exact nb.red
  · intro a' b' b1 bM ha'
    rw [sign_dist]
    rw [abs_le] at ha'
    have key : |(|value|) - (f.a : ℝ) / f.b| ≤ |value - (a' : ℝ) / b'| + (92 * ε + 1 / 2 ^ 51 * (|value| + 8)) := by
      by_cases hv : value < 0
      · have := nb.opt (-a') b' b1 bM (by omega)
        refine this.trans (le_of_eq ?_)
        congr 1
        rw [abs_of_neg hv, ← abs_neg]; congr 1; push_cast; ring
      · have := nb.opt a' b' b1 bM (by omega)
        rwa [abs_of_nonneg (not_lt.mp hv)] at this ⊢
    refine key.trans ?_
    have : 92 * ε + 1 / 2 ^ 51 * 8 ≤ 1 / 2 ^ 45 := by unfold ε; norm_num
    linarith

/-- Consequently the error of the resampling factor is at most `0.5 / max_denominator` (resampler_q.h:224-225), up to rounding,
for factors whose product with `max_denominator` is an `int`. -/
theorem C123_error (value : ℝ) (hv : binary64 value = value) (maxDen : ℤ) (hm : 1 ≤ maxDen) (hM : maxDen ≤ 400000000)
    (hint : |value| * maxDen ≤ 2 ^ 31 - 2) :
    ∃ a b, approximate value maxDen = some (a, b) ∧ 1 ≤ b ∧ b ≤ maxDen ∧
      |value - a / b| ≤ 1 / (2 * maxDen) + 1 / 2 ^ 45 + 1 / 2 ^ 51 * |value| := by
  obtain ⟨a, b, e, b1, bM, _, opt⟩ := C123_near_best value hv maxDen hm hM
  refine ⟨a, b, e, b1, bM, ?_⟩
  have hmr : (1 : ℝ) ≤ maxDen := by exact_mod_cast hm
  have hround := abs_sub_round (value * maxDen)
  have hle : |round (value * maxDen)| ≤ 2 ^ 31 - 1 := by
    have h1 : |(round (value * maxDen) : ℝ)| ≤ |value| * maxDen + 1 / 2 := by
      have := abs_sub_abs_le_abs_sub (round (value * maxDen) : ℝ) (value * maxDen)
      rw [abs_sub_comm, abs_mul, abs_of_pos (show (0 : ℝ) < maxDen by linarith)] at this
      linarith
    have h2 : |(round (value * maxDen) : ℝ)| ≤ 2 ^ 31 - 1 := by linarith
    exact_mod_cast h2
  have h := opt (round (value * maxDen)) maxDen hm le_rfl hle
  have hd : |value - (round (value * maxDen) : ℝ) / maxDen| ≤ 1 / (2 * maxDen) := by
    have e1 : value - (round (value * maxDen) : ℝ) / maxDen = (value * maxDen - round (value * maxDen)) / maxDen := by
      field_simp
    rw [e1, abs_div, abs_of_pos (show (0 : ℝ) < maxDen by linarith), div_le_iff₀ (by linarith)]
    refine hround.trans (le_of_eq ?_)
    field_simp
  linarith

/-- The condition on the product is needed, although resampler_q.h:224-225 has none: the factor from 2^32 Hz to 1 Hz is
represented by 2^31 - 1, whatever `max_denominator`. -/
theorem C123_large_violation (maxDen : ℤ) (hm : 1 ≤ maxDen) :
    resamplerFactor (2 ^ 32) 1 maxDen = some (2 ^ 31 - 1, 1) ∧ (1 : ℝ) / (2 * maxDen) < |2 ^ 32 / 1 - ((2 ^ 31 - 1 : ℤ) : ℝ) / 1| := by
  constructor
  · have hx : binary64 (2 ^ 32 / 1) = 2 ^ 32 :=
      (congrArg binary64 (div_one _)).trans (ieee_of_representable (by norm_num) ⟨1, 32, by norm_num, by norm_num, by norm_num⟩)
    unfold resamplerFactor kernelFactor approximate rationalApproximation
    rw [hx, if_neg (by omega), if_pos (by unfold intMax; norm_num)]
    rfl
  · have hmr : (1 : ℝ) ≤ maxDen := by exact_mod_cast hm
    have : (1 : ℝ) / (2 * maxDen) ≤ 1 := by rw [div_le_one (by linarith)]; linarith
    refine lt_of_le_of_lt this ?_
    norm_num

/-- A value that is not near a fraction with a small denominator: the double nearest to π, with the default `max_denominator`
of the resampler. -/
example : ∃ a b, approximate (binary64 Real.pi) 1000 = some (a, b) ∧ 1 ≤ b ∧ b ≤ 1000 ∧
    |binary64 Real.pi - a / b| ≤ 1 / 2000 + 1 / 2 ^ 44 := by
  have h4 : |binary64 Real.pi| ≤ 5 := by
    have h0 := Real.pi_pos
    have h1 := Real.pi_le_four
    obtain ⟨_, u⟩ := r64ε (x := Real.pi) (le_trans (by norm_num) Real.two_le_pi)
    rw [abs_of_nonneg (binary64_regular.nonneg h0.le)]
    have := ε_small
    nlinarith
  obtain ⟨a, b, e, b1, bM, h⟩ := C123_error (binary64 Real.pi) (binary64_regular.idem _) 1000 (by norm_num) (by norm_num)
    (by push_cast; linarith)
  refine ⟨a, b, e, b1, bM, h.trans ?_⟩
  push_cast
  norm_num at *
  linarith

end Verif.FloatRational
