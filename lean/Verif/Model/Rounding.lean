import Mathlib.Data.Real.Archimedean
import Mathlib.Data.Int.Log

/-!
# IEEE 754 rounding of real numbers

The model of `float` and `double` arithmetic used by the theorems about rounding (`Verif.Model.FloatPhasor`,
`Verif.Model.FloatBiquad`, ...). An operation is the exact operation followed by a rounding function. Rounding is to
nearest with ties to even, with gradual underflow; the exponent is not bounded from above (the theorems show that
nothing overflows, where this matters). Infinities, NaN and the sign of zero are not modelled.
-/

namespace Verif.Rounding

/-- Nearest integer, ties to even. -/
noncomputable def roundHalfEven (x : ℝ) : ℤ :=
  let f := ⌊x⌋
  if x - f < 1 / 2 then f
  else if 1 / 2 < x - f then f + 1
  else if f % 2 = 0 then f else f + 1

/-- Rounding to `p` significant bits, with `2 ^ emin` the distance of the subnormal numbers (IEEE 754, 4.3.1
roundTiesToEven and 3.3). -/
noncomputable def ieee (p : ℕ) (emin : ℤ) (x : ℝ) : ℝ :=
  let ulp := (2 : ℝ) ^ max (Int.log 2 |x| + 1 - p) emin
  roundHalfEven (x / ulp) * ulp

/-- binary32, `float`. -/
noncomputable def binary32 : ℝ → ℝ := ieee 24 (-149)

/-- binary64, `double`. -/
noncomputable def binary64 : ℝ → ℝ := ieee 53 (-1074)

/-- What the theorems use of a rounding function: a relative error of at most `u`, and an absolute one of at most `η` in
the subnormal range. -/
def Accurate (rnd : ℝ → ℝ) (u η : ℝ) : Prop := ∀ x, |rnd x - x| ≤ u * |x| + η

/-- The result of `a * b + c * d`: with one rounding for each operation, or with one of the multiplications contracted
with the addition to a fused multiply-add (C99 6.5p8 permits both). -/
def IsSumOfProducts (rnd : ℝ → ℝ) (a b c d r : ℝ) : Prop :=
  r = rnd (rnd (a * b) + rnd (c * d)) ∨ r = rnd (a * b + rnd (c * d)) ∨ r = rnd (rnd (a * b) + c * d)

/-- The result of `a * b + c`, with or without contraction. -/
def IsMulAdd (rnd : ℝ → ℝ) (a b c r : ℝ) : Prop := r = rnd (rnd (a * b) + c) ∨ r = rnd (a * b + c)

end Verif.Rounding
