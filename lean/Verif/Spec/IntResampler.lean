import Mathlib.Algebra.Order.Ring.Nat

/-!
# Sizes for which the `int` arithmetic of the resampler is exact
-/

namespace Verif.IntResampler

/-- The sizes are small enough: the number of coefficients, twice the denominator, the largest input together with the filter,
and the largest output. -/
structure InRange (num den radius maxInput : ℕ) : Prop where
  coefficients : den * (2 * radius + 1) < 2 ^ 31
  phases : 2 * den ≤ 2 ^ 31
  input : maxInput + 2 * (2 * radius + 1) + 1 ≤ 2 ^ 31
  output : (maxInput * den + num - 1) / num < 2 ^ 31

end Verif.IntResampler
