import Verif.Spec.Mfcc

/-!
# Specification of the mel filterbank in floating point (C112)
-/

namespace Verif.FloatMelSpec
open Finset Verif.MfccSpec

/-- The error of a position among the channels, relative to the distance of the limits: `u` is the relative error of an
operation, `v` that of the logarithm. For a band from 0 Hz to 4000 Hz this is less than `80 (u + v)`. -/
noncomputable def positionError (u v lower upper : ℝ) : ℝ :=
  6 * (1127 * (10 * u + 2 * (u + v) * Real.log (1 + upper / 700))) / (mel upper - mel lower) + 12 * u

/-- The exact output of channel `c` when the bins from `start` to `stop` are used and bin `i` lies at the frequency
`i * hz`. -/
noncomputable def output (n : ℕ) (lower upper hz : ℝ) (start stop : ℕ) (power : ℕ → ℝ) (c : ℕ) : ℝ :=
  ∑ i ∈ Icc start stop, triangle c (position n lower upper (i * hz)) * √(power i)

end Verif.FloatMelSpec
