import Verif.Spec.FloatMel

/-!
# Specification of the MFCC computation in floating point (C117)
-/

namespace Verif.FloatMfccSpec
open Finset Verif.FloatMelSpec

/-- The floor of the outputs of the filterbank. -/
noncomputable def floored (x : ℝ) : ℝ := max (1 / 10 ^ 12) x

/-- The error of an output of the mel filterbank with `n` channels (C112): `K` bins are used, the sum of their magnitudes is
`total`. -/
noncomputable def melError (u v η : ℝ) (n : ℕ) (lower upper : ℝ) (K : ℕ) (total : ℝ) : ℝ :=
  ((n + 1) * positionError u v lower upper + (3 * K + 8) * u) * total + 10 * K * η

end Verif.FloatMfccSpec
