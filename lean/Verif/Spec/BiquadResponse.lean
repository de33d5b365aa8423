import Mathlib.Data.Real.Basic
import Verif.Model.Biquad

/-!
# Specification of the response of a biquad filter and of a cascade

For signals that start at time 0. Only the record of the coefficients is taken from the model.
-/

namespace Verif.BiquadResponse

/-- `x[n - k]`, zero before the start. -/
def delayed (x : ℕ → ℝ) (k n : ℕ) : ℝ := if k ≤ n then x (n - k) else 0

/-- `y` is the response to `x` of the filter `(ff0 + ff1 z⁻¹ + ff2 z⁻²) / (1 + fb1 z⁻¹ + fb2 z⁻²)`. -/
def IsResponse (f : Biquad.Filter ℝ) (x y : ℕ → ℝ) : Prop :=
  ∀ n, y n + f.fb1 * delayed y 1 n + f.fb2 * delayed y 2 n =
    f.ff0 * x n + f.ff1 * delayed x 1 n + f.ff2 * delayed x 2 n

/-- `y` is the response to `x` of the filters one after another. -/
def IsCascadeResponse : List (Biquad.Filter ℝ) → (ℕ → ℝ) → (ℕ → ℝ) → Prop
  | [], x, y => y = x
  | f :: fs, x, y => ∃ t, IsResponse f x t ∧ IsCascadeResponse fs t y

end Verif.BiquadResponse
