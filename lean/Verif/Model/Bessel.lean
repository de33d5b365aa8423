import Mathlib.Analysis.SpecialFunctions.Trigonometric.Basic
import Mathlib.Analysis.SpecialFunctions.Pow.Real

/-!
# Model of audio/dsp/bessel_functions.cc

Over the real numbers: rounding of `double` arithmetic is not modelled.
-/

namespace Verif.Bessel

/-- `DBL_EPSILON`. -/
noncomputable def eps : ℝ := 1 / 2 ^ 52

/-- The loop of `BesselISeries`, bessel_functions.cc:43-51; `y` is `x_squared_over_4`, the first number the
iterations left, the second `k`. -/
noncomputable def seriesLoop (n : ℕ) (y : ℝ) : ℕ → ℕ → ℝ → ℝ → ℝ
  | 0, _, _, sum => sum
  | fuel + 1, k, term, sum =>
    let term := term * (y / (k * (k + n)))
    if term < eps * sum then sum else seriesLoop n y fuel (k + 1) term (sum + term)

/-- `BesselISeries`, bessel_functions.cc:34-53: `k = 1, .., 39`. -/
noncomputable def besselISeries (n : ℕ) (x : ℝ) : ℝ :=
  let sum := if n = 0 then 1 else x / 2
  seriesLoop n (x * x / 4) 39 1 sum sum

/-- The loop of `BesselIAsymptotic`, bessel_functions.cc:67-75. -/
noncomputable def asymptoticLoop (n : ℕ) (x : ℝ) : ℕ → ℕ → ℝ → ℝ → ℝ
  | 0, _, _, sum => sum
  | fuel + 1, k, term, sum =>
    let term := term * (((2 * k - 1) ^ 2 - 4 * (n * n)) / (8 * k * x))
    if |term| < eps * sum then sum else asymptoticLoop n x fuel (k + 1) term (sum + term)

/-- `BesselIAsymptotic`, bessel_functions.cc:62-77. -/
noncomputable def besselIAsymptotic (n : ℕ) (x : ℝ) : ℝ :=
  let sum := Real.exp x / √(2 * Real.pi * x)
  asymptoticLoop n x 39 1 sum sum

/-- `BesselI0`, bessel_functions.cc:81-90. -/
noncomputable def besselI0 (x : ℝ) : ℝ :=
  if |x| < 21 then besselISeries 0 |x| else besselIAsymptotic 0 |x|

/-- `BesselI1`, bessel_functions.cc:92-100. -/
noncomputable def besselI1 (x : ℝ) : ℝ :=
  let sign : ℝ := if x < 0 then -1 else 1
  if |x| < 21 then sign * besselISeries 1 |x| else sign * besselIAsymptotic 1 |x|

end Verif.Bessel
