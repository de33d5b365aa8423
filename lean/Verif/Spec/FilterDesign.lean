import Verif.Model.FilterDesign
import Verif.Model.Ladder

/-!
# Specification vocabulary for filter designs

`response` (the model of `EvalTransferFunction` on the unit circle) is tied to the filter itself by the
theorems for C21. Angular frequencies are in radians per sample.
-/

namespace Verif.FilterDesign
open Verif.BiquadCascade

/-- The angular frequency of a frequency in Hertz. -/
noncomputable def radians (hz rate : ℝ) : ℝ := 2 * Real.pi * hz / rate

/-- `(n0 s^2 + n1 s + n2) / (d0 s^2 + d1 s + d2)`. -/
noncomputable def analog (n0 n1 n2 d0 d1 d2 : ℝ) (s : ℂ) : ℂ :=
  (n0 * s ^ 2 + n1 * s + n2) / (d0 * s ^ 2 + d1 * s + d2)

/-- `c` is a discretised version of the analog transfer function `H`: the bilinear transform with a positive
constant `K`. -/
def Discretizes (c : Stage ℝ) (K : ℝ) (H : ℂ → ℂ) : Prop :=
  0 < K ∧ ∀ z : ℂ, z ≠ -1 → evalStage Complex.ofRealHom c z = H (K * (z - 1) / (z + 1))

/-- The constant that maps the analog angular frequency `2 pi hz` to the digital frequency `hz`; the code uses
the limit for `hz` to 0 where `hz` is below `rate / 10^7`. -/
def Matches (K hz rate : ℝ) : Prop :=
  (rate / 10 ^ 7 ≤ hz → K * Real.tan (radians hz rate / 2) = 2 * Real.pi * hz) ∧ (hz < rate / 10 ^ 7 → K = 2 * rate)

/-- `IsStable` returns true. -/
def Stable (c : Stage ℝ) : Prop := ∃ P : Prop, Ladder.isStable c.b c.a = some P ∧ P

/-- Group delay in samples: minus the derivative of the phase, for a response of constant magnitude. -/
noncomputable def groupDelay (c : Stage ℝ) (ω : ℝ) : ℝ := -(deriv (response c) ω / response c ω).im

end Verif.FilterDesign
