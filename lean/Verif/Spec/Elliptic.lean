import Mathlib.MeasureTheory.Integral.IntervalIntegral.Basic
import Mathlib.Analysis.SpecialFunctions.Trigonometric.Basic
import Mathlib.Analysis.SpecialFunctions.Pow.Complex

/-! # Elliptic integrals of the first kind, as documented in elliptic_functions.h:48-58 -/

namespace Verif.Elliptic.Spec

/-- `F(φ|m) = ∫_0^φ dt / √(1 - m sin² t)` for real `φ`. -/
noncomputable def F (φ m : ℝ) : ℝ := ∫ t in (0 : ℝ)..φ, 1 / √(1 - m * Real.sin t ^ 2)

/-- `K(m) = F(π/2|m)`. -/
noncomputable def K (m : ℝ) : ℝ := F (Real.pi / 2) m

/-- The integrand `1 / √(1 - m sin² z)` for complex `z`, with the principal square root. -/
noncomputable def integrand (m : ℝ) (z : ℂ) : ℂ := 1 / (1 - m * Complex.sin z ^ 2) ^ (1 / 2 : ℂ)

/-- `F(φ|m) = ∫_0^φ dz / √(1 - m sin² z)` for complex `φ`, along the segment from 0 to `φ`. -/
noncomputable def Fc (φ : ℂ) (m : ℝ) : ℂ := ∫ t in (0 : ℝ)..1, φ * integrand m (t * φ)

/-- The integral of the modulus of the integrand along the same segment, the scale of the error bounds. -/
noncomputable def Fabs (φ : ℂ) (m : ℝ) : ℝ := ∫ t in (0 : ℝ)..1, ‖φ * integrand m (t * φ)‖

end Verif.Elliptic.Spec
