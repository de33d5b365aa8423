import Verif.Spec.Elliptic

/-!
# Jacobi's elliptic functions

As documented in elliptic_functions.h:60-69 for real arguments: the amplitude inverts the integral `F`. For complex
arguments by the classical formulas (Abramowitz and Stegun 16.21) for real and imaginary parts.
-/

namespace Verif.Elliptic.Spec

/-- The amplitude: the inverse function of `F(·|m)`. -/
noncomputable def am (u m : ℝ) : ℝ := Function.invFun (fun φ => F φ m) u

noncomputable def sn (u m : ℝ) : ℝ := Real.sin (am u m)

noncomputable def cn (u m : ℝ) : ℝ := Real.cos (am u m)

noncomputable def dn (u m : ℝ) : ℝ := √(1 - m * sn u m ^ 2)

/-- The common denominator of Abramowitz and Stegun 16.21.2-4. -/
noncomputable def denom (z : ℂ) (m : ℝ) : ℝ := cn z.im (1 - m) ^ 2 + m * sn z.re m ^ 2 * sn z.im (1 - m) ^ 2

/-- `sn` of a complex number, Abramowitz and Stegun 16.21.2. -/
noncomputable def Sn (z : ℂ) (m : ℝ) : ℂ :=
  ⟨sn z.re m * dn z.im (1 - m) / denom z m,
    cn z.re m * dn z.re m * sn z.im (1 - m) * cn z.im (1 - m) / denom z m⟩

/-- `cn` of a complex number, Abramowitz and Stegun 16.21.3. -/
noncomputable def Cn (z : ℂ) (m : ℝ) : ℂ :=
  ⟨cn z.re m * cn z.im (1 - m) / denom z m,
    -(sn z.re m * dn z.re m * sn z.im (1 - m) * dn z.im (1 - m)) / denom z m⟩

/-- `dn` of a complex number, Abramowitz and Stegun 16.21.4. -/
noncomputable def Dn (z : ℂ) (m : ℝ) : ℂ :=
  ⟨dn z.re m * cn z.im (1 - m) * dn z.im (1 - m) / denom z m,
    -(m * sn z.re m * cn z.re m * sn z.im (1 - m)) / denom z m⟩

/-- `cd = cn / dn`. -/
noncomputable def Cd (z : ℂ) (m : ℝ) : ℂ := Cn z m / Dn z m

end Verif.Elliptic.Spec
