import Verif.Model.PoleZero

/-!
# Specification of systems given by poles and zeros

filter_poles_and_zeros.h:28-42: an analog system is `H(s) = k Π (s - z_i) / Π (s - p_i)`, a digital one
`H(z) = k Π (1 - z_i z⁻¹) / Π (1 - p_i z⁻¹)`.
-/

namespace Verif.PoleZero.Spec
open Verif.PoleZero

/-- All poles: the lone (real) ones, and each paired one with its conjugate. -/
noncomputable def poles (f : PZ) : List ℂ :=
  f.lonePoles.map (fun p : ℝ => (p : ℂ)) ++ f.pairedPoles.flatMap fun p => [p, (starRingEnd ℂ) p]

/-- All zeros. -/
noncomputable def zeros (f : PZ) : List ℂ :=
  f.loneZeros.map (fun p : ℝ => (p : ℂ)) ++ f.pairedZeros.flatMap fun p => [p, (starRingEnd ℂ) p]

/-- The analog system `H(s)`. -/
noncomputable def analogSystem (f : PZ) (s : ℂ) : ℂ :=
  f.gain * ((zeros f).map (s - ·)).prod / ((poles f).map (s - ·)).prod

/-- The digital system `H(z)`. -/
noncomputable def digitalSystem (f : PZ) (z : ℂ) : ℂ :=
  f.gain * ((zeros f).map (1 - · / z)).prod / ((poles f).map (1 - · / z)).prod

/-- Poles and zeros are exactly zero or larger than `δ` in magnitude. -/
def RootsAbove (δ : ℝ) (f : PZ) : Prop := ∀ r, r ∈ zeros f ∨ r ∈ poles f → r = 0 ∨ δ < ‖r‖

/-- The sign condition of the pole-zero transforms: the code multiplies by the absolute value of
`k Π (z_i - K) / Π (p_i - K)`. -/
structure Proper (K : ℝ) (f : PZ) : Prop where
  gain : 0 ≤ f.gain
  degree : 0 ≤ f.relativeDegree
  lonePoles : ∀ p ∈ f.lonePoles, p < K
  loneZeros : ∀ p ∈ f.loneZeros, p < K
  pairedPoles : ∀ p ∈ f.pairedPoles, p ≠ K
  pairedZeros : ∀ p ∈ f.pairedZeros, p ≠ K

/-- All roots of the prototype lie in the open left half plane (zeros may also lie on the imaginary axis, but
not at the origin), there are at most as many zeros as poles, and the gain is not negative. -/
structure Prototype (f : PZ) : Prop where
  gain : 0 ≤ f.gain
  degree : 0 ≤ f.relativeDegree
  lonePoles : ∀ p ∈ f.lonePoles, p < 0
  loneZeros : ∀ p ∈ f.loneZeros, p < 0
  pairedPoles : ∀ p ∈ f.pairedPoles, p.re < 0
  pairedZeros : ∀ p ∈ f.pairedZeros, p.re ≤ 0 ∧ p ≠ 0

/-- The transfer function of a cascade at the frequency `θ` (radians per sample), `z = e^{iθ}`. -/
noncomputable def cascadeResponse (cs : List (Verif.BiquadCascade.Stage ℝ)) (θ : ℝ) : ℂ :=
  Verif.BiquadCascade.evalCascade Complex.ofRealHom cs (Complex.exp (θ * Complex.I))

end Verif.PoleZero.Spec
