import Verif.Spec.Bessel
import Mathlib.Analysis.SpecialFunctions.Trigonometric.Sinc

/-!
# The ideal resampling kernel: a sinc with a Kaiser window
-/

namespace Verif.ResamplerKernel.Spec

/-- Lowpass filter with cutoff at the proportion `theta` of the Nyquist rate, windowed with the Kaiser
window of the given radius and parameter `beta`. -/
noncomputable def kernel (theta radius beta x : ℝ) : ℝ :=
  if |x| ≤ radius then
    theta * Real.sinc (Real.pi * theta * x) *
      (Bessel.Spec.I 0 (beta * √(1 - (x / radius) ^ 2)) / Bessel.Spec.I 0 beta)
  else 0

end Verif.ResamplerKernel.Spec
