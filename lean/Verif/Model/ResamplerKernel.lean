import Mathlib.Analysis.SpecialFunctions.Trigonometric.Basic
import Mathlib.Analysis.SpecialFunctions.Pow.Real

/-!
# Model of audio/dsp/portable/rational_factor_resampler_kernel.c

Over the real numbers: rounding of `double` arithmetic is not modelled, except for the two constants that
depend on `DBL_EPSILON`.
-/

namespace Verif.Resampler.Kernel

open Real

/-- `DBL_EPSILON`. -/
noncomputable def eps : ℝ := 1 / 2 ^ 52

/-- The loop of `BesselI0`, rational_factor_resampler_kernel.c:47-51; `n` iterations left, the next one
with `k`. -/
noncomputable def besselLoop (xSquared : ℝ) : ℕ → ℕ → ℝ → ℝ → ℝ
  | 0, _, _, sum => sum
  | n + 1, k, term, sum =>
    let term := term * (xSquared / (k * k))
    if term < eps * sum then sum else besselLoop xSquared n (k + 2) term (sum + term)

/-- `BesselI0`, rational_factor_resampler_kernel.c:33-53: `k = 2, 4, .., 78`. -/
noncomputable def besselI0 (x : ℝ) : ℝ := besselLoop (x * x) 39 2 1 1

/-- `KaiserWindow`, rational_factor_resampler_kernel.c:59-70. -/
noncomputable def kaiserWindow (x beta : ℝ) : ℝ :=
  if x > 1 + 100 * eps then 0
  else
    let y := 1 - x * x
    let y := if y < 0 then 0 else y
    besselI0 (beta * √y)

/-- `RationalFactorResamplerKernel`. -/
structure Kernel where
  factor : ℝ
  radius : ℝ
  radiansPerSample : ℝ
  normalization : ℝ
  beta : ℝ

/-- `RationalFactorResamplerKernelInit`, rational_factor_resampler_kernel.c:72-122; `none` is the result
0. -/
noncomputable def init (inputRate outputRate radiusFactor cutoff beta : ℝ) : Option Kernel :=
  if ¬ inputRate > 0 ∨ ¬ outputRate > 0 ∨ ¬ radiusFactor > 0 ∨ ¬ (0 < cutoff ∧ cutoff ≤ 1) ∨ ¬ beta > 0
  then none
  else
    let factor := inputRate / outputRate
    let factorMax1 := if factor > 1 then factor else 1
    let theta := cutoff / factorMax1
    some { factor, radius := radiusFactor * factorMax1, radiansPerSample := π * theta,
           normalization := theta / besselI0 beta, beta }

/-- `RationalFactorResamplerKernelEval`, rational_factor_resampler_kernel.c:124-131. -/
noncomputable def eval (k : Kernel) (x : ℝ) : ℝ :=
  let x := |x|
  let omega := k.radiansPerSample * x
  let sinc := if omega < 1e-8 then 1 else sin omega / omega
  k.normalization * sinc * kaiserWindow (x / k.radius) k.beta

end Verif.Resampler.Kernel
