import Verif.Model.RationalApproximation
import Verif.Model.Rounding

/-!
# `RationalApproximation` in floating point (audio/dsp/portable/number_util.c:40-200)

As in `Verif.Model.RationalApproximation`, with every operation on `double` rounded by `rnd` (`floor` and `fabs` are exact); the
`int` computations are the same, and checked for overflow (`none`). NaN and infinities are not modelled: the value is a real
number, and a reciprocal is only taken of a number greater than the tolerance in magnitude.
-/

namespace Verif.FloatRational
open Verif.Rounding
open Verif.RationalApproximation (Frac append bound Exit)
open Verif.NumberUtil (ck intMin intMax)

/-- The loop, portable/number_util.c:142-169; `left = max_terms - term`, at least 0. -/
noncomputable def loop (rnd : ℝ → ℝ) (tol : ℝ) (maxDen : ℤ) : ℕ → ℝ → ℤ → Frac → Frac → Option Exit
  | left, recip, term, p, c =>
    let residual := rnd (recip - term)
    if |residual| ≤ tol then some (.converged c)
    else
      let recip' := rnd (1 / residual)
      let term' := ⌊recip'⌋
      (bound maxDen p c).bind fun n =>
        match left with
        | 0 => some (.truncated n term' p c)
        | left + 1 =>
          if term' ≥ n then some (.truncated n term' p c)
          else (append c p term').bind fun c' => loop rnd tol maxDen left recip' term' c c'

/-- `FractionToDouble`, portable/number_util.c:45-47. -/
noncomputable def toDouble (rnd : ℝ → ℝ) (f : Frac) : ℝ := rnd (f.a / f.b)

/-- After the loop, portable/number_util.c:171-196. -/
noncomputable def finish (rnd : ℝ → ℝ) (value : ℝ) (n term : ℤ) (p c : Frac) : Option Frac :=
  let lower := rnd (term / 2)
  if (n : ℝ) ≥ lower then
    (if n > term then ck term else some n).bind fun n' =>
      (append c p n').bind fun s =>
        some (if (n' : ℝ) > lower ∨ |rnd (value - toDouble rnd s)| < |rnd (value - toDouble rnd c)| then s else c)
  else some c

/-- From the loop to the result without its sign, portable/number_util.c:142-196. -/
noncomputable def run (rnd : ℝ → ℝ) (tol : ℝ) (maxDen : ℤ) (left : ℕ) (recip : ℝ) (term : ℤ) (p c : Frac) (value : ℝ) :
    Option Frac :=
  (loop rnd tol maxDen left recip term p c).bind fun e =>
    match e with
    | .converged c => some c
    | .truncated n term p c => finish rnd value n term p c

/-- `RationalApproximation`, portable/number_util.c:64-200. The tests of lines 105 and 109 are exact: both sides are doubles. -/
noncomputable def rationalApproximation (rnd : ℝ → ℝ) (tol : ℝ) (maxTerms : ℤ) (value : ℝ) (maxDen : ℤ) : Option (ℤ × ℤ) :=
  if maxDen ≤ 0 then some (0, 0)
  else if value > (intMax : ℝ) - 1 / 2 then some (intMax, 1)
  else if value < (intMin : ℝ) + 1 / 2 then some (intMin, 1)
  else
    let sign : ℤ := if value < 0 then -1 else 1
    (ck ⌊|value|⌋).bind fun a =>
      (run rnd tol maxDen (maxTerms - 2).toNat |value| ⌊|value|⌋ ⟨1, 0⟩ ⟨a, 1⟩ |value|).bind fun r =>
        (ck (sign * r.a)).bind fun a => some (a, r.b)

/-- `RationalApproximation` on doubles with the default options, portable/number_util.c:6-9 (`max_terms = 47` and
`convergence_tolerance = 1e-9`, a double); also the C++ wrapper audio/dsp/number_util.cc:377-382. -/
noncomputable def approximate (value : ℝ) (maxDen : ℤ) : Option (ℤ × ℤ) :=
  rationalApproximation binary64 (binary64 (1 / 10 ^ 9)) 47 value maxDen

/-- `kernel->factor`, portable/rational_factor_resampler_kernel.c:88: the rates are floats, divided as doubles. -/
noncomputable def kernelFactor (inputRate outputRate : ℝ) : ℝ := binary64 (inputRate / outputRate)

/-- `factor_numerator` and `factor_denominator` of a resampler, resampler_q.cc:76-79 and
portable/rational_factor_resampler.c:112-118 (with the default options for the approximation). -/
noncomputable def resamplerFactor (inputRate outputRate : ℝ) (maxDen : ℤ) : Option (ℤ × ℤ) :=
  approximate (kernelFactor inputRate outputRate) maxDen

end Verif.FloatRational
