import Verif.Model.FilterDesign
import Mathlib.Analysis.SpecialFunctions.Trigonometric.Inverse
import Mathlib.Analysis.SpecialFunctions.Log.Base

/-!
# Model of the analysis functions of biquad coefficients

`RealRootsForQuadratic` of audio/dsp/porting.cc and `GetPoles`, `FindPeakFrequencyRadiansPerSample`,
`FindPeakByBisection`, `EstimateDecayTime`, `SetGainAtFrequency`, `SetPeakGain` of
audio/linear_filters/biquad_filter_coefficients.{h,cc}, over the reals and complex numbers (rounding, and the
conversions between `double` and `long double`, are not modelled). `GainMagnitudeAtFrequency` is
`‖response s ω‖`.
-/

namespace Verif.BiquadAnalysis
open Verif.BiquadCascade Verif.FilterDesign

/-- `DBL_EPSILON` and `std::numeric_limits<double>::epsilon()`. -/
noncomputable def eps : ℝ := 1 / 2 ^ 52

/-- Result of `RealRootsForQuadratic`: its return value and the numbers stored in `*r1`, `*r2` (which are not
written for `kNoRealRoots`). A second root `none` is `HUGE_VAL`. -/
inductive Roots where
  | noReal
  | ambiguous (r1 r2 : ℝ)
  | two (r1 : ℝ) (r2 : Option ℝ)

open Classical in
/-- `MathUtil::RealRootsForQuadratic`, porting.cc:23-69. -/
noncomputable def realRoots (a b c : ℝ) : Roots :=
  if a = 0 then
    if b = 0 then
      if c = 0 then .ambiguous 0 0 else .noReal
    else .two (-c / b) none
  else
    let d := b * b - 4 * a * c
    if |d| ≤ eps * max (2 * b * b) |4 * a * c| then .ambiguous (-b / 2 / a) (-b / 2 / a)
    else if d < 0 then .noReal
    else
      let q := -(1 / 2) * (b + (if 0 ≤ b then √d else -√d))
      .two (q / a) (some (c / q))

/-- The values of `root` in the loop biquad_filter_coefficients.cc:288-296. -/
def Roots.inOrder : Roots → List ℝ
  | .noReal => []
  | .ambiguous r1 r2 => [r2, r1]
  | .two r1 (some r2) => [r2, r1]
  | .two r1 none => [r1]

/-- The coefficients `B2, B1, B0` and `A2, A1, A0`, biquad_filter_coefficients.cc:233-238. -/
def squareCoeffs (p : List ℝ) : ℝ × ℝ × ℝ :=
  (p.getD 2 0 * p.getD 0 0, p.getD 1 0 * (p.getD 2 0 + p.getD 0 0),
    p.getD 2 0 * p.getD 2 0 + p.getD 1 0 * p.getD 1 0 + p.getD 0 0 * p.getD 0 0)

/-- `deriv_a, deriv_b, deriv_c`, biquad_filter_coefficients.cc:276-280. -/
def derivCoeffs (s : Stage ℝ) : ℝ × ℝ × ℝ :=
  let (B2, B1, B0) := squareCoeffs s.b
  let (A2, A1, A0) := squareCoeffs s.a
  (4 * ((2 * B2 * A1 + B1 * A2) - (2 * A2 * B1 + A1 * B2)),
    2 * ((A1 * B1 + 2 * B2 * (A0 - 2 * A2)) - (B1 * A1 + 2 * A2 * (B0 - 2 * B2))),
    B1 * (A0 - 2 * A2) - A1 * (B0 - 2 * B2))

open Classical in
/-- `extrema_rads_per_sample`, biquad_filter_coefficients.cc:281-300. -/
noncomputable def extrema (s : Stage ℝ) : List ℝ :=
  let d := derivCoeffs s
  0 :: (((realRoots d.1 d.2.1 d.2.2).inOrder.filter fun r => |r| < 1).map Real.arccos) ++ [Real.pi]

open Classical in
/-- The search biquad_filter_coefficients.cc:302-310 (and the first one of `FindPeakByBisection`, 189-196): the
pair of the frequency and the gain. -/
noncomputable def search (gain : ℝ → ℝ) (best : ℝ × ℝ) : List ℝ → ℝ × ℝ
  | [] => best
  | x :: xs => search gain (if best.2 < gain x then (x, gain x) else best) xs

/-- `GainMagnitudeAtFrequency`, biquad_filter_coefficients.h:105-108. -/
noncomputable def gainAt (s : Stage ℝ) (ω : ℝ) : ℝ := ‖response s ω‖

/-- `BiquadFilterCoefficients::FindPeakFrequencyRadiansPerSample`, biquad_filter_coefficients.cc:216-312. -/
noncomputable def findPeak (s : Stage ℝ) : ℝ × ℝ := search (gainAt s) (0, 0) (extrema s)

/-- `AdjustGain`, biquad_filter_coefficients.h:143-147. -/
def adjustStage (s : Stage ℝ) (g : ℝ) : Stage ℝ := { s with b := s.b.map (· * g) }

/-- `SetGainAtFrequency`, biquad_filter_coefficients.h:133-136. -/
noncomputable def setGainAt (s : Stage ℝ) (g ω : ℝ) : Stage ℝ := adjustStage s (g / gainAt s ω)

/-- `SetPeakGain`, biquad_filter_coefficients.h:138-141. -/
noncomputable def setPeakGain (s : Stage ℝ) (g : ℝ) : Stage ℝ := setGainAt s g (findPeak s).1

/-- `std::sqrt` of a real number converted to `complex`. -/
noncomputable def csqrtOfReal (d : ℝ) : ℂ := if 0 ≤ d then ((√d : ℝ) : ℂ) else ⟨0, √(-d)⟩

open Classical in
/-- `GetPoles`, biquad_filter_coefficients.cc:314-328. -/
noncomputable def getPoles (s : Stage ℝ) : ℂ × ℂ :=
  let a0 := s.a.getD 0 0
  let a1 := s.a.getD 1 0
  let a2 := s.a.getD 2 0
  let d := a1 * a1 - 4 * a0 * a2
  if |d| ≤ eps * max (2 * a1 * a1) |4 * a0 * a2| then
    (((-a1 / (2 * a0) : ℝ) : ℂ), ((-a1 / (2 * a0) : ℝ) : ℂ))
  else
    let q : ℂ := -(1 / 2) * ((a1 : ℂ) + (if a1 < 0 then -csqrtOfReal d else csqrtOfReal d))
    (q / a0, a2 / q)

open Classical in
/-- `EstimateDecayTime`, biquad_filter_coefficients.cc:330-381; `none` is infinity. For poles at zero the decay
rate is infinite and the quotient of the last line is zero. -/
noncomputable def decayTime (s : Stage ℝ) (decayDb : ℝ) : Option ℝ :=
  let m := max ‖(getPoles s).1‖ ‖(getPoles s).2‖
  if 1 ≤ m then none
  else if m = 0 then some 2
  else some (decayDb / (-20 * Real.logb 10 m) + 2)

open Classical in
/-- The refinement loop of `FindPeakByBisection`, biquad_filter_coefficients.cc:199-213, with `n` iterations
left. -/
noncomputable def refine (fn : ℝ → ℝ) : ℕ → ℝ → ℝ × ℝ → ℝ × ℝ
  | 0, _, best => best
  | n + 1, step, best =>
    let step := step / 2
    let best :=
      if best.2 < fn (best.1 + step) then (best.1 + step, fn (best.1 + step))
      else if best.2 < fn (best.1 - step) then (best.1 - step, fn (best.1 - step))
      else best
    if step < 1 / 10 ^ 9 + 5 / 10 ^ 6 * best.1 then best else refine fn n step best

open Classical in
/-- `FindPeakByBisection`, biquad_filter_coefficients.cc:179-215; `none`: the `CHECK` fails. -/
noncomputable def bisection (fn : ℝ → ℝ) (minimum maximum : ℝ) : Option (ℝ × ℝ) :=
  if minimum < maximum then
    let step := (maximum - minimum) / 99
    some (refine fn 20 step
      (search fn (0, 0) ((List.range 98).map fun k : ℕ => minimum + ((k : ℝ) + 1) * step)))
  else none

/-- `BiquadFilterCascadeCoefficients::FindPeakFrequencyRadiansPerSample`,
biquad_filter_coefficients.cc:460-466. -/
noncomputable def findCascadePeak (cs : List (Stage ℝ)) : Option (ℝ × ℝ) :=
  bisection (fun ω => ‖evalCascade Complex.ofRealHom cs (Complex.exp (ω * Complex.I))‖) 0 Real.pi

end Verif.BiquadAnalysis
