import Verif.Model.BiquadCascade
import Mathlib.Analysis.SpecialFunctions.Trigonometric.Basic
import Mathlib.Analysis.SpecialFunctions.Pow.Real
import Mathlib.Analysis.SpecialFunctions.Trigonometric.Arctan

/-!
# Model of the second-order filter designs

`audio/linear_filters/discretization.{h,cc}` and `audio/linear_filters/biquad_filter_design.cc`, over the
reals (rounding, and the `float` parameters of some designs, are not modelled). `none`: a `CHECK` fails.
-/

namespace Verif.FilterDesign
open Verif.BiquadCascade

/-- `BilinearMap`, discretization.cc:25-37. -/
def bilinearMap (p : List ℝ) (K : ℝ) : List ℝ :=
  let c0 := p.getD 0 0 * K * K
  let c1 := p.getD 1 0 * K
  let c2 := p.getD 2 0
  [c0 + c1 + c2, 2 * (c2 - c0), c0 - c1 + c2]

open Classical in
/-- `ComputeKForFrequencyMatch`, discretization.cc:45-51. -/
noncomputable def computeK (match_hz rate : ℝ) : ℝ :=
  if match_hz < rate * (1 / 10 ^ 7) then 2 * rate
  else 2 * Real.pi * match_hz / Real.tan (Real.pi * match_hz / rate)

/-- `BiquadFilterCoefficients::Normalize`, biquad_filter_coefficients.h:78-82. -/
noncomputable def normalize (s : Stage ℝ) : Stage ℝ :=
  ⟨s.b.map (· / s.a.getD 0 0), s.a.map (· / s.a.getD 0 0)⟩

open Classical in
/-- `BilinearTransform` of a second-order filter, discretization.cc:54-67. -/
noncomputable def bilinearTransform (num den : List ℝ) (rate match_hz : ℝ) : Option (Stage ℝ) :=
  if num.length = 3 ∧ den.length = 3 ∧ 0 < rate ∧ 0 ≤ match_hz ∧ match_hz < rate / 2 then
    let K := computeK match_hz rate
    some (normalize ⟨bilinearMap num K, bilinearMap den K⟩)
  else none

/-- `BilinearPrewarp`, discretization.h:72-74. -/
noncomputable def prewarp (hz rate : ℝ) : ℝ := 2 * rate * Real.tan (Real.pi * hz / rate)

/-- `CheckArguments`, biquad_filter_design.cc:26-31. -/
def argumentsOk (rate corner Q : ℝ) : Prop := corner < rate / 2 ∧ 0 < corner ∧ 0 < Q

/-- `CheckArgumentsBandEdges`, biquad_filter_design.cc:33-38. -/
def bandEdgesOk (rate lower upper : ℝ) : Prop := rate / 2 > upper ∧ upper > lower ∧ 0 < lower

open Classical in
/-- `LowpassBiquadFilterCoefficients`, biquad_filter_design.cc:41-51. -/
noncomputable def lowpass (rate corner Q : ℝ) : Option (Stage ℝ) :=
  if argumentsOk rate corner Q then
    let w := 2 * Real.pi * corner
    bilinearTransform [0, 0, w * w] [1, w / Q, w * w] rate corner
  else none

open Classical in
/-- `HighpassBiquadFilterCoefficients`, biquad_filter_design.cc:53-63. -/
noncomputable def highpass (rate corner Q : ℝ) : Option (Stage ℝ) :=
  if argumentsOk rate corner Q then
    let w := 2 * Real.pi * corner
    bilinearTransform [1, 0, 0] [1, w / Q, w * w] rate corner
  else none

/-- `AnalogBandpassBiquadFilterCoefficients`, biquad_filter_design.cc:66-72. -/
noncomputable def analogBandpass (center Q : ℝ) : Stage ℝ :=
  let w := 2 * Real.pi * center
  ⟨[0, w / Q, 0], [1, w / Q, w * w]⟩

open Classical in
/-- `BandpassBiquadFilterCoefficients`, biquad_filter_design.cc:74-81. -/
noncomputable def bandpass (rate center Q : ℝ) : Option (Stage ℝ) :=
  if argumentsOk rate center Q then
    let s := analogBandpass center Q
    bilinearTransform s.b s.a rate center
  else none

open Classical in
/-- `BandstopBiquadFilterCoefficients`, biquad_filter_design.cc:83-91. -/
noncomputable def bandstop (rate center Q : ℝ) : Option (Stage ℝ) :=
  if argumentsOk rate center Q then
    let w := 2 * Real.pi * center
    bilinearTransform [1, 0, w * w] [1, w / Q, w * w] rate center
  else none

open Classical in
/-- `RangedBandpassBiquadFilterCoefficients`, biquad_filter_design.cc:93-108. -/
noncomputable def rangedBandpass (rate lower upper : ℝ) : Option (Stage ℝ) :=
  if bandEdgesOk rate lower upper then
    let w1 := prewarp lower rate
    let w2 := prewarp upper rate
    bilinearTransform [0, w2 - w1, 0] [1, w2 - w1, w2 * w1] rate 0
  else none

open Classical in
/-- `RangedBandstopBiquadFilterCoefficients`, biquad_filter_design.cc:110-125. -/
noncomputable def rangedBandstop (rate lower upper : ℝ) : Option (Stage ℝ) :=
  if bandEdgesOk rate lower upper then
    let w1 := prewarp lower rate
    let w2 := prewarp upper rate
    bilinearTransform [1, 0, w2 * w1] [1, w2 - w1, w2 * w1] rate 0
  else none

open Classical in
/-- `LowShelfBiquadFilterCoefficients`, biquad_filter_design.cc:127-147. -/
noncomputable def lowShelf (rate corner Q gain : ℝ) : Option (Stage ℝ) :=
  if argumentsOk rate corner Q ∧ 0 < gain then
    let sqrtk := √gain
    let omega := 2 * Real.pi * corner / rate
    let beta := Real.sin omega * √sqrtk / Q
    let m := (sqrtk - 1) * Real.cos omega
    let p := (sqrtk + 1) * Real.cos omega
    some ⟨[sqrtk * ((sqrtk + 1) - m + beta), sqrtk * 2 * ((sqrtk - 1) - p), sqrtk * ((sqrtk + 1) - m - beta)],
      [(sqrtk + 1) + m + beta, -2 * ((sqrtk - 1) + p), (sqrtk + 1) + m - beta]⟩
  else none

open Classical in
/-- `HighShelfBiquadFilterCoefficients`, biquad_filter_design.cc:149-169. -/
noncomputable def highShelf (rate corner Q gain : ℝ) : Option (Stage ℝ) :=
  if argumentsOk rate corner Q ∧ 0 < gain then
    let sqrtk := √gain
    let omega := 2 * Real.pi * corner / rate
    let beta := Real.sin omega * √sqrtk / Q
    let m := (sqrtk - 1) * Real.cos omega
    let p := (sqrtk + 1) * Real.cos omega
    some ⟨[sqrtk * ((sqrtk + 1) + m + beta), sqrtk * -2 * ((sqrtk - 1) + p), sqrtk * ((sqrtk + 1) + m - beta)],
      [(sqrtk + 1) - m + beta, 2 * ((sqrtk - 1) - p), (sqrtk + 1) - m - beta]⟩
  else none

open Classical in
/-- `ParametricPeakBiquadFilterCoefficients`, biquad_filter_design.cc:171-193. -/
noncomputable def parametricPeak (rate center Q gain : ℝ) : Option (Stage ℝ) :=
  if argumentsOk rate center Q ∧ 0 ≤ gain then
    let r := analogBandpass center Q
    bilinearTransform [r.b.getD 0 0 + r.a.getD 0 0, gain * r.a.getD 1 0, r.b.getD 2 0 + r.a.getD 2 0] r.a rate
      center
  else none

open Classical in
/-- `ParametricPeakBiquadFilterSymmetricCoefficients`, biquad_filter_design.cc:195-203. -/
noncomputable def parametricPeakSymmetric (rate center Q gain : ℝ) : Option (Stage ℝ) :=
  parametricPeak rate center (if gain < 1 then Q * gain else Q) gain

/-- `InfimalGroupDelayForAllPass`, biquad_filter_design.cc:251-258. -/
noncomputable def infimalGroupDelay (rate corner phase : ℝ) : ℝ :=
  |Real.sin phase| / rate / Real.sin (2 * Real.pi * corner / rate)

/-- `CheckAllPassConfiguration`, biquad_filter_design.cc:261-273. -/
def allpassOk (rate corner phase delay : ℝ) : Prop :=
  0 ≤ delay ∧ 1 / 10 ^ 5 ≤ |Real.sin phase| ∧ infimalGroupDelay rate corner phase ≤ delay

/-- `MinimumGroupDelayForAllPass`, biquad_filter_design.cc:275-289. -/
noncomputable def minimumGroupDelay (rate corner phase : ℝ) : ℝ := 1.001 * infimalGroupDelay rate corner phase

/-- `k`, biquad_filter_design.cc:223-225. -/
noncomputable def allpassK (rate corner phase delay : ℝ) : ℝ :=
  delay * rate * Real.sin (2 * Real.pi * corner / rate) / Real.sin phase

/-- `omega_0`, biquad_filter_design.cc:226. -/
noncomputable def allpassOmega0 (rate corner phase delay : ℝ) : ℝ :=
  prewarp corner rate * √((allpassK rate corner phase delay - 1) / (allpassK rate corner phase delay + 1))

/-- `Q`, biquad_filter_design.cc:227-230. -/
noncomputable def allpassQ (rate corner phase delay : ℝ) : ℝ :=
  (1 + Real.cos phase) / Real.sin phase * allpassOmega0 rate corner phase delay * prewarp corner rate /
    (prewarp corner rate * prewarp corner rate -
      allpassOmega0 rate corner phase delay * allpassOmega0 rate corner phase delay)

/-- The denominator `q_p_sq_plus_one + p`, biquad_filter_design.cc:233-236. -/
noncomputable def allpassDenominator (rate corner phase delay : ℝ) : ℝ :=
  let p := allpassOmega0 rate corner phase delay / rate / 2
  allpassQ rate corner phase delay * (p * p + 1) + p

open Classical in
/-- `AllpassBiquadFilterCoefficients`, biquad_filter_design.cc:207-238. The theorems that use it show that
the divisors are not zero, or that they are. -/
noncomputable def allpass (rate corner phase delay : ℝ) : Option (Stage ℝ) :=
  if corner < rate / 2 ∧ |phase| > 1 / 10 ^ 5 ∧ |Real.sin phase| > 1 / 10 ^ 5 ∧ 0 < corner ∧
      allpassOk rate corner phase delay then
    let Q := allpassQ rate corner phase delay
    let p := allpassOmega0 rate corner phase delay / rate / 2
    let b0 := (Q * (p * p + 1) - p) / allpassDenominator rate corner phase delay
    let b1 := 2 * (Q * (p * p - 1)) / allpassDenominator rate corner phase delay
    some ⟨[b0, b1, 1], [1, b1, b0]⟩
  else none

/-- `AllpassBiquadFilterCoefficients` without a group delay, biquad_filter_design.cc:240-248. -/
noncomputable def allpassMinimum (rate corner phase : ℝ) : Option (Stage ℝ) :=
  allpass rate corner phase (minimumGroupDelay rate corner phase)

/-- `EvalTransferFunction` at `std::polar(1.0, ω)`, biquad_filter_coefficients.h:105-108. -/
noncomputable def response (s : Stage ℝ) (ω : ℝ) : ℂ :=
  evalStage Complex.ofRealHom s (Complex.exp (ω * Complex.I))

end Verif.FilterDesign
