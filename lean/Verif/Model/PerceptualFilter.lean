import Verif.Model.PoleZero

/-!
# Model of audio/linear_filters/perceptual_filter_design.cc

Over the reals and complex numbers (rounding is not modelled; the decimal constants are exact).
-/

namespace Verif.PerceptualFilter
open Verif.BiquadCascade Verif.FilterDesign Verif.PoleZero

/-- `PerceptualWeightingType`, perceptual_filter_design.h:47-54. -/
inductive Weighting
  | a
  | b
  | c
  | d
  | rlb
  | k

/-- The tables of zeros, poles and gains, perceptual_filter_design.cc:38-77. -/
noncomputable def table : Weighting → PZ
  | .a => ⟨[0, 0, 0, 0], [-129.4, -129.4, -676.4, -4636.0, -76655.0, -76655.0], [], [], 7.39705e9⟩
  | .b => ⟨[0, 0, 0], [-129.4, -129.4, -996.9, -76655.0, -76655.0], [], [], 5.99185e9⟩
  | .c => ⟨[0, 0], [-129.4, -129.4, -76655, -76655], [], [], 5.91797e9⟩
  | .d => ⟨[0], [-1776.3, -7288.5], [⟨-3266, 5505.2⟩], [⟨-10757, 16512.02⟩], 91104.32⟩
  | .rlb => ⟨[0, 0], [-240, -240], [], [], 1.0⟩
  | .k => ⟨[0, 0], [-240, -240], [⟨-5943.129, 5976.7400⟩], [⟨-7471.63, 7534.19⟩], 1.585⟩

open Classical in
/-- `PerceptualLoudnessFilterPolesAndZeros`, perceptual_filter_design.cc:24-118: the roots below the Nyquist
frequency are kept in order, the gain is multiplied or divided by the magnitudes of the others. -/
noncomputable def dropRoots (t : PZ) (nyquist : ℝ) : PZ :=
  let gain := t.loneZeros.foldl (fun g z => if |z| < nyquist then g else g * |z|) t.gain
  let gain := t.pairedZeros.foldl (fun g z => if ‖z‖ < nyquist then g else g * (‖z‖ * ‖z‖)) gain
  let gain := t.lonePoles.foldl (fun g p => if |p| < nyquist then g else g / |p|) gain
  let gain := t.pairedPoles.foldl (fun g p => if ‖p‖ < nyquist then g else g / (‖p‖ * ‖p‖)) gain
  { loneZeros := t.loneZeros.filter fun z => |z| < nyquist
    pairedZeros := t.pairedZeros.filter fun z => ‖z‖ < nyquist
    lonePoles := t.lonePoles.filter fun p => |p| < nyquist
    pairedPoles := t.pairedPoles.filter fun p => ‖p‖ < nyquist
    gain := gain }

/-- `PerceptualLoudnessFilterPolesAndZeros`, perceptual_filter_design.cc:24-118. -/
noncomputable def polesAndZeros (w : Weighting) (rate : ℝ) : PZ := dropRoots (table w) (2 * Real.pi * rate / 2)

/-- `PerceptualLoudnessFilterCoefficients`, perceptual_filter_design.cc:120-126; `ε` is the threshold of
`Simplify`. `BilinearTransform` with two arguments matches at frequency 0, discretization.cc:108-112. -/
noncomputable def coefficients (ε : ℝ) (w : Weighting) (rate : ℝ) : Option (List (Stage ℝ)) :=
  ((polesAndZeros w rate).bilinear (computeK 0 rate)).getCoefficients ε

end Verif.PerceptualFilter
