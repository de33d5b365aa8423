import Verif.Model.Windows
import Mathlib.Analysis.SpecialFunctions.Log.Base

/-!
# Model of `WindowFunction::ComputeSpectralProperties` (audio/dsp/window_functions.cc)

`double` is modelled by the reals. The lambda of `find_if` and the comparison of `is_sorted_until` take `float`
arguments: the conversion from `double` is the parameter `toFloat`. `EvalFourierTransform` is virtual, so the transform
is a parameter too; the results of C62 say what it is for each window.
-/

namespace Verif.SpectralProperties
open Verif.Windows

/-- `WindowFunction::SpectralProperties`, window_functions.h:119-129. -/
structure Properties where
  mainLobeFwhm : ℝ
  mainLobeEnergyRatio : ℝ
  highestSidelobeDb : ℝ

/-- `df`, window_functions.cc:158-160. -/
noncomputable def df : ℝ := 3 / (601 - 1)

/-- `total_energy`, window_functions.cc:150-156; `samples` are the memoized samples. -/
noncomputable def totalEnergy (r : ℝ) (samples : List ℝ) : ℝ :=
  samples.foldl (fun total s => total + s * s) (1 / 2) * (2 * (r / samples.length))

/-- `energy`, window_functions.cc:161-164. -/
noncomputable def energies (ft : ℝ → ℝ) : List ℝ := (List.range 601).map fun k : ℕ => ft (df * k) ^ 2

open Classical in
/-- `std::find_if` for the half maximum, window_functions.cc:167-169: the index found, the length if there is none. -/
noncomputable def halfCutoff (toFloat : ℝ → ℝ) (half : ℝ) (energy : List ℝ) : ℕ :=
  (energy.takeWhile fun e => ¬ toFloat e ≤ half).length

open Classical in
/-- `std::is_sorted_until(first, end, std::greater<float>())`, window_functions.cc:171-172: the number of elements from
the first up to the first one that is greater than its predecessor. -/
noncomputable def sortedUntil (toFloat : ℝ → ℝ) : List ℝ → ℕ
  | [] => 0
  | [_] => 1
  | a :: b :: rest => if toFloat a < toFloat b then 1 else 1 + sortedUntil toFloat (b :: rest)

/-- `std::max_element` of a nonempty range, window_functions.cc:187. -/
noncomputable def maxElement (l : List ℝ) : ℝ := l.tail.foldl max (l.headD 0)

/-- `ComputeSpectralProperties`, window_functions.cc:147-189; `none` is `LOG(FATAL)`. -/
noncomputable def compute (toFloat : ℝ → ℝ) (w : Window) (memo : List ℝ) (ft : ℝ → ℝ) : Option Properties :=
  let samples := memoize w memo
  let total := totalEnergy w.radius samples
  let energy := energies ft
  let e0 := energy.headD 0
  let cutoff := halfCutoff toFloat (1 / 2 * e0) energy
  let lobeEnd := cutoff + sortedUntil toFloat (energy.drop cutoff)
  if lobeEnd = energy.length then none
  else
    let lobe := ((energy.take lobeEnd).drop 1).foldl (· + ·) (1 / 2 * e0) * (2 * df)
    some {
      mainLobeFwhm := 2 * df * cutoff
      mainLobeEnergyRatio := lobe / total
      highestSidelobeDb := 10 / Real.log 10 * Real.log (maxElement (energy.drop lobeEnd) / e0) }

end Verif.SpectralProperties
