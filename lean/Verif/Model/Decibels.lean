import Verif.Model.Drc
import Mathlib.Analysis.SpecialFunctions.Log.Base

/-!
# Model of audio/dsp/decibels.h

Over the reals (rounding not modelled). The array versions are applied element by element. Arguments of the
conversions to decibels must be positive: for zero the code returns minus infinity and for negative arguments NaN,
for which this model gives no meaning.
-/

namespace Verif.Decibels
open Verif.Drc

/-- `AmplitudeRatioToDecibels` of a scalar, decibels.h:34-37. -/
noncomputable def amplitudeToDbScalar (x : ℝ) : ℝ := 20 * Real.logb 10 x

/-- `AmplitudeRatioToDecibels` of an array, decibels.h:39-44. -/
noncomputable def amplitudeToDbArray (xs : List ℝ) : List ℝ := xs.map amplitudeToDb

/-- `DecibelsToAmplitudeRatio` of a scalar, decibels.h:46-50. -/
noncomputable def dbToAmplitudeScalar (x : ℝ) : ℝ := Real.exp (Real.log 10 / 20 * x)

/-- `DecibelsToAmplitudeRatio` of an array, decibels.h:52-57. -/
noncomputable def dbToAmplitudeArray (xs : List ℝ) : List ℝ := xs.map dbToAmplitude

/-- `PowerRatioToDecibels` of a scalar, decibels.h:59-62. -/
noncomputable def powerToDbScalar (x : ℝ) : ℝ := 10 * Real.logb 10 x

/-- `PowerRatioToDecibels` of an array, decibels.h:64-69. -/
noncomputable def powerToDbArray (xs : List ℝ) : List ℝ := xs.map powerToDb

/-- `DecibelsToPowerRatio` of a scalar, decibels.h:71-75. -/
noncomputable def dbToPowerScalar (x : ℝ) : ℝ := Real.exp (Real.log 10 / 10 * x)

/-- `DecibelsToPowerRatio` of an array, decibels.h:77-82. -/
noncomputable def dbToPowerArray (xs : List ℝ) : List ℝ := xs.map dbToPower

end Verif.Decibels
