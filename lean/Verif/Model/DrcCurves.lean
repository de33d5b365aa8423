import Mathlib.Data.Real.Basic

/-!
# Model of `audio/dsp/hifi/dynamic_range_control_functions.h` and `.cc`

The functions are elementwise Eigen expressions; the model is the scalar function applied to each
element. `float`s are real numbers; rounding, infinities and NaNs are not modelled.
-/

namespace Verif.Drc

/-- `SmoothReLU`, dynamic_range_control_functions.h:38-53. -/
noncomputable def smoothReLU (input center width : ℝ) : ℝ :=
  if 0 < width then (
    let start := center - width / 2
    let temp := input - start
    let kneeInv := 1 / width;
    -(1 / 2) * (min (max temp 0) width * temp * kneeInv + max (temp - width) 0))
  else
    min (center - input) 0

/-- `OutputLevelCompressor`, dynamic_range_control_functions.h:89-97. -/
noncomputable def compressor (input threshold ratio knee : ℝ) : ℝ :=
  let out := smoothReLU input threshold knee
  let slope := 1 - 1 / ratio
  input + out * slope

/-- `OutputLevelLimiter`, dynamic_range_control_functions.h:99-106. -/
noncomputable def limiter (input threshold knee : ℝ) : ℝ :=
  smoothReLU input threshold knee + input

/-- `OutputLevelExpander`, dynamic_range_control_functions.h:129-138. -/
noncomputable def expander (input threshold ratio knee : ℝ) : ℝ :=
  let out := smoothReLU input threshold knee
  let slope := ratio - 1
  input + (input - threshold + out) * slope

/-- `DynamicRangeControlNonlinearityParams`, dynamic_range_control_functions.h:144-162. -/
structure Region where
  ratio : ℝ := 1
  threshold : ℝ := 0
  knee : ℝ := 0

/-- `TwoWayCompressionParams`, dynamic_range_control_functions.h:211-229. -/
structure TwoWay where
  expander : Region
  upwards : Region
  soft : Region
  hard : Region

/-- `ParamError`, dynamic_range_control_functions.h:233-237. -/
inductive ParamError where
  | none
  | threshold
  | ratio
deriving DecidableEq

/-- `VerifyParams`, dynamic_range_control_functions.cc:22-68. -/
noncomputable def verifyParams (p : TwoWay) : ParamError :=
  if p.upwards.threshold < p.expander.threshold then .threshold
  else if p.soft.threshold < p.upwards.threshold then .threshold
  else if p.hard.threshold < p.soft.threshold then .threshold
  else if p.expander.ratio < 1 then .ratio
  else if p.upwards.ratio < 1 then .ratio
  else if p.hard.ratio < p.soft.ratio then .ratio
  else .none

/-- `ComputeAdjustedRatio`, dynamic_range_control_functions.h:241-243. -/
noncomputable def adjustedRatio (desired previous : ℝ) : ℝ := desired / previous

/-- `OutputLevelTwoWayCompressor`, dynamic_range_control_functions.h:255-321. `none`: the `CHECK_EQ`
of line 259 fails. -/
noncomputable def twoWay (input : ℝ) (p : TwoWay) : Option ℝ :=
  if verifyParams p = .none then (
    let temp := compressor input p.soft.threshold p.soft.ratio p.soft.knee
    let hardRatio := adjustedRatio p.hard.ratio p.soft.ratio
    let hardThreshold := compressor p.hard.threshold p.soft.threshold p.soft.ratio 0
    let temp := compressor temp hardThreshold hardRatio p.hard.knee
    let upRatio := 1 / p.upwards.ratio
    let temp := expander temp p.upwards.threshold upRatio p.upwards.knee
    let expRatio := adjustedRatio p.expander.ratio upRatio
    let expThreshold := expander p.expander.threshold p.upwards.threshold upRatio 0
    some (expander temp expThreshold expRatio p.expander.knee))
  else none

end Verif.Drc
