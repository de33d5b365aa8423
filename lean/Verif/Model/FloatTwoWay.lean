import Verif.Model.FloatDrcCurves
import Verif.Model.DrcCurves

/-! # `OutputLevelTwoWayCompressor` of audio/dsp/hifi/dynamic_range_control_functions.h in floating point -/

namespace Verif.FloatDrc
open Verif.Drc

/-- `OutputLevelTwoWayCompressor` stores `out`, dynamic_range_control_functions.h:255-321. `rnd` rounds to float and `rnd64` to
double: the quotient of lines 300-301 is computed in double and stored in a float. When the `CHECK_EQ` of line 259 fails there is
no result. -/
def IsTwoWay (rnd rnd64 : ℝ → ℝ) (input : ℝ) (p : TwoWay) (out : ℝ) : Prop :=
  verifyParams p = .none ∧
  ∃ soft hardThreshold hard up expThreshold,
    let hardRatio := rnd (p.hard.ratio / p.soft.ratio)
    let upRatio := rnd (rnd64 (1 / p.upwards.ratio))
    let expRatio := rnd (p.expander.ratio / upRatio)
    IsCompressor rnd input p.soft.threshold p.soft.ratio p.soft.knee soft ∧
    IsCompressor rnd p.hard.threshold p.soft.threshold p.soft.ratio 0 hardThreshold ∧
    IsCompressor rnd soft hardThreshold hardRatio p.hard.knee hard ∧
    IsExpander rnd hard p.upwards.threshold upRatio p.upwards.knee up ∧
    IsExpander rnd p.expander.threshold p.upwards.threshold upRatio 0 expThreshold ∧
    IsExpander rnd up expThreshold expRatio p.expander.knee out

end Verif.FloatDrc
