import Verif.Model.Rounding

/-!
# The compression curves of audio/dsp/hifi/dynamic_range_control_functions.h in floating point

The scalar functions that are applied to each element, with every operation rounded and products and sums contracted or not.
Overflow, infinities and NaN are not modelled.
-/

namespace Verif.FloatDrc
open Verif.Rounding

/-- `SmoothReLU` stores `y`, dynamic_range_control_functions.h:38-53. -/
def IsSmoothReLU (rnd : ℝ → ℝ) (input center width y : ℝ) : Prop :=
  if 0 < width then
    let start := rnd (center - rnd (width / 2))
    let temp := rnd (input - start)
    let kneeInv := rnd (1 / width)
    ∃ s, IsMulAdd rnd (rnd (min (max temp 0) width * temp)) kneeInv (max (rnd (temp - width)) 0) s ∧ y = rnd (-(1 / 2) * s)
  else y = min (rnd (center - input)) 0

/-- `OutputLevelCompressor` stores `out`, dynamic_range_control_functions.h:89-97. -/
def IsCompressor (rnd : ℝ → ℝ) (input threshold ratio knee out : ℝ) : Prop :=
  ∃ y, IsSmoothReLU rnd input threshold knee y ∧ IsMulAdd rnd y (rnd (1 - rnd (1 / ratio))) input out

/-- `OutputLevelLimiter` stores `out`, dynamic_range_control_functions.h:99-106. -/
def IsLimiter (rnd : ℝ → ℝ) (input threshold knee out : ℝ) : Prop :=
  ∃ y, IsSmoothReLU rnd input threshold knee y ∧ out = rnd (y + input)

/-- `OutputLevelExpander` stores `out`, dynamic_range_control_functions.h:129-138. -/
def IsExpander (rnd : ℝ → ℝ) (input threshold ratio knee out : ℝ) : Prop :=
  ∃ y, IsSmoothReLU rnd input threshold knee y ∧
    IsMulAdd rnd (rnd (rnd (input - threshold) + y)) (rnd (ratio - 1)) input out

end Verif.FloatDrc
