import Verif.Model.Rounding
import Mathlib.Algebra.Order.Floor.Ring

/-!
# Durations in seconds and numbers of samples, in floating point

The parameters and the sample rates are floats, and every operation is rounded; overflow is not modelled.
-/

namespace Verif.FloatDurations
open Verif.Rounding

/-- `lookahead_samples` of `DynamicRangeControl::Init`, hifi/dynamic_range_control.cc:58, and of
`Loudness1771TwoWayCompressor::Init`, loudness/loudness_1771_two_way_compressor.cc:83 (`std::round` of a nonnegative float). -/
noncomputable def lookaheadSamples (rnd : ℝ → ℝ) (lookaheadS sampleRateHz : ℝ) : ℤ := ⌊rnd (lookaheadS * sampleRateHz) + 1 / 2⌋

/-- `n` is `num_warm_up_samples` of `AutoGainControlInit`, portable/auto_gain_control.c:22; the product and the sum may be
contracted. -/
def IsWarmUpSamples (rnd : ℝ → ℝ) (sampleRateHz timeConstantS : ℝ) (n : ℤ) : Prop :=
  ∃ y, IsMulAdd rnd sampleRateHz timeConstantS (1 / 2) y ∧ n = ⌊y⌋

end Verif.FloatDurations
