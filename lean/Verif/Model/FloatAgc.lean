import Verif.Model.Agc
import Verif.Model.Rounding
import Verif.Model.FastFun

/-!
# `audio/dsp/portable/auto_gain_control.{h,c}` with the arithmetic of the machine

The state of `Verif.Agc` with `float` fields, every operation rounded, and `FastPow` at the level of bits
(`Verif.FastFun`). `AutoGainControlInit` is not repeated: the fields it computes are whatever the state holds.
-/

namespace Verif.FloatAgc
open Verif.Agc Verif.Rounding

/-- `AutoGainControlWarmUpProcess`, auto_gain_control.c:45-57. The counter is converted to `float` for the division. -/
noncomputable def warmUp (rnd : ℝ → ℝ) (s : State) (sample : ℝ) : State :=
  let s := { s with counter := s.counter + 1 }
  let s := { s with smoothedPower := rnd (s.smoothedPower + sample) }
  if s.numWarmUp < s.counter then { s with smoothedPower := rnd (s.smoothedPower / rnd s.counter) } else s

/-- `AutoGainControlProcessSample`, auto_gain_control.h:121-140: what it can make of the state, with or without a fused
multiply-add. -/
def Process (rnd : ℝ → ℝ) (s : State) (sample : ℝ) (s' : State) : Prop :=
  if s.counter ≤ s.numWarmUp then s' = warmUp rnd s sample
  else ∃ p, IsMulAdd rnd s.smootherCoeff (rnd (sample - s.smoothedPower)) s.smoothedPower p ∧
    s' = { s with smoothedPower := p }

/-- The local `smoothed_power` of `AutoGainControlGetGain`, auto_gain_control.c:68-70. -/
noncomputable def power (rnd : ℝ → ℝ) (s : State) : ℝ :=
  if s.counter ≤ s.numWarmUp then rnd (s.smoothedPower / rnd s.counter) else s.smoothedPower

/-- `AutoGainControlGetGain`, auto_gain_control.c:59-73, in single precision: `b` are the bits of the sum and `y` is the
exponent. No value if the sum is not a positive normal number. -/
def Gain (s : State) (g : ℚ) : Prop :=
  ∃ (b : ℕ) (y : ℚ), b < 255 * 2 ^ 23 ∧ ((Float32.decode b : ℚ) : ℝ) = binary32 (s.powerFloor + power binary32 s) ∧
    (y : ℝ) = s.exponent ∧ g = FastFun.fastPow b y

end Verif.FloatAgc
