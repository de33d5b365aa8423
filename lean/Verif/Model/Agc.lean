import Mathlib.Analysis.SpecialFunctions.Pow.Real
import Mathlib.Algebra.Order.Floor.Ring
import Mathlib.Data.Real.Archimedean

/-!
# Model of `audio/dsp/portable/auto_gain_control.{h,c}`

Over the reals: rounding is not modelled, and `FastPow` (line 72) is the exact power function; its
accuracy is the subject of C41.
-/

namespace Verif.Agc

/-- `AutoGainControlState`, auto_gain_control.h:64-71. -/
structure State where
  smootherCoeff : ℝ
  exponent : ℝ
  smoothedPower : ℝ
  powerFloor : ℝ
  numWarmUp : ℤ
  counter : ℤ

/-- Outcome of `AutoGainControlInit`. -/
inductive Init where
  /-- Returns 1, with the state initialised. -/
  | ok (s : State)
  /-- Returns 0. -/
  | fail
  /-- Undefined behaviour: the float to int conversion of line 22 does not fit. -/
  | undefined

/-- `AutoGainControlReset`, auto_gain_control.c:31-34. -/
def reset (s : State) : State := { s with smoothedPower := 1, counter := 1 }

/-- `AutoGainControlInit`, auto_gain_control.c:8-29, for a non-NULL state. `garbage` is the
uninitialised content of the state. -/
noncomputable def init (garbage : State) (rate timeConstant strength floor : ℝ) : Init :=
  if ¬ 0 < rate ∨ ¬ 0 < timeConstant ∨ ¬ (0 ≤ strength ∧ strength ≤ 1) ∨ ¬ 0 < floor then .fail
  else if 2 ^ 31 ≤ rate * timeConstant + 1 / 2 then .undefined
  else .ok (reset { garbage with
    numWarmUp := ⌊rate * timeConstant + 1 / 2⌋
    smootherCoeff := 1 - Real.exp (-1 / (timeConstant * rate))
    exponent := -(1 / 2) * strength
    powerFloor := floor })

/-- `AutoGainControlWarmUpProcess`, auto_gain_control.c:45-57. -/
noncomputable def warmUp (s : State) (sample : ℝ) : State :=
  let s := { s with counter := s.counter + 1 }
  let s := { s with smoothedPower := s.smoothedPower + sample }
  if s.numWarmUp < s.counter then { s with smoothedPower := s.smoothedPower / s.counter } else s

/-- `AutoGainControlProcessSample`, auto_gain_control.h:121-140. -/
noncomputable def process (s : State) (sample : ℝ) : State :=
  if s.counter ≤ s.numWarmUp then warmUp s sample
  else { s with smoothedPower := s.smoothedPower + s.smootherCoeff * (sample - s.smoothedPower) }

/-- The local `smoothed_power` of `AutoGainControlGetGain`, auto_gain_control.c:68-70. -/
noncomputable def power (s : State) : ℝ :=
  if s.counter ≤ s.numWarmUp then s.smoothedPower / s.counter else s.smoothedPower

/-- `AutoGainControlGetGain`, auto_gain_control.c:59-73. -/
noncomputable def gain (s : State) : ℝ := (s.powerFloor + power s) ^ s.exponent

end Verif.Agc
