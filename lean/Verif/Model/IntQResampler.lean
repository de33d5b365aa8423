import Verif.Model.IntResampler

/-!
# Model of the `int` arithmetic of the size functions in audio/dsp/resampler_q.h

The arguments and the results are `int`s of 32 bits, here integers. A sum of `int`s that is not representable is undefined
behaviour, and the result is `none`. The products and quotients are on `int64`, where they cannot overflow: the factors are
`int`s. The conversion of `int64` to `int` keeps the lowest 32 bits, as gcc and clang do.
-/

namespace Verif.IntQResampler
open Verif.Resampler (Cfg St)
open Verif.IntResampler (toInt)

universe u

variable {R M : Type u}

/-- A sum of two `int`s. -/
def addInt (x y : ℤ) : Option ℤ := if -2 ^ 31 ≤ x + y ∧ x + y < 2 ^ 31 then some (x + y) else none

/-- `QResamplerFilters::MaxOutputFrames`, resampler_q.h:826-831. -/
def maxOutputFrames (c : Cfg R) (maxInputFrames : ℤ) : ℤ :=
  toInt ((maxInputFrames * c.den + c.num - 1).tdiv c.num)

/-- `QResampler::NextNumOutputFrames`, resampler_q.h:441-451. -/
def nextNumOutputFrames (c : Cfg R) (s : St M) (numInputFrames : ℤ) : Option ℤ :=
  (addInt 1 numInputFrames).bind fun x =>
  (addInt x s.delayed.length).bind fun x =>
  (addInt x (-c.taps)).bind fun x =>
  let minConsumedInput := max x 0
  if minConsumedInput ≤ 0 then some 0
  else some (toInt ((minConsumedInput * c.den - s.phase + c.num - 1).tdiv c.num))

/-- `QResamplerFilters::MaxInputFramesToProduce`, resampler_q.h:834-843. -/
def maxInputFramesToProduce (c : Cfg R) (numOutputFrames : ℤ) : Option ℤ :=
  if numOutputFrames ≤ 0 then some 0
  else addInt (toInt (((numOutputFrames - 1) * c.num + c.den - 1).tdiv c.den)) c.taps

/-- `QResampler::NextNumInputFramesToProduce`, resampler_q.h:471-480. -/
def nextNumInputFramesToProduce (c : Cfg R) (s : St M) (numOutputFrames : ℤ) : Option ℤ :=
  if numOutputFrames ≤ 0 then some 0
  else do
    let x ← addInt (toInt (((numOutputFrames - 1) * c.num + s.phase).tdiv c.den)) c.taps
    addInt x (-s.delayed.length)

end Verif.IntQResampler
