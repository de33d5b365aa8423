import Verif.Model.FftUtil
import Verif.Model.Rounding

/-!
# The hard band-pass filters of audio/dsp/kiss_fft_util.cc in floating point

Which bins pass, with every operation on `float` rounded by `rnd`. The transforms themselves are not modelled here: the functions
on signals are modelled from the spectrum of the signal to the spectrum that is transformed back. A failed `CHECK` is `none`;
so is a bin width that is not positive (the quotients are then not defined or not meaningful). Overflow is not modelled.
-/

namespace Verif.FloatFftUtil
open Verif.Rounding
open Verif.Fft (resize fillZero copyRange)

/-- `HardBandpassSpectrum`, kiss_fft_util.cc:109-153. `out` is the previous content of the output vector when it is another
vector than the input, `none` for in-place filtering. `1 + floor(...)` (line 138) is an addition of floats. -/
noncomputable def hardBandpassSpectrum (rnd : ℝ → ℝ) (input : List ℂ) (low high binWidth : ℝ) (out : Option (List ℂ)) :
    Option (List ℂ) :=
  if input = [] then none
  else if ¬ low ≥ 0 then none
  else if ¬ low ≤ high then none
  else if ¬ high ≤ rnd (binWidth * rnd input.length) then none
  else if binWidth ≤ 0 then none
  else
    let v := match out with
      | none => input
      | some o => resize input.length o
    let passbandStart : ℤ := ⌈rnd (low / binWidth)⌉
    let startIndex : ℤ := min passbandStart input.length
    let v := fillZero 0 startIndex.toNat v
    let stopbandStart : ℤ := ⌊rnd (1 + (⌊rnd (high / binWidth)⌋ : ℝ))⌋
    let stopIndex : ℤ := min stopbandStart input.length
    let v := match out with
      | none => v
      | some _ => copyRange startIndex.toNat stopIndex.toNat input v
    some (fillZero stopIndex.toNat v.length v)

/-- `FftHardBandpass`, kiss_fft_util.cc:89-107, between the two transforms: `n` samples have this `spectrum`. -/
noncomputable def fftHardBandpass (rnd : ℝ → ℝ) (n : ℕ) (spectrum : List ℂ) (low high sampleRate : ℝ) : Option (List ℂ) :=
  if n = 0 then none
  else if ¬ low ≥ 0 then none
  else if ¬ low ≤ high then none
  else if ¬ high < rnd (sampleRate * rnd (1 / 2 + rnd ((1 / 2) / rnd n))) then none
  else
    let binWidth := rnd (sampleRate / rnd n)
    hardBandpassSpectrum rnd spectrum low high binWidth none

/-- `FftHardLowpass`, kiss_fft_util.cc:64-67. -/
noncomputable def fftHardLowpass (rnd : ℝ → ℝ) (n : ℕ) (spectrum : List ℂ) (high sampleRate : ℝ) : Option (List ℂ) :=
  fftHardBandpass rnd n spectrum 0 high sampleRate

/-- `FftHardHighpass`, kiss_fft_util.cc:76-79. -/
noncomputable def fftHardHighpass (rnd : ℝ → ℝ) (n : ℕ) (spectrum : List ℂ) (low sampleRate : ℝ) : Option (List ℂ) :=
  fftHardBandpass rnd n spectrum low (rnd (sampleRate / 2)) sampleRate

/-- `output_size` of `FftPeriodicResample`, kiss_fft_util.cc:161-163, for positive rates (`std::round` of a nonnegative float). -/
noncomputable def resampledSize (rnd : ℝ → ℝ) (n : ℕ) (inRate outRate : ℝ) : ℤ :=
  ⌊rnd (rnd n * rnd (outRate / inRate)) + 1 / 2⌋

/-- The weights of `PeriodicGaussianConvolution`, kiss_fft_util.cc:193-204: `weight` and `ratio` at the beginning of iteration
`k`, from the values of lines 193-195. -/
noncomputable def gaussian (rnd : ℝ → ℝ) (weight ratio ratioRatio : ℝ) : ℕ → ℝ × ℝ
  | 0 => (weight, ratio)
  | k + 1 =>
    let s := gaussian rnd weight ratio ratioRatio k
    (rnd (s.1 * s.2), rnd (s.2 * ratioRatio))

end Verif.FloatFftUtil
