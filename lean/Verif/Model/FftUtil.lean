import Verif.Model.Fft
import Mathlib.Algebra.Order.Floor.Ring
import Mathlib.Data.Real.Archimedean

/-!
# Model of audio/dsp/kiss_fft_util.{h,cc}

Single-precision numbers are modelled by `ℝ` and `ℂ`; rounding is not modelled. Failed `CHECK`s, and
undefined behaviour where the comments say so, are `none`. `next` is `kiss_fft_next_fast_size` and
`nextReal` is `kiss_fftr_next_fast_size_real` of the external library.
-/

namespace Verif.Fft
open Finset

/-- `v.resize(n, 0)` -/
def resize {α : Type*} [Zero α] (n : ℕ) (v : List α) : List α :=
  v.take n ++ List.replicate (n - v.length) 0

/-- `spectrum.back() /= 2` -/
noncomputable def halveBack (v : List ℂ) : List ℂ := v.modify (v.length - 1) (· / 2)

/-- `Upsample`, kiss_fft_util.cc:33-62. The `DCHECK` on the factor is modelled as a `CHECK`. -/
noncomputable def upsample (next : ℕ → ℕ) (input : List ℝ) (factor : ℤ) : Option (List ℝ) := do
  if ¬ factor > 1 then none
  else
    let resultSize : ℤ := input.length * factor
    let t ← RealFft.make next input.length false
    let spectrum ← t.forward input
    let spectrum := if input.length % 2 = 0 then halveBack spectrum else spectrum
    let u ← RealFft.make next resultSize false
    let result ← u.inverse (resize u.transformedSize spectrum)
    some (result.map fun v => v * (1 / (input.length : ℝ)))

/-- `std::fill(v.begin() + a, v.begin() + b, 0)` -/
noncomputable def fillZero (a b : ℕ) (v : List ℂ) : List ℂ :=
  (List.range v.length).map fun i : ℕ => if a ≤ i ∧ i < b then 0 else v.getD i 0

/-- `std::copy(u.begin() + a, u.begin() + b, v.begin() + a)` -/
noncomputable def copyRange (a b : ℕ) (u v : List ℂ) : List ℂ :=
  (List.range v.length).map fun i : ℕ => if a ≤ i ∧ i < b then u.getD i 0 else v.getD i 0

/-- `HardBandpassSpectrum`, kiss_fft_util.cc:109-153. `out` is the previous content of the output vector
when it is another vector than the input, `none` for in-place filtering. With a bin width of zero the
code converts a NaN to `int`, modelled as `none`. -/
noncomputable def hardBandpassSpectrum (input : List ℂ) (low high binWidth : ℝ)
    (out : Option (List ℂ)) : Option (List ℂ) :=
  if input = [] then none
  else if ¬ low ≥ 0 then none
  else if ¬ low ≤ high then none
  else if ¬ high ≤ binWidth * input.length then none
  else if binWidth = 0 then none
  else
    let v := match out with
      | none => input
      | some o => resize input.length o
    let passbandStart : ℤ := ⌈low / binWidth⌉
    let startIndex : ℤ := min passbandStart input.length
    let v := fillZero 0 startIndex.toNat v
    let stopbandStart : ℤ := 1 + ⌊high / binWidth⌋
    let stopIndex : ℤ := min stopbandStart input.length
    let v := match out with
      | none => v
      | some _ => copyRange startIndex.toNat stopIndex.toNat input v
    some (fillZero stopIndex.toNat v.length v)

/-- `HardLowpassSpectrum`, kiss_fft_util.cc:69-74. -/
noncomputable def hardLowpassSpectrum (input : List ℂ) (high binWidth : ℝ) (out : Option (List ℂ)) :
    Option (List ℂ) :=
  hardBandpassSpectrum input 0 high binWidth out

/-- `HardHighpassSpectrum`, kiss_fft_util.cc:81-87. -/
noncomputable def hardHighpassSpectrum (input : List ℂ) (low binWidth : ℝ) (out : Option (List ℂ)) :
    Option (List ℂ) :=
  let high := (input.length - 1 / 2) * binWidth
  hardBandpassSpectrum input low high binWidth out

/-- `FftHardBandpass`, kiss_fft_util.cc:89-107. -/
noncomputable def fftHardBandpass (next : ℕ → ℕ) (input : List ℝ) (low high sampleRate : ℝ) :
    Option (List ℝ) := do
  if input = [] then none
  else if ¬ low ≥ 0 then none
  else if ¬ low ≤ high then none
  else if ¬ high < sampleRate * (1 / 2 + (1 / 2) / input.length) then none
  else
    let t ← RealFft.make next input.length true
    let spectrum ← t.forward input
    let binWidth := sampleRate / input.length
    let spectrum ← hardBandpassSpectrum spectrum low high binWidth none
    t.inverse spectrum

/-- `FftHardLowpass`, kiss_fft_util.cc:64-67. -/
noncomputable def fftHardLowpass (next : ℕ → ℕ) (input : List ℝ) (high sampleRate : ℝ) :
    Option (List ℝ) :=
  fftHardBandpass next input 0 high sampleRate

/-- `FftHardHighpass`, kiss_fft_util.cc:76-79. -/
noncomputable def fftHardHighpass (next : ℕ → ℕ) (input : List ℝ) (low sampleRate : ℝ) :
    Option (List ℝ) :=
  fftHardBandpass next input low (sampleRate / 2) sampleRate

/-- `std::round` of a nonnegative number. -/
noncomputable def roundHalfUp (x : ℝ) : ℤ := ⌊x + 1 / 2⌋

/-- `FftPeriodicResample`, kiss_fft_util.cc:155-180. -/
noncomputable def fftPeriodicResample (next : ℕ → ℕ) (input : List ℝ) (inRate outRate : ℝ) :
    Option (List ℝ) := do
  if ¬ inRate > 0 then none
  else if ¬ outRate > 0 then none
  else
    let inputSize : ℤ := input.length
    let outputSize : ℤ := roundHalfUp (input.length * (outRate / inRate))
    if outputSize = inputSize then some input
    else
      let t ← RealFft.make next inputSize false
      let spectrum ← t.forward input
      let spectrum := if inputSize % 2 = 0 ∧ outputSize > inputSize then halveBack spectrum else spectrum
      let u ← RealFft.make next outputSize false
      let output ← u.inverse (resize u.transformedSize spectrum)
      some (output.map fun v => v / (input.length : ℝ))

/-- The loop of `PeriodicGaussianConvolution`, kiss_fft_util.cc:200-204. -/
noncomputable def gaussLoop (ratioRatio : ℝ) : ℝ → ℝ → List ℂ → List ℂ
  | _, _, [] => []
  | weight, ratio, x :: xs =>
    x * (weight : ℂ) :: gaussLoop ratioRatio (weight * ratio) (ratio * ratioRatio) xs

/-- `PeriodicGaussianConvolution`, kiss_fft_util.cc:182-207. -/
noncomputable def periodicGaussianConvolution (next : ℕ → ℕ) (input : List ℝ) (sigma : ℝ) :
    Option (List ℝ) := do
  let t ← RealFft.make next input.length false
  let spectrum ← t.forward input
  let factor := 2 * (Real.pi * sigma / input.length) ^ 2
  let weight := 1 / (input.length : ℝ)
  let ratio := Real.exp (-factor)
  let ratioRatio := Real.exp (-2 * factor)
  t.inverse (gaussLoop ratioRatio weight ratio spectrum)

/-- `LinearConvolution` of two inputs, kiss_fft_util.cc:209-236. Copying an input that is longer than
the transform is a buffer overflow, modelled as `none`. (Both sizes zero is not meaningful: the code then
asks for a transform of size at least -1; the model's subtraction stops at 0.) -/
noncomputable def linearConvolution (next nextReal : ℕ → ℕ) (a b : List ℝ) : Option (List ℝ) := do
  let outputSize := a.length + b.length - 1
  let fftSize := nextReal outputSize
  if a.length > fftSize ∨ b.length > fftSize then none
  else
    let t ← RealFft.make next fftSize true
    let x ← t.forward (resize fftSize a)
    let y ← t.forward (resize fftSize b)
    let convolution ← t.inverse (List.zipWith (· * ·) x y)
    some (resize outputSize convolution)

/-- `LinearConvolution` of an input with itself, kiss_fft_util.cc:238-263, with the same remarks (a size
of zero gives a negative output size for two or more factors). -/
noncomputable def selfConvolution (next nextReal : ℕ → ℕ) (input : List ℝ) (numTimes : ℤ) :
    Option (List ℝ) := do
  if ¬ numTimes > 0 then none
  else
    let outputSize := (input.length - 1) * numTimes.toNat + 1
    let fftSize := nextReal outputSize
    if input.length > fftSize then none
    else
      let t ← RealFft.make next fftSize true
      let x ← t.forward (resize fftSize input)
      let convolution ← t.inverse (x.map fun v => v ^ numTimes.toNat)
      some (resize outputSize convolution)

end Verif.Fft
