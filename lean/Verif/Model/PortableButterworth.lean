import Verif.Model.IirDesign

/-!
# Model of the second-order Butterworth designs in C

Models `audio/dsp/portable/butterworth.c` over real numbers: `double` rounding and the final conversions to `float` are
not modelled. `none`: the function returns 0 and writes nothing.
-/

namespace Verif.PortableButterworth
open Verif.PortableComplex Verif.IirDesign

/-- `BilinearPrewarp`, butterworth.c:10-12. -/
noncomputable def bilinearPrewarp (frequency rate : ℝ) : ℝ := 2 * rate * Real.tan (Real.pi * frequency / rate)

/-- `BilinearTransform`, butterworth.c:15-19. -/
noncomputable def bilinearTransform (K : ℝ) (s : CD) : CD :=
  let denom := (K - s.real) * (K - s.real) + s.imag * s.imag
  ⟨(K * K - s.real * s.real - s.imag * s.imag) / denom, 2 * K * s.imag / denom⟩

/-- `DesignButterworthOrder2Lowpass`, butterworth.c:21-56. `isNull`: `coeffs == NULL`. -/
noncomputable def lowpass (corner rate : ℝ) (isNull : Bool) : Option Coeffs :=
  if ¬ (0 < corner ∧ corner < rate / 2) ∨ isNull = true then none
  else
    let prewarped := bilinearPrewarp corner rate
    let pole : CD := ⟨-(1 / √2) * prewarped, 1 / √2 * prewarped⟩
    let K := 2 * rate
    let discretized := bilinearTransform K pole
    let gain := 0.25 * abs2 ⟨discretized.real - 1, discretized.imag⟩
    some ⟨gain, 2 * gain, gain, -2 * discretized.real, abs2 discretized⟩

/-- `DesignButterworthOrder2Highpass`, butterworth.c:58-93. -/
noncomputable def highpass (corner rate : ℝ) (isNull : Bool) : Option Coeffs :=
  if ¬ (0 < corner ∧ corner < rate / 2) ∨ isNull = true then none
  else
    let prewarped := bilinearPrewarp corner rate
    let pole : CD := ⟨-(1 / √2) * prewarped, 1 / √2 * prewarped⟩
    let K := 2 * rate
    let discretized := bilinearTransform K pole
    let gain := -0.25 * (1 + 2 * discretized.real + abs2 discretized)
    some ⟨-gain, 2 * gain, -gain, -2 * discretized.real, abs2 discretized⟩

/-- `DesignButterworthOrder2Bandpass`, butterworth.c:95-158: `coeffs[0]` and `coeffs[1]`. -/
noncomputable def bandpass (low high rate : ℝ) (isNull : Bool) : Option (List Coeffs) :=
  if ¬ (0 < low ∧ low < high ∧ high < rate / 2) ∨ isNull = true then none
  else
    let prewarpedLow := bilinearPrewarp low rate
    let prewarpedHigh := bilinearPrewarp high rate
    let bandwidth := prewarpedHigh - prewarpedLow
    let pole : CD := ⟨-(0.5 / √2) * bandwidth, 0.5 / √2 * bandwidth⟩
    let d := sqrt (sub (square pole) ⟨prewarpedHigh * prewarpedLow, 0⟩)
    let shifted0 := add pole d
    let shifted1 := sub pole d
    let K := 2 * rate
    let discretized0 := bilinearTransform K shifted0
    let discretized1 := bilinearTransform K shifted1
    let gain := bandwidth * K * (bandwidth * K) / abs2 ⟨shifted0.real - K, shifted0.imag⟩
      / abs2 ⟨shifted1.real - K, shifted1.imag⟩
    some [⟨gain, -2 * gain, gain, -2 * discretized0.real, abs2 discretized0⟩,
      ⟨1, 2, 1, -2 * discretized1.real, abs2 discretized1⟩]

end Verif.PortableButterworth
