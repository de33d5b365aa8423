import Verif.Spec.IirDesign

/-!
# When the roots of a bandpass or bandstop are real or clearly not
-/

namespace Verif.IirDesign.Spec

/-- The two roots of the bandpass that come from a real root `p` of the prototype, the roots of `v² - p B v + P` with
`B = tan(π high / rate) - tan(π low / rate)` and `P = tan(π low / rate) tan(π high / rate)`, are real or clearly not. -/
def RealClear (p low high rate : ℝ) : Prop :=
  4 * (Real.tan (Real.pi * low / rate) * Real.tan (Real.pi * high / rate)) ≤
      (p * (Real.tan (Real.pi * high / rate) - Real.tan (Real.pi * low / rate))) ^ 2 ∨
    100 / 2 ^ 52 * (1 + Real.tan (Real.pi * low / rate) * Real.tan (Real.pi * high / rate)) <
      √(4 * (Real.tan (Real.pi * low / rate) * Real.tan (Real.pi * high / rate)) -
        (p * (Real.tan (Real.pi * high / rate) - Real.tan (Real.pi * low / rate))) ^ 2)

end Verif.IirDesign.Spec
