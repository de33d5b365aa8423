import Mathlib.Analysis.SpecialFunctions.Complex.Arg
import Mathlib.Analysis.SpecialFunctions.Log.Basic
import Mathlib.Data.Int.Log

/-!
# Model of `audio/dsp/portable/complex.{h,c}`

`double` is modelled by the reals: no rounding, no signed zeros, infinities or NaN. The functions of
`math.h` are modelled by the mathematical functions; `atan2(y, x)` by the argument of `x + i y` in
`(-π, π]`.
-/

namespace Verif.PortableComplex

/-- `ComplexDouble`, complex.h:71-75. -/
@[ext] structure CD where
  real : ℝ
  imag : ℝ

/-- `ComplexDoubleConj`, complex.h:86-89. -/
def conj (z : CD) : CD := { z with imag := -z.imag }

/-- `ComplexDoubleNeg`, complex.h:92-96. -/
def neg (z : CD) : CD := { real := -z.real, imag := -z.imag }

/-- `ComplexDoubleAdd`, complex.h:99-103. -/
def add (w z : CD) : CD := { real := w.real + z.real, imag := w.imag + z.imag }

/-- `ComplexDoubleSub`, complex.h:106-110. -/
def sub (w z : CD) : CD := { real := w.real - z.real, imag := w.imag - z.imag }

/-- `ComplexDoubleMul`, complex.h:113-118. -/
def mul (w z : CD) : CD :=
  { real := w.real * z.real - w.imag * z.imag, imag := w.real * z.imag + w.imag * z.real }

/-- `ComplexDoubleMulReal`, complex.h:121-125. -/
def mulReal (z : CD) (x : ℝ) : CD := { real := z.real * x, imag := z.imag * x }

/-- `frexp`: fraction and exponent; `0` has exponent 0. -/
noncomputable def frexp (x : ℝ) : ℝ × ℤ :=
  if x = 0 then (0, 0) else (x / 2 ^ (Int.log 2 |x| + 1), Int.log 2 |x| + 1)

/-- `ldexp`. -/
noncomputable def ldexp (x : ℝ) (e : ℤ) : ℝ := x * 2 ^ e

/-- `ComplexDoubleDiv`, complex.c:9-27. -/
noncomputable def div (w z : CD) : CD :=
  let r : CD × ℤ :=
    if |z.real| ≥ |z.imag| then
      let f := frexp z.real
      (⟨f.1, ldexp z.imag (-f.2)⟩, f.2)
    else
      let f := frexp z.imag
      (⟨ldexp z.real (-f.2), f.1⟩, f.2)
  let z := r.1
  let denom := z.real * z.real + z.imag * z.imag
  { real := ldexp ((w.real * z.real + w.imag * z.imag) / denom) (-r.2)
    imag := ldexp ((w.imag * z.real - w.real * z.imag) / denom) (-r.2) }

/-- `ComplexDoubleArg`, complex.h:131-133. -/
noncomputable def arg (z : CD) : ℝ := Complex.arg ⟨z.real, z.imag⟩

/-- `ComplexDoubleAbs`, complex.c:29-45. -/
noncomputable def abs (z : CD) : ℝ :=
  let a := if |z.real| < |z.imag| then |z.imag| else |z.real|
  let b := if |z.real| < |z.imag| then |z.real| else |z.imag|
  let f := frexp a
  let b := ldexp b (-f.2)
  ldexp (√(f.1 * f.1 + b * b)) f.2

/-- `ComplexDoubleAbs2`, complex.h:139-141. -/
def abs2 (z : CD) : ℝ := z.real * z.real + z.imag * z.imag

/-- `ComplexDoubleSquare`, complex.h:144-149. -/
def square (z : CD) : CD :=
  { real := z.real * z.real - z.imag * z.imag, imag := 2 * z.real * z.imag }

/-- `ComplexDoubleSqrt`, complex.c:47-86. -/
noncomputable def sqrt (z : CD) : CD :=
  if z.real = 0 then
    let q := √(|z.imag| / 2)
    ⟨q, if z.imag < 0 then -q else q⟩
  else
    let q := √((abs z + |z.real|) / 2)
    if z.real > 0 then ⟨q, z.imag / (2 * q)⟩
    else ⟨|z.imag| / (2 * q), if z.imag < 0 then -q else q⟩

/-- `ComplexDoubleExp`, complex.c:88-94. -/
noncomputable def exp (z : CD) : CD :=
  let r := Real.exp z.real
  ⟨r * Real.cos z.imag, r * Real.sin z.imag⟩

/-- `ComplexDoubleLog`, complex.c:96-101. -/
noncomputable def log (z : CD) : CD := ⟨Real.log (abs z), arg z⟩

/-- `ComplexDoubleCosh`, complex.c:110-115. -/
noncomputable def cosh (z : CD) : CD :=
  ⟨Real.cosh z.real * Real.cos z.imag, Real.sinh z.real * Real.sin z.imag⟩

/-- `ComplexDoubleSinh`, complex.c:117-122. -/
noncomputable def sinh (z : CD) : CD :=
  ⟨Real.sinh z.real * Real.cos z.imag, Real.cosh z.real * Real.sin z.imag⟩

/-- `ComplexDoubleCos`, complex.c:124-129. -/
noncomputable def cos (z : CD) : CD :=
  ⟨Real.cos z.real * Real.cosh z.imag, -Real.sin z.real * Real.sinh z.imag⟩

/-- `ComplexDoubleSin`, complex.c:131-136. -/
noncomputable def sin (z : CD) : CD :=
  ⟨Real.sin z.real * Real.cosh z.imag, Real.cos z.real * Real.sinh z.imag⟩

/-- `CopySign`, complex.c:4-7. -/
noncomputable def copySign (x y : ℝ) : ℝ := if y < 0 then -|x| else |x|

/-- `ComplexDoubleACosh`, complex.c:138-146. -/
noncomputable def acosh (z : CD) : CD :=
  let r := log (add z (sqrt ⟨z.real * z.real - z.imag * z.imag - 1, 2 * z.real * z.imag⟩))
  ⟨|r.real|, copySign r.imag z.imag⟩

/-- `ComplexDoubleASinh`, complex.c:148-156. -/
noncomputable def asinh (z : CD) : CD :=
  let r := log (add z (sqrt ⟨z.real * z.real - z.imag * z.imag + 1, 2 * z.real * z.imag⟩))
  ⟨copySign r.real z.real, copySign r.imag z.imag⟩

/-- `ComplexDoubleACos`, complex.c:158-164. -/
noncomputable def acos (z : CD) : CD :=
  let r := log (add z (sqrt ⟨z.real * z.real - z.imag * z.imag - 1, 2 * z.real * z.imag⟩))
  ⟨|r.imag|, copySign r.real (-z.imag)⟩

/-- `ComplexDoubleASin`, complex.c:166-170. -/
noncomputable def asin (z : CD) : CD :=
  let w := asinh ⟨-z.imag, z.real⟩
  ⟨w.imag, -w.real⟩

end Verif.PortableComplex
