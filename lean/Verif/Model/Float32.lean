import Mathlib.Data.Int.Log
import Mathlib.Data.Rat.Floor

/-!
# IEEE 754 binary32 numbers as exact rationals

Used where the code under /repo manipulates the bits of a `float` (`audio/dsp/portable/fast_fun.h`).
Rounding is to nearest, ties to even. Subnormals, infinities and NaN are not modelled: the exponent
range of `f32` is unbounded, and `encode`/`decode` are for positive normal numbers.
-/

namespace Verif.Float32

/-- Nearest integer, ties to even (IEEE 754 roundTiesToEven). -/
def roundHalfEven (q : ℚ) : ℤ :=
  let f := ⌊q⌋
  if q - f < 1 / 2 then f
  else if 1 / 2 < q - f then f + 1
  else if f % 2 = 0 then f else f + 1

/-- Rounding of an exact result to 24 significant bits: every `float` operation of the code. -/
def f32 (q : ℚ) : ℚ :=
  if q = 0 then 0
  else
    let ulp := (2 : ℚ) ^ (Int.log 2 |q| - 23)
    roundHalfEven (q / ulp) * ulp

/-- The value of the positive normal `float` with the given bits. -/
def decode (bits : ℕ) : ℚ :=
  (2 : ℚ) ^ (((bits >>> 23 &&& 0xFF : ℕ) : ℤ) - 127) * (1 + ((bits &&& 0x7FFFFF : ℕ) : ℚ) / 2 ^ 23)

/-- The bits of a positive normal `float`. -/
def encode (q : ℚ) : ℕ :=
  let e := Int.log 2 q
  (e + 127).toNat <<< 23 ||| (⌊q / (2 : ℚ) ^ (e - 23)⌋.toNat - 2 ^ 23)

end Verif.Float32
