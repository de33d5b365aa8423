import Mathlib.Data.Rat.Floor
import Mathlib.Data.Rat.Cast.Order
import Mathlib.Algebra.Order.Field.Rat

/-!
# Values of IEEE 754 floats and their quantization to integers

Independent of the code: what a 32-bit pattern denotes (IEEE 754 binary32, subnormals, infinities and
NaN included), and what it means to quantize a full-scale signal to `k` bits.
-/

namespace Verif.Quantize

/-- What a float denotes. Both zeros denote the number 0. -/
inductive FVal
  | nan
  | inf (negative : Bool)
  | fin (q : ℚ)
  deriving DecidableEq

/-- The value of a bit pattern (IEEE 754 binary32): sign, 8 exponent bits, 23 fraction bits. -/
def valueOf (bits : BitVec 32) : FVal :=
  let negative := decide (2 ^ 31 ≤ bits.toNat)
  let e : ℕ := bits.toNat / 2 ^ 23 % 2 ^ 8
  let m : ℕ := bits.toNat % 2 ^ 23
  let sign : ℚ := if negative then -1 else 1
  if e = 255 then (if m = 0 then .inf negative else .nan)
  else if e = 0 then .fin (sign * m * 2 ^ (-149 : ℤ))
  else .fin (sign * (2 ^ 23 + m : ℕ) * 2 ^ ((e : ℤ) - 150))

/-- Rounding towards zero. -/
def trunc (q : ℚ) : ℤ := if 0 ≤ q then ⌊q⌋ else ⌈q⌉

/-- Quantization of a signal with full scale [-1, 1) to `k`-bit integers: scaling, rounding towards zero,
saturation at both ends; NaN becomes silence. -/
def quantize (k : ℕ) : FVal → ℤ
  | .nan => 0
  | .inf true => -2 ^ (k - 1)
  | .inf false => 2 ^ (k - 1) - 1
  | .fin q => max (-2 ^ (k - 1)) (min (2 ^ (k - 1) - 1) (trunc (q * 2 ^ (k - 1))))

end Verif.Quantize
