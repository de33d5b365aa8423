import Mathlib.Algebra.Order.Floor.Ring
import Mathlib.Algebra.Order.Field.Basic

/-!
# Model of `ArithmeticSequence` (audio/dsp/number_util.h:97-195, audio/dsp/number_util.cc:103-229)

`double` is an ordered field with a floor function; rounding is not modelled. `eps` is
`std::numeric_limits<double>::epsilon()`.
-/

namespace Verif.ArithmeticSequence

variable {α : Type*} [Field α] [LinearOrder α] [FloorRing α]

/-- Members of `ArithmeticSequence`, number_util.h:181-184. -/
structure Seq (α : Type*) where
  base : α
  step : α
  limit : α
  size : ℤ
deriving DecidableEq

/-- The tolerance, number_util.cc:181-191. -/
def tol (eps base step limit : α) : α :=
  let t := eps * (5 * (|base| + |limit|) + 7 * |limit - base|)
  if |step| < 3 * t then |step| / 3 else t

/-- `sized`, number_util.cc:193. -/
def sized (eps base step limit : α) : ℤ :=
  let sign : α := if step > 0 then 1 else -1
  1 + ⌊((limit - base) + sign * tol eps base step limit) / step⌋

/-- Constructor, number_util.cc:103-229; `none` is a failed `CHECK` (the finiteness part of the first
one holds in the model). -/
def make (eps base step limit : α) : Option (Seq α) :=
  if step = 0 then none
  else
    let sign : α := if step > 0 then 1 else -1
    let t := tol eps base step limit
    let n := sized eps base step limit
    if n ≤ 0 then some ⟨base, step, base, 0⟩
    else if n > 2 ^ 31 - 1 then none
    else if ¬ (sign * (base + step * ((n - 1 : ℤ) : α)) ≤ sign * limit + 2 * t) then none
    else if ¬ (sign * limit < sign * (base + step * (n : α))) then none
    else if n = 1 then some ⟨base, 1, base, 1⟩
    else
      let last := base + step * ((n - 1 : ℤ) : α)
      if ((step > 0 ∧ limit > last) ∨ (step < 0 ∧ limit < last)) ∧
          4 * eps * step * max |limit| |last| ≤ |limit - last|
      then some ⟨base, step, last, n⟩
      else some ⟨base, step, limit, n⟩

/-- `operator[]`, number_util.h:127-131; `none`: out of bounds. -/
def Seq.get (s : Seq α) (i : ℤ) : Option α :=
  if 0 ≤ i ∧ i < s.size then some (if i < s.size - 1 then s.base + s.step * (i : α) else s.limit)
  else none

end Verif.ArithmeticSequence
