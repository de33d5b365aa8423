import Verif.Model.ArithmeticSequence
import Verif.Model.Rounding

/-!
# Model of `ArithmeticSequence` in floating point (audio/dsp/number_util.h:97-195, audio/dsp/number_util.cc:103-229)

Every operation on doubles is followed by the rounding `rnd`; conversions of `int` to `double` and multiplications by
`sign_step` are exact. Multiplications and additions are not contracted. Overflow is not modelled. `eps` is
`std::numeric_limits<double>::epsilon()`.
-/

namespace Verif.FloatArithmeticSequence
open Verif.ArithmeticSequence

variable (rnd : ℝ → ℝ) (eps : ℝ)

/-- `tol` before the comparison with the step, number_util.cc:183-184. -/
noncomputable def tol0 (base limit : ℝ) : ℝ :=
  rnd (eps * rnd (rnd (5 * rnd (|base| + |limit|)) + rnd (7 * |rnd (limit - base)|)))

/-- The step is small compared to the precision, number_util.cc:185: a warning is logged. -/
def Small (base step limit : ℝ) : Prop := |step| < rnd (3 * tol0 rnd eps base limit)

open Classical in
/-- `tol`, number_util.cc:183-191. -/
noncomputable def tol (base step limit : ℝ) : ℝ :=
  if Small rnd eps base step limit then rnd (|step| / 3) else tol0 rnd eps base limit

/-- `sign_step`, number_util.cc:181. -/
noncomputable def sign (step : ℝ) : ℝ := if step > 0 then 1 else -1

/-- `sized`, number_util.cc:193. -/
noncomputable def sized (base step limit : ℝ) : ℝ :=
  rnd (1 + ⌊rnd (rnd (rnd (limit - base) + sign step * tol rnd eps base step limit) / step)⌋)

/-- Constructor, number_util.cc:103-229; `none` is a failed `CHECK`. -/
noncomputable def make (base step limit : ℝ) : Option (Seq ℝ) :=
  if step = 0 then none
  else
    let t := tol rnd eps base step limit
    let sized := sized rnd eps base step limit
    if sized ≤ 0 then some ⟨base, step, base, 0⟩
    else if ¬ sized ≤ 2 ^ 31 - 1 then none
    else
      let n := ⌊sized⌋
      if ¬ sign step * rnd (base + rnd (step * ((n - 1 : ℤ) : ℝ))) ≤ rnd (sign step * limit + rnd (2 * t)) then none
      else if ¬ sign step * limit < sign step * rnd (base + rnd (step * (n : ℝ))) then none
      else if n = 1 then some ⟨base, 1, base, 1⟩
      else
        let last := rnd (base + rnd (step * ((n - 1 : ℤ) : ℝ)))
        if ((step > 0 ∧ limit > last) ∨ (step < 0 ∧ limit < last)) ∧
            rnd (rnd (rnd (4 * eps) * step) * max |limit| |last|) ≤ |rnd (limit - last)|
        then some ⟨base, step, last, n⟩
        else some ⟨base, step, limit, n⟩

/-- `operator[]`, number_util.h:127-131; `none`: out of bounds. -/
noncomputable def get (s : Seq ℝ) (i : ℤ) : Option ℝ :=
  if 0 ≤ i ∧ i < s.size then some (if i < s.size - 1 then rnd (s.base + rnd (s.step * (i : ℝ))) else s.limit)
  else none

end Verif.FloatArithmeticSequence
