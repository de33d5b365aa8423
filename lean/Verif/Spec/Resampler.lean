import Mathlib.Algebra.Module.Defs
import Mathlib.Algebra.BigOperators.Group.Finset.Basic
import Mathlib.Algebra.Order.Floor.Ring
import Mathlib.Data.Rat.Defs

/-!
# What resampling by a rational factor means

The input frames `x[0], x[1], ..` sit at the times `0, 1, ..`; the output frame `m` sits at the time
`m * a / b`, where `a / b` is the resampling factor, and is the sum of all input frames weighted by the
kernel at their distance.
-/

namespace Verif.Resampler.Spec

variable {R M : Type*} [Semiring R] [AddCommMonoid M] [Module R M]

/-- The value at time `t` of the kernel interpolation of `x`. -/
def interpolate (h : ℚ → R) (x : List M) (t : ℚ) : M :=
  ∑ n ∈ Finset.range x.length, h (t - n) • x.getD n 0

/-- The polyphase formula of the documentation (rational_factor_resampler.h, resampler_q.h): with
`m * a = q * b + p`, output `m` is `∑ over |k| ≤ r of h(p/b + k) x[q - k]`, where `x` is zero outside
its range. -/
def polyphase (h : ℚ → R) (a b r : ℕ) (x : List M) (m : ℕ) : M :=
  ∑ n ∈ Finset.range x.length,
    if m * a / b ≤ n + r ∧ n ≤ m * a / b + r then
      h (((m * a % b : ℕ) : ℚ) / (b : ℚ) + (((m * a / b : ℕ) : ℚ) - (n : ℚ))) • x.getD n 0
    else 0

end Verif.Resampler.Spec
