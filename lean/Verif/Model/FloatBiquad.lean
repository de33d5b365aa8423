import Verif.Model.Biquad
import Verif.Model.Rounding

/-!
# Model of the biquad filters in floating point

The functions of `Verif.Model.Biquad` with the rounding `rnd` of every operation. Compilers may contract multiplications
and additions, so a step is a relation. The coefficients are those that the filter stores (`Biquad.Filter`), after the
rounding in `Init`.
-/

namespace Verif.FloatBiquad
open Verif.Rounding Verif.Biquad

/-- One channel of `BiquadFilter::ProcessSample`, biquad_filter-inl.h:112-120 (and 129-137, 159-168). The matrix-vector
products `(state * coefficients)[0]` are sums of two products. -/
def Step (rnd : ℝ → ℝ) (f : Filter ℝ) (s : ℝ × ℝ) (x : ℝ) (s' : ℝ × ℝ) (y : ℝ) : Prop :=
  (∃ p, IsSumOfProducts rnd s.1 f.fb1 s.2 f.fb2 p ∧ s' = (rnd (x - p), s.1)) ∧
  ∃ q, IsSumOfProducts rnd s.1 f.ff1 s.2 f.ff2 q ∧ IsMulAdd rnd s'.1 f.ff0 q y

/-- `BiquadFilterProcessOneSample`, portable/biquad_filter.h:57-69. -/
def PortableStep (rnd : ℝ → ℝ) (f : Filter ℝ) (z : ℝ × ℝ) (x : ℝ) (z' : ℝ × ℝ) (y : ℝ) : Prop :=
  (∃ t next, IsMulAdd rnd (-f.fb1) z.1 x t ∧ IsMulAdd rnd (-f.fb2) z.2 t next ∧ z' = (next, z.1)) ∧
  ∃ q, IsSumOfProducts rnd f.ff0 z'.1 f.ff1 z.1 q ∧ IsMulAdd rnd f.ff2 z.2 q y

/-- The output `y` that a filter with the given step, started in the state after `Reset`, produces for the input
signal `x`. -/
def Response (step : ℝ × ℝ → ℝ → ℝ × ℝ → ℝ → Prop) (x y : ℕ → ℝ) : Prop :=
  ∃ s : ℕ → ℝ × ℝ, s 0 = resetState ∧ ∀ n, step (s n) (x n) (s (n + 1)) (y n)

/-- `BiquadFilterCascade`, biquad_filter-inl.h:194-214: the output of a stage is the input of the next one. -/
def CascadeResponse (step : Filter ℝ → ℝ × ℝ → ℝ → ℝ × ℝ → ℝ → Prop) : List (Filter ℝ) → (ℕ → ℝ) → (ℕ → ℝ) → Prop
  | [], x, y => y = x
  | f :: fs, x, y => ∃ t, Response (step f) x t ∧ CascadeResponse step fs t y

end Verif.FloatBiquad
