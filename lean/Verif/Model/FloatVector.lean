import Verif.Model.FloatResampler
import Mathlib.Analysis.SpecialFunctions.Sqrt

/-!
# Model of the statistics of audio/dsp/signal_vector_util.h in floating point

Real elements. Every operation is followed by a rounding `rnd`; compilers may contract a multiplication and an addition, so
the results are relations. The loops add in order (C++ does not permit them to be reordered). Elements are exact in the type
of the accumulator: the default accumulator is `double`, the elements `float`, `double` or smaller integers.
-/

namespace Verif.FloatVector
open Verif.Rounding

/-- `Sum`, signal_vector_util.h:65-69: `std::accumulate` in the type of the elements. -/
noncomputable def sum (rnd : ℝ → ℝ) (x : List ℝ) : ℝ := x.foldl (fun s v => rnd (s + v)) 0

/-- The loop of `ComputeSecondOrderStats`, signal_vector_util.h:127-133: `first_sum` and `second_sum`. -/
inductive Moments (rnd : ℝ → ℝ) : List ℝ → ℝ → ℝ → Prop
  | nil : Moments rnd [] 0 0
  | snoc {x : List ℝ} {a b v b' : ℝ} : Moments rnd x a b → IsMulAdd rnd v v b b' →
      Moments rnd (x ++ [v]) (rnd (a + v)) b'

/-- `ComputeSecondOrderStats`, signal_vector_util.h:113-136; `CHECK_GT` fails for an empty container. The size is converted to
the type of the accumulator, line 125. -/
def IsStats (rnd : ℝ → ℝ) (x : List ℝ) (mean variance : ℝ) : Prop :=
  x ≠ [] ∧ ∃ a b, Moments rnd x a b ∧ mean = rnd (a / rnd x.length) ∧
    IsMulAdd rnd (-mean) mean (rnd (b / rnd x.length)) variance

/-- `ZScoreNormalize`, signal_vector_util.h:331-353, for elements of a type with the rounding `rndE`; `none` stands for a
container of elements that are not numbers: the square root of a negative variance, or a zero denominator. -/
def ZScore (rnd rndE : ℝ → ℝ) (floor : ℝ) (x : List ℝ) (r : Option (List ℝ)) : Prop :=
  if x = [] then r = some []
  else ∃ mean variance, IsStats rnd x mean variance ∧
    if variance < 0 then r = none
    else if rndE (rnd (floor + rnd √variance)) = 0 then r = none
    else r = some (x.map fun v => rndE (rndE (v - rndE mean) / rndE (rnd (floor + rnd √variance))))

/-- The loop of `RootMeanSquareError`, signal_vector_util.h:284-298, for real elements (the imaginary parts contribute an
exact zero). -/
inductive SquaredErrors (rnd : ℝ → ℝ) : List (ℝ × ℝ) → ℝ → Prop
  | nil : SquaredErrors rnd [] 0
  | snoc {x : List (ℝ × ℝ)} {s s' : ℝ} {p : ℝ × ℝ} : SquaredErrors rnd x s →
      IsMulAdd rnd (rnd (p.1 - p.2)) (rnd (p.1 - p.2)) s s' → SquaredErrors rnd (x ++ [p]) s'

/-- `RootMeanSquareError`, signal_vector_util.h:279-300; the vectors have the same size, and are not empty (0 / 0); `none`
stands for the square root of a negative number. -/
def IsRmsError (rnd : ℝ → ℝ) (x : List (ℝ × ℝ)) (r : Option ℝ) : Prop :=
  x ≠ [] ∧ ∃ s, SquaredErrors rnd x s ∧
    if rnd (s / rnd x.length) < 0 then r = none else r = some (rnd √(rnd (s / rnd x.length)))

/-- The loop of `SumSquaredMagnitudes`, signal_vector_util.h:138-148, for real elements, and that of `RealDotProduct`,
564-575: `dot_product` after the products `l`. -/
inductive DotProduct (rnd : ℝ → ℝ) : List (ℝ × ℝ) → ℝ → Prop
  | nil : DotProduct rnd [] 0
  | snoc {l : List (ℝ × ℝ)} {s s' : ℝ} {p : ℝ × ℝ} : DotProduct rnd l s → IsMulAdd rnd p.1 p.2 s s' →
      DotProduct rnd (l ++ [p]) s'

end Verif.FloatVector
