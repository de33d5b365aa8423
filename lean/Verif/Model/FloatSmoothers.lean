import Verif.Model.Rounding

/-!
# Model of the smoothers of audio/dsp/signal_vector_util.h in floating point

Containers of `float` (real elements); every operation is followed by a rounding `rnd`, and the multiplication and addition of
line 386 and 398 may be contracted, so the results are relations.
-/

namespace Verif.FloatSmoothers
open Verif.Rounding

/-- `ForwardSmoothVector`, signal_vector_util.h:380-390: state before, content before, state after, content after. -/
def Forward (rnd : ℝ → ℝ) (c : ℝ) : ℝ → List ℝ → ℝ → List ℝ → Prop
  | s, [], s', y => s' = s ∧ y = []
  | s, v :: x, s', y => ∃ s1 y', IsMulAdd rnd c (rnd (v - s)) s s1 ∧ Forward rnd c s1 x s' y' ∧ y = s1 :: y'

/-- `BackwardSmoothVector`, signal_vector_util.h:392-402. -/
def Backward (rnd : ℝ → ℝ) (c s : ℝ) (x : List ℝ) (s' : ℝ) (y : List ℝ) : Prop :=
  Forward rnd c s x.reverse s' y.reverse

/-- One iteration of the loop of `SmoothVector`, signal_vector_util.h:411-416. -/
def Pass (rnd : ℝ → ℝ) (c s : ℝ) (x : List ℝ) (s' : ℝ) (y : List ℝ) : Prop :=
  ∃ s1 y1, Forward rnd c (rnd (s * rnd (1 - c))) x s1 y1 ∧ Backward rnd c (rnd (s1 * rnd (1 - c))) y1 s' y

/-- `SmoothVector`, signal_vector_util.h:406-417, for a container that is not empty. -/
def Smooth (rnd : ℝ → ℝ) (c : ℝ) : List ℝ → List ℝ → Prop
  | [], _ => False
  | x0 :: x, y => ∃ s1 y1 s2, Pass rnd c x0 (x0 :: x) s1 y1 ∧ Pass rnd c s1 y1 s2 y

end Verif.FloatSmoothers
