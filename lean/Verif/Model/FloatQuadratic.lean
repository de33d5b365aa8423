import Verif.Model.Rounding

/-!
# `QuadraticInterpolateMax` in floating point (audio/dsp/signal_vector_util.h:503-541)

For a container of floats. Every operation is rounded, with or without contraction to fused multiply-adds; the index is converted
to `float`. Overflow and NaN are not modelled.
-/

namespace Verif.FloatQuadratic
open Verif.Rounding

/-- The coefficient `a`, signal_vector_util.h:516. (Contraction makes no difference: doubling is exact.) -/
noncomputable def coefA (rnd : ℝ → ℝ) (l m r : ℝ) : ℝ := rnd (rnd (rnd (l - rnd (2 * m)) + r) / 2)

/-- The coefficient `b`, signal_vector_util.h:517. -/
noncomputable def coefB (rnd : ℝ → ℝ) (l r : ℝ) : ℝ := rnd (rnd (r - l) / 2)

/-- `delta`, signal_vector_util.h:532. -/
noncomputable def delta (rnd : ℝ → ℝ) (a b : ℝ) : ℝ := max (-1) (min (rnd (-b / rnd (2 * a))) 1)

/-- `QuadraticInterpolateMax` returns `v` and sets `*max_location` to `loc`, signal_vector_util.h:504-541; for an index that
passes the checks of lines 506-507. `kTolerance` (line 513) is 4 * 2^-23. -/
def Interpolate (rnd : ℝ → ℝ) (x : List ℝ) (x0 : ℕ) (v loc : ℝ) : Prop :=
  let s := fun i : ℕ => x.getD i 0
  if x0 = 0 ∨ x0 = x.length - 1 then loc = rnd x0 ∧ v = s x0
  else
    let a := coefA rnd (s (x0 - 1)) (s x0) (s (x0 + 1))
    let b := coefB rnd (s (x0 - 1)) (s (x0 + 1))
    if |b| < 4 * (1 / 2 ^ 23) then loc = rnd x0 ∧ v = s x0
    else if a < 0 then
      let d := delta rnd a b
      loc = rnd (rnd x0 + d) ∧ ∃ g, IsMulAdd rnd a d b g ∧ IsMulAdd rnd g d (s x0) v
    else
      let x1 := if b < 0 then x0 - 1 else x0 + 1
      loc = rnd x1 ∧ v = s x1

end Verif.FloatQuadratic
