import Mathlib.Data.Real.Basic

/-!
# Documented input/output characteristics of the dynamic range control curves

The three scalar functions transcribe the "Equivalent code" of the comments in
dynamic_range_control_functions.h:78-88 and 117-127 (the limiter is the compressor with an infinite
ratio, i.e. `1 / ratio = 0`). `twoWayHard` is the piecewise linear curve described in lines 164-210
for knees of width zero.
-/

namespace Verif.Drc.Spec

/-- The documented compressor. -/
noncomputable def compressor (x T ratio knee : ℝ) : ℝ :=
  if x - T ≤ -(knee / 2) then x
  else if knee / 2 ≤ x - T then T + (x - T) / ratio
  else x + (1 / ratio - 1) * (x - T + knee / 2) ^ 2 / (knee * 2)

/-- The documented compressor for an infinite ratio. -/
noncomputable def limiter (x T knee : ℝ) : ℝ :=
  if x - T ≤ -(knee / 2) then x
  else if knee / 2 ≤ x - T then T
  else x + (0 - 1) * (x - T + knee / 2) ^ 2 / (knee * 2)

/-- The documented expander. -/
noncomputable def expander (x T ratio knee : ℝ) : ℝ :=
  if knee / 2 ≤ x - T then x
  else if x - T ≤ -(knee / 2) then T + (x - T) * ratio
  else x + (1 - ratio) * (x - T - knee / 2) ^ 2 / (knee * 2)

/-- The two-way curve with zero knees: slope `re` (expansion) up to `Te`, slope `1/ru` (upwards
compression) up to `Tu`, slope 1 up to `Ts`, slope `1/rs` (soft compression) up to `Th`, slope
`1/rh` (hard compression) above; continuous, and the identity between `Tu` and `Ts`. -/
noncomputable def twoWayHard (x Te re Tu ru Ts rs Th rh : ℝ) : ℝ :=
  if x ≤ Te then Tu + (Te - Tu) / ru + (x - Te) * re
  else if x ≤ Tu then Tu + (x - Tu) / ru
  else if x ≤ Ts then x
  else if x ≤ Th then Ts + (x - Ts) / rs
  else Ts + (Th - Ts) / rs + (x - Th) / rh

end Verif.Drc.Spec
