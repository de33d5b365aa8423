import Mathlib.Analysis.SpecialFunctions.Trigonometric.Basic
import Mathlib.Analysis.SpecialFunctions.Log.Basic
import Mathlib.Algebra.BigOperators.Group.Finset.Basic

/-!
# Specification of the MFCC computation (C35, C36, C63)
-/

namespace Verif.MfccSpec
open Finset

/-- Coefficient `k` of the (scaled) type 2 discrete cosine transform of a signal of length `n`. -/
noncomputable def dct (n : ℕ) (x : ℕ → ℝ) (k : ℕ) : ℝ :=
  ∑ j ∈ range n, √(2 / n) * Real.cos (Real.pi * k * (j + 1 / 2) / n) * x j

/-- The mel scale. -/
noncomputable def mel (f : ℝ) : ℝ := 1127 * Real.log (1 + f / 700)

/-- The position of a frequency among `n` channels evenly spaced in mel between `lower` and `upper`:
channel `c` has its centre at position `c`, `lower` is at -1 and `upper` at `n`. -/
noncomputable def position (n : ℕ) (lower upper f : ℝ) : ℝ :=
  (mel f - mel lower) / (mel upper - mel lower) * (n + 1) - 1

/-- The triangle of height 1 centred at `c` that reaches zero at the neighbouring centres. -/
noncomputable def triangle (c : ℕ) (p : ℝ) : ℝ := max 0 (1 - |p - c|)

/-- The bins used: those above half a bin over the lower limit and not above the upper limit. -/
def Used (hz lower upper : ℝ) (i : ℕ) : Prop := lower + hz / 2 < i * hz ∧ i * hz ≤ upper

open Classical in
/-- The weight of bin `i` (at frequency `i * hz`) in channel `c`. -/
noncomputable def weight (n : ℕ) (hz lower upper : ℝ) (c i : ℕ) : ℝ :=
  if Used hz lower upper i then triangle c (position n lower upper (i * hz)) else 0

/-- The output of channel `c` for a power spectrum of `k` bins. -/
noncomputable def channel (n : ℕ) (hz lower upper : ℝ) (k : ℕ) (power : ℕ → ℝ) (c : ℕ) : ℝ :=
  ∑ i ∈ range k, weight n hz lower upper c i * √(power i)

end Verif.MfccSpec
