import Mathlib.Analysis.SpecialFunctions.Sqrt
import Mathlib.Algebra.BigOperators.Intervals

/-!
# The power-normalized ladder filter

The equations of the filter (Gray and Markel 1975; equation (14) of the reference in ladder_filter.h) over the real
numbers, with reflection coefficients `k n i` and tap gains `v n m` that may change with every sample `n`. `s n` is the
state before sample `n`, `f n i` the signal that leaves stage `i` downwards.
-/

namespace Verif.NormalizedLadder
open Finset

/-- `y` is the output for the input `x`, from rest. -/
def Ideal (M : ℕ) (k v : ℕ → ℕ → ℝ) (x y : ℕ → ℝ) : Prop :=
  ∃ s f : ℕ → ℕ → ℝ, (∀ i, s 0 i = 0) ∧ (∀ n, f n M = x n) ∧
    (∀ n i, i < M → s (n + 1) (i + 1) = k n i * f n (i + 1) + √(1 - k n i ^ 2) * s n i) ∧
    (∀ n i, i < M → f n i = √(1 - k n i ^ 2) * f n (i + 1) - k n i * s n i) ∧
    (∀ n, s (n + 1) 0 = f n 0) ∧
    ∀ n, y n = ∑ m ∈ range (M + 1), s (n + 1) m * v n m

end Verif.NormalizedLadder
