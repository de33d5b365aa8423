import Mathlib.Analysis.SpecialFunctions.Exp
import Mathlib.Algebra.BigOperators.Group.Finset.Basic

/-!
# Specification of automatic gain control (C33)
-/

namespace Verif.AgcSpec

/-- The average of a pseudo sample 1 and the first `n` power samples. -/
noncomputable def average (x : ℕ → ℝ) (n : ℕ) : ℝ := (1 + ∑ k ∈ Finset.range n, x k) / (1 + n)

/-- The power estimate after `n` samples with a warm-up of `w` samples: the average during the
warm-up, then the exponentially weighted moving average with coefficient `c` started from it. -/
noncomputable def estimate (w : ℕ) (c : ℝ) (x : ℕ → ℝ) (n : ℕ) : ℝ :=
  if n ≤ w then average x n
  else (1 - c) ^ (n - w) * average x w +
    c * ∑ k ∈ Finset.range (n - w), (1 - c) ^ k * x (n - 1 - k)

end Verif.AgcSpec
