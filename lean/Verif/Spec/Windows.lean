import Mathlib.Analysis.SpecialFunctions.Integrals.Basic

/-!
# Specification of window functions (C37, C62)
-/

namespace Verif.WindowSpec

/-- A window of radius `r`, up to a relative tolerance `tol` of the radius. -/
structure IsWindow (r tol : ℝ) (w : ℝ → ℝ) : Prop where
  /-- symmetric -/
  even : ∀ x, w (-x) = w x
  /-- one at the centre -/
  center : w 0 = 1
  /-- between zero and one -/
  range : ∀ x, 0 ≤ w x ∧ w x ≤ 1
  /-- non-increasing away from the centre -/
  unimodal : ∀ x y, |x| ≤ |y| → w y ≤ w x
  /-- zero outside the radius -/
  support : ∀ x, (1 + tol) * r ≤ |x| → w x = 0

/-- The Fourier transform at frequency `f` of an even function on `[-r, r]`. -/
noncomputable def fourier (r : ℝ) (w : ℝ → ℝ) (f : ℝ) : ℝ :=
  ∫ x in (-r)..r, w x * Real.cos (2 * Real.pi * f * x)

end Verif.WindowSpec
