import Mathlib.Analysis.SpecialFunctions.Log.Base
import Mathlib.Algebra.BigOperators.Intervals
import Verif.Model.SpectralProperties

/-!
# Specification of the spectral properties of a window (C96)

The energy spectrum `E k` is sampled at the frequencies `k / 200`, `k = 0, ..., 600`.
-/

namespace Verif.SpectralProperties.Spec

/-- A conversion from `double` to `float`: monotone, with relative error at most `2⁻²⁴` and underflow error `2⁻¹⁵⁰`. -/
structure Rounding (rnd : ℝ → ℝ) : Prop where
  mono : Monotone rnd
  close : ∀ x, |rnd x - x| ≤ (1 / 2) ^ 24 * |x| + (1 / 2) ^ 150

/-- `j` is the first sample not above half the maximum. -/
def IsHalfWidth (rnd : ℝ → ℝ) (E : ℕ → ℝ) (j : ℕ) : Prop :=
  rnd (E j) ≤ E 0 / 2 ∧ ∀ i < j, E 0 / 2 < rnd (E i)

/-- The main lobe, which has half width `j`, ends at `m`: the spectrum does not rise from `j` to `m - 1`, and rises
at `m`. -/
def IsLobeEnd (rnd : ℝ → ℝ) (E : ℕ → ℝ) (j m : ℕ) : Prop :=
  j < m ∧ rnd (E (m - 1)) < rnd (E m) ∧ ∀ i, j ≤ i → i + 1 < m → rnd (E (i + 1)) ≤ rnd (E i)

/-- `M` is the largest value of `E` from `m` to `600`. -/
def IsHighest (E : ℕ → ℝ) (m : ℕ) (M : ℝ) : Prop :=
  (∃ i, m ≤ i ∧ i ≤ 600 ∧ E i = M) ∧ ∀ i, m ≤ i → i ≤ 600 → E i ≤ M

end Verif.SpectralProperties.Spec
