import Mathlib.Algebra.BigOperators.Intervals
import Mathlib.Algebra.Ring.Hom.Defs

/-!
# Specification of linear filters

`DiffEq b a xs ys`: the signal `ys` is the response of the filter with numerator `b` and
denominator `a` to `xs`, with zero history:
`a₀ y[n] + a₁ y[n-1] + … = b₀ x[n] + b₁ x[n-1] + …` for every sample `n`.
-/

namespace Verif.LinearFilter.Spec
open Finset

variable {R : Type} [CommRing R]

/-- `x[n - k]`, zero before the start of the signal. -/
def past (x : List R) (n k : ℕ) : R := if k ≤ n then x.getD (n - k) 0 else 0

/-- Difference equation with zero initial history. -/
def DiffEq (b a xs ys : List R) : Prop :=
  ys.length = xs.length ∧ ∀ n, n < xs.length →
    ∑ k ∈ range a.length, a.getD k 0 * past ys n k
      = ∑ k ∈ range b.length, b.getD k 0 * past xs n k

/-- Causal convolution with a finite kernel: `y[n] = Σ_k h[k] x[n-k]`. -/
def IsConv (h xs ys : List R) : Prop :=
  ys.length = xs.length ∧ ∀ n, n < xs.length →
    ys.getD n 0 = ∑ k ∈ range h.length, h.getD k 0 * past xs n k

/-- The polynomial `p₀ + p₁ w + p₂ w² + …` (with `w = z⁻¹`) at a point `w` of a ring `A` into which
the coefficients are embedded by `φ`. -/
def evalZ {A : Type} [CommRing A] (φ : R →+* A) (p : List R) (w : A) : A :=
  ∑ k ∈ range p.length, φ (p.getD k 0) * w ^ k

end Verif.LinearFilter.Spec
