import Verif.Model.EllipticDesign
import Verif.Spec.Jacobi

/-!
# Elliptic filters

The elliptic rational function `R` of order `N` and modulus `k`: the zeros are `ζ_j = sn((2 j + 1 - N) K / N)`, the
poles `1 / (k ζ_j)`, and `R(1) = 1`.
-/

namespace Verif.EllipticDesign.Spec
open Verif.Elliptic.Spec

/-- The functions that elliptic_functions.h documents: `EllipticK`, `EllipticF` and the amplitude, an angle whose sine is
`sn` (`std::asin` returns the principal one). -/
noncomputable def exact : Ops where
  K m := if 0 ≤ m ∧ m < 1 then some (K m) else none
  F := Fc
  am u m := Verif.Elliptic.casin (Sn u m)

/-- The degree equation `N K'/K = K₁'/K₁` between the moduli `k` and `k₁`. -/
def DegreeEquation (N : ℕ) (k k₁ : ℝ) : Prop := N * (K (1 - k ^ 2) / K (k ^ 2)) = K (1 - k₁ ^ 2) / K (k₁ ^ 2)

/-- The zeros of `R`. -/
noncomputable def root (N : ℕ) (k : ℝ) (j : ℕ) : ℝ := sn ((2 * j + 1 - N) * K (k ^ 2) / N) (k ^ 2)

/-- The numerator of `R`. -/
noncomputable def num (N : ℕ) (k x : ℝ) : ℝ :=
  ∏ j ∈ Finset.range N, (x - root N k j) / (1 - root N k j)

/-- The denominator of `R`. -/
noncomputable def den (N : ℕ) (k x : ℝ) : ℝ :=
  ∏ j ∈ Finset.range N, (1 - k * root N k j * x) / (1 - k * root N k j)

/-- The power response `1 / (1 + ε² R(ω)²)` of the elliptic filter, extended by 0 to the poles of `R`. -/
noncomputable def elliptic (N : ℕ) (k ε ω : ℝ) : ℝ := den N k ω ^ 2 / (den N k ω ^ 2 + ε ^ 2 * num N k ω ^ 2)

end Verif.EllipticDesign.Spec
