import Verif.Model.IirElliptic
import Verif.Spec.EllipticDesign
import Verif.Spec.IirDesign

/-!
# Specification for the elliptic designs of the portable library
-/

namespace Verif.IirElliptic.Spec
open Verif.PortableComplex Verif.Elliptic.Spec

/-- The functions that portable/elliptic_fun.h documents: `EllipticK`, `EllipticF` and the amplitude, an angle whose sine
is `sn` (the principal one). -/
noncomputable def exact : Ops where
  K m := if 0 ≤ m ∧ m < 1 then some (K m) else none
  F phi m := ⟨(Fc phi.val m).re, (Fc phi.val m).im⟩
  am u m := ⟨(Verif.Elliptic.casin (Sn u.val m)).re, (Verif.Elliptic.casin (Sn u.val m)).im⟩

end Verif.IirElliptic.Spec
