import Verif.Model.Rounding
import Verif.Model.Fir

/-!
# `FirFilter` with the arithmetic of the machine

`Verif.Fir.firRun` (audio/linear_filters/fir_filter.h:49-94) on numbers whose operations round. The products go to
`workspace_` (line 80) before they are added (lines 85-92), so that no fused multiply-add can occur.
-/

namespace Verif.Rounding

/-- A number of the machine; an operation is the exact one followed by `rnd`. -/
structure Fl (rnd : ℝ → ℝ) where
  val : ℝ

noncomputable section

variable {rnd : ℝ → ℝ}

instance : Zero (Fl rnd) := ⟨⟨0⟩⟩
instance : Add (Fl rnd) := ⟨fun x y => ⟨rnd (x.val + y.val)⟩⟩
instance : Mul (Fl rnd) := ⟨fun x y => ⟨rnd (x.val * y.val)⟩⟩

end

end Verif.Rounding
