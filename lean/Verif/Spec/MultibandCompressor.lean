import Verif.Model.MultibandCompressor
import Verif.Spec.MultiCrossover
import Verif.Spec.Drc

/-! # Specification vocabulary for the multi-band compressor -/

namespace Verif.MultibandCompressor.Spec
open Verif.MultiCrossover.Spec

variable {C : ℕ}

/-- A multichannel signal with every channel passed through the same filters, one after the other. -/
noncomputable def filtered (cfg : Ladder.Config) (fs : List Ladder.Filter) (x : List (Fin C → ℝ)) : List (Fin C → ℝ) :=
  (List.range x.length).map fun t c => (cascade cfg fs (x.map fun f => f c)).2.getD t 0

/-- Sum of the signals `y 0, ..., y (n - 1)`, over `len` frames. -/
noncomputable def mix (n len : ℕ) (y : ℕ → List (Fin C → ℝ)) : List (Fin C → ℝ) :=
  (List.range len).map fun t => ∑ i ∈ Finset.range n, (y i).getD t 0

end Verif.MultibandCompressor.Spec
