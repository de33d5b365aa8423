import Verif.Spec.Drc
import Verif.Model.LoudnessCompressor

/-!
# What the loudness-driven two-way compressor is documented to do

loudness_1771_two_way_compressor.h:17-56, 85-128: the averaged weighted power of the signal (see
`Verif.Loudness.Spec.Power`) is followed by an attack/release envelope and converted to decibels; the two-way curve (C29)
maps the level plus the input gain to an output level; the difference plus the output gain is the gain, applied to the
input delayed by the look-ahead. Only the record `Params` and the static curve are shared with the model.
-/

namespace Verif.LoudnessCompressor.Spec
open Verif.LoudnessCompressor

/-- Level in dB after a sequence of average powers; levels are limited to -120 dB from below. -/
noncomputable def level (p : Params) (rate : ℝ) (powers : List ℝ) : ℝ :=
  10 * Real.logb 10 (max (1 / 10 ^ 12) (powers.foldl (Drc.Spec.follow p.attack p.release rate) 0))

/-- `y` is the signal `x` delayed by `L` frames times the gains that the powers `P` require. -/
def Compressed {C : ℕ} (p : Params) (rate : ℝ) (L : ℕ) (x : List (Fin C → ℝ)) (P : List ℝ) (y : List (Fin C → ℝ)) : Prop :=
  y.length = x.length ∧ ∀ n, n < x.length → ∃ out,
    Drc.twoWay (level p rate (P.take (n + 1)) + p.inputGain) p.twoWay = some out ∧
    ∀ c, y.getD n 0 c = (if n < L then 0 else x.getD (n - L) 0 c) *
      Drc.Spec.amplitude (out - level p rate (P.take (n + 1)) + p.outputGain)

end Verif.LoudnessCompressor.Spec
