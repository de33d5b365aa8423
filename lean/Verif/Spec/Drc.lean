import Verif.Spec.DrcCurves
import Verif.Model.Drc
import Mathlib.Analysis.SpecialFunctions.Log.Base

/-!
# What a dynamic range control is documented to do

From dynamic_range_control.h:17-100 and 139-239: the mean power (or magnitude) of the channels is
followed by an attack/release envelope, converted to decibels, mapped by the static curve, and the
resulting gain is applied to the input delayed by the look-ahead. Only the record `Params` is shared
with the model.
-/

namespace Verif.Drc.Spec

/-- Output level in dB for an input level in dB (both before the output gain). A noise gate is an
expander with ratio 1000. -/
noncomputable def curve (p : Params) (x : ℝ) : ℝ :=
  match p.kind with
  | .compressor => Spec.compressor x p.threshold p.ratio p.knee
  | .limiter => Spec.limiter x p.threshold p.knee
  | .expander => Spec.expander x p.threshold p.ratio p.knee
  | .noiseGate => Spec.expander x p.threshold 1000 p.knee

/-- Level in dB of a detected power (`rms`) or magnitude. -/
noncomputable def level (rms : Bool) (v : ℝ) : ℝ :=
  if rms then 10 * Real.logb 10 v else 20 * Real.logb 10 v

/-- Gain in dB for an input level in dB. -/
noncomputable def gainDb (p : Params) (x : ℝ) : ℝ :=
  curve p (x + p.inputGain) - x + p.outputGain

/-- dB to amplitude. -/
noncomputable def amplitude (db : ℝ) : ℝ := (10 : ℝ) ^ (db / 20)

/-- Mean power or mean magnitude of a frame. -/
noncomputable def detected {C : ℕ} (rms : Bool) (x : Fin C → ℝ) : ℝ :=
  (∑ c, if rms then x c ^ 2 else |x c|) / C

/-- One step of the attack/release follower with coefficients `1 - exp (-1 / (time * rate))`. -/
noncomputable def follow (attack release rate e v : ℝ) : ℝ :=
  e + (if e < v then 1 - Real.exp (-1 / (attack * rate))
    else 1 - Real.exp (-1 / (release * rate))) * (v - e)

/-- The envelope after a sequence of frames. -/
noncomputable def envelope {C : ℕ} (p : Params) (rate : ℝ) (xs : List (Fin C → ℝ)) : ℝ :=
  (xs.map (detected p.rms)).foldl (follow p.attack p.release rate) 0

/-- Linear gain after a sequence of frames (levels are limited to 1e-12 from below). -/
noncomputable def gain {C : ℕ} (p : Params) (rate : ℝ) (xs : List (Fin C → ℝ)) : ℝ :=
  amplitude (gainDb p (level p.rms (max (1 / 10 ^ 12) (envelope p rate xs))))

/-- The output for a whole signal and sidechain: at time `n` the input `L` frames ago times the gain
computed from the sidechain up to time `n`. -/
noncomputable def output {C : ℕ} (p : Params) (rate : ℝ) (L : ℕ) (x sidechain : List (Fin C → ℝ)) :
    List (Fin C → ℝ) :=
  (List.range x.length).map fun n c =>
    (if n < L then 0 else x.getD (n - L) 0 c) * gain p rate (sidechain.take (n + 1))

end Verif.Drc.Spec
