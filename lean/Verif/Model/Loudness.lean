import Verif.Model.PerceptualFilter
import Verif.Model.Biquad
import Verif.Model.BiquadCascade
import Verif.Model.Drc
import Verif.Model.Stream

/-!
# Model of the streaming loudness meter

`audio/dsp/loudness/streaming_loudness_1771.{h,cc}`. Samples are real numbers (rounding is not modelled). A block is
the list of its columns (frames); the number of channels `C` given to `Init` is the type parameter, so blocks with
another number of rows (on which the filters `CHECK`-fail) are not represented.
-/

namespace Verif.Loudness
open Verif.Stream Verif.Biquad Verif.BiquadCascade

/-- A value in decibels as computed in floating point: the logarithm of zero is minus infinity and the logarithm of a
negative number is NaN. -/
inductive Db where
  | value (x : ℝ)
  | minusInfinity
  | nan

/-- One element of `PowerRatioToDecibels` of an array, decibels.h:64-69. -/
noncomputable def powerDb (p : ℝ) : Db :=
  if 0 < p then .value (Drc.powerToDb p) else if p = 0 then .minusInfinity else .nan

/-- `StreamingLoudnessParams`, streaming_loudness_1771.h:46-159. -/
structure Params where
  weights : List ℝ
  averaging : Coeffs ℝ

/-- `FirstOrderLowPassBiquadCoefficients`, streaming_loudness_1771.h:136-144, with
`FirstOrderCoefficientFromTimeConstant`, discretization.h:58-61. -/
noncomputable def firstOrderLowPass (timeConstant rate : ℝ) : Coeffs ℝ :=
  let c := Envelope.firstOrderCoefficient timeConstant rate
  ⟨c, 0, 0, 1, c - 1, 0⟩

/-- `Mono1771Params`, streaming_loudness_1771.h:61-69. -/
noncomputable def mono (timeConstant rate : ℝ) : Params := ⟨[1], firstOrderLowPass timeConstant rate⟩

/-- `Stereo1771Params`, streaming_loudness_1771.h:81-90. -/
noncomputable def stereo (timeConstant rate : ℝ) : Params := ⟨[1, 1], firstOrderLowPass timeConstant rate⟩

/-- `Surround51Channel1771Params`, streaming_loudness_1771.h:107-117. -/
noncomputable def surround51 (timeConstant rate : ℝ) : Params :=
  ⟨[1, 1, 1, 0, 1.41, 1.41], firstOrderLowPass timeConstant rate⟩

/-- `kITU1771TimeConstantSeconds` of the `…Strict` variants, streaming_loudness_1771.h:53, 74-76, 95-97, 122-126. -/
noncomputable def strictTimeConstant : ℝ := 0.4

/-- The filters of the meter after `Init`: the cascade `k_weighting_filter_` of every channel with its state, and
`averaging_filter_` with its state. -/
structure Filters (C : ℕ) where
  kWeighting : Fin C → List (Biquad.Filter ℝ × (ℝ × ℝ))
  averaging : Biquad.Filter ℝ
  averagingState : ℝ × ℝ

/-- `StreamingLoudness1771`, streaming_loudness_1771.h:163-235. `filters` is `none` while the filters have not been
initialised. -/
structure Meter (C : ℕ) where
  weights : List ℝ
  filters : Option (Filters C)

/-- The constructor, streaming_loudness_1771.h:165 and 47-49. -/
def Meter.new (C : ℕ) : Meter C := ⟨[], none⟩

/-- `StreamingLoudness1771::Init`, streaming_loudness_1771.cc:26-43; the parameters are stored before they are
checked. `none`: a `CHECK` fails in the filters. -/
noncomputable def Meter.init {C : ℕ} (m : Meter C) (p : Params) (rate : ℝ) : Option (Meter C × Bool) :=
  if p.weights.length ≠ C then some (⟨p.weights, m.filters⟩, false)
  else
    match PerceptualFilter.coefficients (1 / 10 ^ 10) .k rate with
    | none => none
    | some cs =>
      match cascadeInit (cs.map Stage.coeffs), Biquad.init p.averaging with
      | some k, some f => some (⟨p.weights, some ⟨fun _ => k, f, resetState⟩⟩, true)
      | _, _ => none

/-- `BiquadFilterCascade::Reset`, biquad_filter-inl.h:186-191, one channel. -/
noncomputable def cascadeReset (k : List (Biquad.Filter ℝ × (ℝ × ℝ))) : List (Biquad.Filter ℝ × (ℝ × ℝ)) := k.map fun f => (f.1, resetState)

/-- `StreamingLoudness1771::Reset`, streaming_loudness_1771.cc:45-48. On uninitialised filters it does nothing of
interest (the filters are as before). -/
noncomputable def Meter.reset {C : ℕ} (m : Meter C) : Meter C :=
  { m with filters := m.filters.map fun f => ⟨fun c => cascadeReset (f.kWeighting c), f.averaging, resetState⟩ }

/-- Lines 185-204 of `ProcessBlock`, streaming_loudness_1771.h: the averaged power. `none`: the filters are not
initialised or the loop at 196-198 reads past the end of `channel_weights`. -/
noncomputable def Meter.power {C : ℕ} (m : Meter C) (x : List (Fin C → ℝ)) : Option (Meter C × List ℝ) :=
  match m.filters with
  | none => none
  | some f =>
    if m.weights.length < C then none
    else
      let y := fun c => cascadeBlock (f.kWeighting c) (x.map (· c))
      let sums := (List.range x.length).map fun t => ∑ c : Fin C, (y c).2.getD t 0 ^ 2 * m.weights.getD c 0
      let a := runSamples (Biquad.step f.averaging) f.averagingState sums
      some ({ m with filters := some ⟨fun c => (y c).1, f.averaging, a.1⟩ }, a.2)

/-- `StreamingLoudness1771::ProcessBlock`, streaming_loudness_1771.h:183-207. -/
noncomputable def Meter.processBlock {C : ℕ} (m : Meter C) (x : List (Fin C → ℝ)) : Option (Meter C × List Db) :=
  match m.power x with
  | none => none
  | some r => some (r.1, r.2.map powerDb)

/-- The map over the interleaved samples in `ProcessVector`, streaming_loudness_1771.h:215-217: column `t`, row `ch` of
the column-major map is element `t * num_channels + ch`. -/
def deinterleave (C : ℕ) (v : List ℝ) : List (Fin C → ℝ) :=
  (List.range (v.length / C)).map fun t c => v.getD (t * C + c) 0

/-- `StreamingLoudness1771::ProcessVector`, streaming_loudness_1771.h:213-222; `none` also for the division by zero
when there are no weights. A number of weights other than the initialised number of channels makes the filters
`CHECK`-fail: `none`. -/
noncomputable def Meter.processVector {C : ℕ} (m : Meter C) (v : List ℝ) : Option (Meter C × List Db) :=
  if m.weights.length = 0 then none
  else if m.weights.length = C then m.processBlock (deinterleave C v)
  else none

/-- Successive calls of `ProcessBlock`. -/
noncomputable def Meter.run {C : ℕ} : Meter C → List (List (Fin C → ℝ)) → Option (Meter C × List (List Db))
  | m, [] => some (m, [])
  | m, x :: xs =>
    match m.processBlock x with
    | none => none
    | some r => (r.1.run xs).map fun rs => (rs.1, r.2 :: rs.2)

end Verif.Loudness
