import Verif.Model.Biquad
import Verif.Model.FilterDesign
import Verif.Model.Resampler
import Mathlib.Analysis.SpecialFunctions.Exp

/-!
# Model of the envelope followers

`audio/dsp/attack_release_envelope.{h,cc}` and `audio/dsp/envelope_detector.{h,cc}`, over the reals
(rounding is not modelled). `none`: a `CHECK` fails (or, for `EnvelopeDetector`, the resampler
model reports an abnormal outcome).
-/

namespace Verif.Envelope
open Verif.Biquad Verif.BiquadCascade Verif.FilterDesign

/-- The coefficients a `BiquadFilter` is initialised with, out of the vectors of the design
functions (biquad_filter_coefficients.h:63-76). -/
def coeffsOf (s : Stage ℝ) : Coeffs ℝ :=
  ⟨s.b.getD 0 0, s.b.getD 1 0, s.b.getD 2 0, s.a.getD 0 0, s.a.getD 1 0, s.a.getD 2 0⟩

open Classical in
/-- `LowpassBiquadFilterCoefficients` followed by `BiquadFilter::Init`. -/
noncomputable def lowpassFilter (rate corner Q : ℝ) : Option (Biquad.Filter ℝ) := do
  let s ← lowpass rate corner Q
  Biquad.init (coeffsOf s)

/-- `FirstOrderCoefficientFromTimeConstant`, discretization.h:58-61. -/
noncomputable def firstOrderCoefficient (seconds rate : ℝ) : ℝ :=
  1 - Real.exp (-1 / (seconds * rate))

/-- Members of `AttackReleaseEnvelope`, attack_release_envelope.h:77-86. Both smoothers have the
same coefficients. -/
structure AttackRelease where
  envelope : ℝ
  attack : ℝ
  release : ℝ
  rate : ℝ
  smoother : Biquad.Filter ℝ
  attackState : ℝ × ℝ
  releaseState : ℝ × ℝ

/-- `Reset`, attack_release_envelope.h:69-73. -/
noncomputable def AttackRelease.reset (s : AttackRelease) : AttackRelease :=
  { s with
    envelope := 0
    attackState := steadyState s.smoother s.attack
    releaseState := steadyState s.smoother s.release }

/-- The constructor, attack_release_envelope.cc:30-47, with the interpolation rate of
`AttackReleaseEnvelopeParams` (200 Hz by default). -/
noncomputable def AttackRelease.make (attack_s release_s interpolation_hz rate : ℝ) :
    Option AttackRelease := do
  let f ← lowpassFilter rate interpolation_hz (49 / 100)
  return AttackRelease.reset
    { envelope := 0
      attack := firstOrderCoefficient attack_s rate
      release := firstOrderCoefficient release_s rate
      rate := rate
      smoother := f
      attackState := resetState
      releaseState := resetState }

/-- `SetAttackTimeSeconds`, attack_release_envelope.cc:49-51. -/
noncomputable def AttackRelease.setAttack (s : AttackRelease) (seconds : ℝ) : AttackRelease :=
  { s with attack := firstOrderCoefficient seconds s.rate }

/-- `SetReleaseTimeSeconds`, attack_release_envelope.cc:53-55. -/
noncomputable def AttackRelease.setRelease (s : AttackRelease) (seconds : ℝ) : AttackRelease :=
  { s with release := firstOrderCoefficient seconds s.rate }

open Classical in
/-- `Output`, attack_release_envelope.cc:57-71. -/
noncomputable def AttackRelease.output (s : AttackRelease) (input : ℝ) : AttackRelease × ℝ :=
  let rectified := |input|
  let a := Biquad.step s.smoother s.attackState s.attack
  let r := Biquad.step s.smoother s.releaseState s.release
  let coefficient := if rectified > s.envelope then a.2 else r.2
  let e := s.envelope + coefficient * (rectified - s.envelope)
  ({ s with attackState := a.1, releaseState := r.1, envelope := e }, e)

/-- What a client can do with an `AttackReleaseEnvelope`. -/
inductive Op where
  | output (x : ℝ)
  | setAttack (seconds : ℝ)
  | setRelease (seconds : ℝ)
  | reset

/-- The effect of one call on the object. -/
noncomputable def AttackRelease.apply (s : AttackRelease) : Op → AttackRelease
  | .output x => (s.output x).1
  | .setAttack t => s.setAttack t
  | .setRelease t => s.setRelease t
  | .reset => s.reset

/-- A history of calls. -/
noncomputable def AttackRelease.run (s : AttackRelease) (ops : List Op) : AttackRelease :=
  ops.foldl AttackRelease.apply s

/-! ## `EnvelopeDetector` -/

/-- One channel of an `EnvelopeDetector` (envelope_detector.h:84-98): all operations act on each
channel separately. `resampler` is the configuration of `downsampler_`; `mostRecent` the element of
`most_recent_output_`. -/
structure Detector where
  rate : ℝ
  envelopeRate : ℝ
  prefilter : List (Biquad.Filter ℝ × (ℝ × ℝ))
  smoother : Biquad.Filter ℝ
  smootherState : ℝ × ℝ
  resampler : Resampler.Cfg ℝ
  resamplerState : Resampler.St ℝ
  mostRecent : ℝ

open Classical in
/-- `Init`, envelope_detector.cc:26-54. The construction of the resampler out of the two rates is
not part of this function: its configuration is an argument. -/
noncomputable def Detector.init (rate cutoff envelopeRate : ℝ) (coeffs : List (Coeffs ℝ))
    (resampler : Resampler.Cfg ℝ) : Option Detector :=
  if envelopeRate ≤ rate ∧ cutoff < envelopeRate / 2 ∧ cutoff > 0 then do
    let pre ← cascadeInit coeffs
    let f ← lowpassFilter rate cutoff (1 / 2)
    return { rate, envelopeRate, prefilter := pre, smoother := f, smootherState := resetState,
             resampler, resamplerState := Resampler.reset resampler, mostRecent := 0 }
  else none

/-- `Reset`, envelope_detector.cc:56-60. -/
noncomputable def Detector.reset (d : Detector) : Detector :=
  { d with
    prefilter := d.prefilter.map fun p => (p.1, resetState)
    smootherState := resetState
    resamplerState := Resampler.reset d.resampler }

open Classical in
/-- `ProcessBlock` of an initialised detector, envelope_detector.cc:62-89. -/
noncomputable def Detector.processBlock (d : Detector) (input : List ℝ) :
    Option (Detector × List ℝ) := do
  let p := cascadeBlock d.prefilter input
  let squared := p.2.map fun v => v ^ 2
  let m := Stream.runSamples (Biquad.step d.smoother) d.smootherState squared
  let (ys, r) ← if d.envelopeRate = d.rate then some (m.2, d.resamplerState)
    else Resampler.process d.resampler d.resamplerState m.2
  let out := ys.map fun v => √|v|
  return ({ d with
    prefilter := p.1
    smootherState := m.1
    resamplerState := r
    mostRecent := if out.length > 0 then out.getLastD 0 else d.mostRecent }, out)

end Verif.Envelope
