import Verif.Model.Envelope
import Verif.Model.Ladder
import Mathlib.Analysis.SpecialFunctions.Log.Base

/-!
# Model of the background level detector

`audio/dsp/loudness/background_level_detector.{h,cc}`. Numbers are real (rounding, overflow and NaN
are not modelled). One channel is modelled: every operation acts on each channel separately, with
shared coefficients. The perceptual prefilter coefficients and the resampler configuration of the
envelope detector are arguments of `init`. `none`: a `CHECK` fails.
-/

namespace Verif.BackgroundLevel
open Verif.Biquad Verif.Envelope Verif.FilterDesign

/-- `BackgroundLevelDetectorParams`, background_level_detector.h:40-85 (`weighting`, which only
selects the prefilter, is left out). -/
structure Params where
  slowCutoff : ℝ
  fastCutoff : ℝ
  timeConstant : ℝ
  sensitivity : ℝ
  rejectionTime : ℝ
  envelopeRate : ℝ

/-- The default values, background_level_detector.h:41-48. -/
noncomputable def Params.default : Params := ⟨1, 16, 1, 7 / 10, 8 / 10, 100⟩

/-- The checks at the start of `Init`, background_level_detector.cc:31-38. -/
def Params.Checked (p : Params) : Prop :=
  p.fastCutoff < p.envelopeRate / 2 ∧ p.slowCutoff < p.envelopeRate / 2 ∧ p.fastCutoff > 0 ∧
    p.slowCutoff > 0 ∧ p.sensitivity > 0 ∧ p.sensitivity ≤ 1

/-- One channel's element of `background_previous_samples_`, `transient_counters_` and
`burn_in_stage_`. The counter is unbounded (a C++ `int`). -/
structure Chan where
  prev : ℝ
  counter : ℤ
  burnIn : Bool

/-- What the sample loop reads: `background_coeff_`, `burn_in_background_coeff_`,
`sensitivity_factor` and `transient_rejection_time_samples_`. -/
structure Consts where
  coeff : ℝ
  burnCoeff : ℝ
  factor : ℝ
  rejection : ℤ

open Classical in
/-- The decision part of the loop body, background_level_detector.cc:112-137. `fast`, `slow` are the
two envelope samples. -/
noncomputable def classify (c : Consts) (s : Chan) (fast slow : ℝ) : Chan :=
  if s.burnIn then
    if s.prev - 1 / 10000 > fast then { s with counter := 0, burnIn := false }
    else { s with counter := 0 }
  else if fast > c.factor * slow then { s with counter := c.rejection }
  else if s.prev - 1 / 10000 > fast then { s with counter := 0 }
  else s

/-- The loop body background_level_detector.cc:109-154 for one channel: new state and the sample
stored in `background_`. -/
noncomputable def step (c : Consts) (s : Chan) (x : ℝ × ℝ) : Chan × ℝ :=
  let a := if s.burnIn then c.burnCoeff else c.coeff
  let d := classify c s x.1 x.2
  let r := if d.counter = 0 then { d with prev := d.prev + a * (min x.2 x.1 - d.prev) }
    else { d with counter := d.counter - 1 }
  (r, r.prev)

/-- `BackgroundLevelDetector` after initialisation, background_level_detector.h:144-172. -/
structure Obj where
  params : Params
  envelope : Detector
  slow : Ladder.Filter
  coeff : ℝ
  burnCoeff : ℝ
  rejection : ℤ
  chan : Chan
  fastDb : List ℝ
  backgroundDb : List ℝ

/-- Conversion of a floating point number to `int`: towards zero. -/
noncomputable def toInt (x : ℝ) : ℤ := if 0 ≤ x then ⌊x⌋ else ⌈x⌉

/-- `AmplitudeRatioToDecibels` of an array after adding `1e-12`, decibels.h:39-44,
background_level_detector.cc:157-158. -/
noncomputable def toDb (x : ℝ) : ℝ := 20 / Real.log 10 * Real.log (x + 1 / 10 ^ 12)

/-- `Reset`, background_level_detector.cc:67-75. -/
noncomputable def Obj.reset (cfg : Ladder.Config) (o : Obj) : Obj :=
  { o with
    envelope := o.envelope.reset
    slow := Ladder.reset cfg o.slow
    chan := ⟨0, 0, true⟩
    fastDb := []
    backgroundDb := [] }

open Classical in
/-- `SetBackgroundSmootherTimeConstant`, background_level_detector.cc:171-183. -/
noncomputable def Obj.setTimeConstant (o : Obj) (t : ℝ) : Option Obj :=
  if t > 1 / (2 * Real.pi * o.params.envelopeRate) then
    some { o with
      params := { o.params with timeConstant := t }
      burnCoeff := firstOrderCoefficient (t / 10) o.params.envelopeRate
      coeff := firstOrderCoefficient t o.params.envelopeRate }
  else none

/-- `SetTransientSensitivity`, background_level_detector.cc:185-187. -/
def Obj.setSensitivity (o : Obj) (v : ℝ) : Obj :=
  { o with params := { o.params with sensitivity := v } }

/-- `SetTransientRejectionTime`, background_level_detector.cc:189-194. -/
noncomputable def Obj.setRejectionTime (o : Obj) (t : ℝ) : Obj :=
  { o with
    params := { o.params with rejectionTime := t }
    rejection := toInt (t * o.params.envelopeRate) }

open Classical in
/-- `SetSlowSmootherCutoffHz`, background_level_detector.cc:162-169. -/
noncomputable def Obj.setSlowCutoff (cfg : Ladder.Config) (o : Obj) (hz : ℝ) : Option Obj :=
  if hz < o.params.envelopeRate / 2 then do
    let c ← lowpass o.params.envelopeRate hz (1 / 2)
    let (_, k, v) ← Ladder.makeLadder c.b c.a
    return { o with
      params := { o.params with slowCutoff := hz }
      slow := Ladder.change cfg o.slow k v }
  else none

open Classical in
/-- `Init`, background_level_detector.cc:29-65. `old` is the value of `params_` before the call: the
checks 31-38 read it, not the argument. `weighting` are the coefficients of the perceptual filter,
`resampler` the downsampler configuration of the envelope detector. -/
noncomputable def init (cfg : Ladder.Config) (old new : Params) (rate : ℝ)
    (weighting : List (Coeffs ℝ)) (resampler : Resampler.Cfg ℝ) : Option Obj :=
  if old.Checked then do
    let env ← Detector.init rate new.fastCutoff new.envelopeRate weighting resampler
    let c ← lowpass new.envelopeRate new.slowCutoff (1 / 2)
    let slow ← Ladder.initFromTransferFunction cfg c.b c.a
    let o : Obj := {
      params := new, envelope := env, slow := slow, coeff := 0, burnCoeff := 0, rejection := 0,
      chan := ⟨0, 0, true⟩, fastDb := [], backgroundDb := [] }
    let o ← o.setTimeConstant new.timeConstant
    return ((o.setSensitivity new.sensitivity).setRejectionTime new.rejectionTime).reset cfg
  else none

/-- The constants of the sample loop, background_level_detector.cc:104, 110, 121, 131. -/
noncomputable def Obj.consts (o : Obj) : Consts :=
  ⟨o.coeff, o.burnCoeff, 1 / o.params.sensitivity, o.rejection⟩

/-- The part of `ProcessBlock` after the envelope detector, background_level_detector.cc:84-158;
`fast` is the envelope of the block. -/
noncomputable def Obj.processEnvelope (cfg : Ladder.Config) (o : Obj) (fast : List ℝ) : Obj :=
  let l := Stream.runSamples (Ladder.processSample cfg) o.slow fast
  let r := Stream.runSamples (step o.consts) o.chan (fast.zip l.2)
  { o with
    slow := l.1
    chan := r.1
    fastDb := fast.map toDb
    backgroundDb := r.2.map toDb }

/-- `ProcessBlock` of an initialised detector, background_level_detector.cc:77-160. -/
noncomputable def Obj.processBlock (cfg : Ladder.Config) (o : Obj) (input : List ℝ) :
    Option Obj := do
  let (env, fast) ← o.envelope.processBlock input
  return ({ o with envelope := env }).processEnvelope cfg fast

/-- A client's calls on an initialised detector. -/
inductive Op where
  | process (input : List ℝ)
  | reset
  | setSlowCutoff (hz : ℝ)
  | setTimeConstant (t : ℝ)
  | setSensitivity (v : ℝ)
  | setRejectionTime (t : ℝ)

/-- Effect of a call. -/
noncomputable def Obj.apply (cfg : Ladder.Config) (o : Obj) : Op → Option Obj
  | .process x => o.processBlock cfg x
  | .reset => some (o.reset cfg)
  | .setSlowCutoff hz => o.setSlowCutoff cfg hz
  | .setTimeConstant t => o.setTimeConstant t
  | .setSensitivity v => some (o.setSensitivity v)
  | .setRejectionTime t => some (o.setRejectionTime t)

/-- A history of calls. -/
noncomputable def Obj.run (cfg : Ladder.Config) (o : Obj) (ops : List Op) : Option Obj :=
  ops.foldlM (fun o op => o.apply cfg op) o

end Verif.BackgroundLevel
