import Verif.Model.DrcCurves
import Verif.Model.Envelope
import Verif.Model.FixedDelayLine
import Mathlib.Analysis.SpecialFunctions.Log.Basic
import Mathlib.Algebra.Order.Floor.Ring
import Mathlib.Algebra.BigOperators.Fin

/-!
# Model of `audio/dsp/hifi/dynamic_range_control.{h,cc}` and `audio/dsp/decibels.h`

Over the reals (rounding is not modelled); a frame (column) of `C` channels is `Fin C → ℝ`. `DCHECK`s
are not modelled, except that a block longer than the workspace is the outcome `outOfBounds`.
-/

namespace Verif.Drc
open Verif.Envelope

/-- Abnormal outcomes. -/
inductive Err where
  | check
  | nullDereference
  | outOfBounds
deriving DecidableEq

/-- `AmplitudeRatioToDecibels`, decibels.h:39-44. -/
noncomputable def amplitudeToDb (v : ℝ) : ℝ := 20 / Real.log 10 * Real.log v

/-- `PowerRatioToDecibels`, decibels.h:64-69. -/
noncomputable def powerToDb (v : ℝ) : ℝ := 10 / Real.log 10 * Real.log v

/-- `DecibelsToAmplitudeRatio`, decibels.h:52-57. -/
noncomputable def dbToAmplitude (v : ℝ) : ℝ := Real.exp (Real.log 10 / 20 * v)

/-- `DecibelsToPowerRatio`, decibels.h:77-82. -/
noncomputable def dbToPower (v : ℝ) : ℝ := Real.exp (Real.log 10 / 10 * v)

/-- `DynamicsControlType`, dynamic_range_control.h:119-134. -/
inductive Kind where
  | compressor
  | limiter
  | expander
  | noiseGate
deriving DecidableEq

/-- `DynamicRangeControlParams` with its default values, dynamic_range_control.h:139-239. -/
structure Params where
  rms : Bool := true
  kind : Kind := .compressor
  inputGain : ℝ := 0
  outputGain : ℝ := 0
  threshold : ℝ := 0
  ratio : ℝ := 1
  knee : ℝ := 0
  attack : ℝ := 1 / 1000
  release : ℝ := 5 / 100
  lookahead : ℝ := 0

/-- `VerifyParams`, dynamic_range_control.cc:27-32. -/
def Params.Valid (p : Params) : Prop := 0 ≤ p.knee ∧ 0 < p.ratio ∧ 0 < p.attack ∧ 0 < p.release

/-- Members, dynamic_range_control.h:354-366. `envelope` is the `unique_ptr` (null before `Init`).
The contents of the two workspaces are overwritten before they are read in each call. -/
structure Control (C : ℕ) where
  rate : ℝ
  maxBlock : ℕ
  params : Params
  changeNeeded : Bool
  nextParams : Params
  delay : FixedDelayLine.State (Fin C → ℝ)
  envelope : Option AttackRelease

variable {C : ℕ}

open Classical in
/-- Constructor, dynamic_range_control.cc:35-43. -/
noncomputable def Control.make (C : ℕ) (p : Params) : Except Err (Control C) :=
  if p.Valid then .ok
    { rate := 0, maxBlock := 0, params := p, changeNeeded := false, nextParams := {},
      delay := FixedDelayLine.init 0 0 0, envelope := none }
  else .error .check

/-- `std::round`: halves away from zero. -/
noncomputable def roundAway (x : ℝ) : ℤ := if x < 0 then -⌊-x + 1 / 2⌋ else ⌊x + 1 / 2⌋

open Classical in
/-- `Init`, dynamic_range_control.cc:45-61. -/
noncomputable def Control.init (s : Control C) (maxBlock : ℕ) (rate : ℝ) :
    Except Err (Control C) :=
  if 0 < C ∧ 0 < maxBlock ∧ 0 < rate then
    match AttackRelease.make s.params.attack s.params.release 200 rate with
    | none => .error .check
    | some e =>
      let lookahead := roundAway (s.params.lookahead * rate)
      if 0 ≤ lookahead then .ok
        { s with rate := rate, maxBlock := maxBlock, envelope := some e,
                 delay := FixedDelayLine.init 0 lookahead.toNat maxBlock }
      else .error .check
  else .error .check

open Classical in
/-- `SetDynamicRangeControlParams`, dynamic_range_control.cc:63-75. -/
noncomputable def Control.setParams (s : Control C) (p : Params) : Except Err (Control C) :=
  if p.Valid then
    match s.envelope with
    | none => .error .nullDereference
    | some e =>
      if p.lookahead = s.params.lookahead then .ok
        { s with nextParams := p, changeNeeded := true,
                 envelope := some ((e.setAttack p.attack).setRelease p.release) }
      else .error .check
  else .error .check

/-- `Reset`, dynamic_range_control.cc:77-81. -/
noncomputable def Control.reset (s : Control C) : Except Err (Control C) :=
  match s.envelope with
  | none => .error .nullDereference
  | some e => .ok { s with envelope := some e.reset, params := s.nextParams, changeNeeded := false }

/-- `ComputeGainForSpecificDynamicRangeControlType` for one element,
dynamic_range_control.cc:131-162. -/
noncomputable def specificGain (p : Params) (level : ℝ) : ℝ :=
  (match p.kind with
    | .compressor => compressor (level + p.inputGain) p.threshold p.ratio p.knee
    | .limiter => limiter (level + p.inputGain) p.threshold p.knee
    | .expander => expander (level + p.inputGain) p.threshold p.ratio p.knee
    | .noiseGate => expander (level + p.inputGain) p.threshold 1000 p.knee) - level

/-- The loop of dynamic_range_control.cc:119-124 from index `i` on with `m` iterations left. The two
names `signal_gain_db` (line 105) and `interp_signal_gain_db` (lines 112-113) are blocks of the same
memory, `workspace_drc_output_.head(data.size())`: both are the list `ws`. -/
noncomputable def interpLoop (inv : ℝ) : ℕ → ℕ → ℝ → List ℝ → List ℝ
  | 0, _, _, ws => ws
  | m + 1, i, k, ws =>
    let k := k + inv
    interpLoop inv m (i + 1) k
      (ws.set i (ws.getD i 0 + k * (ws.getD i 0 - ws.getD i 0)))

/-- The loop of dynamic_range_control.cc:86-90. -/
noncomputable def envelopeLoop (e : AttackRelease) (data : List ℝ) : AttackRelease × List ℝ :=
  Stream.runSamples (fun e v => ((e.output v).1, max (1 / 10 ^ 12) (e.output v).2)) e data

/-- `ComputeGainFromDetectedSignal`, dynamic_range_control.cc:83-129. -/
noncomputable def Control.gainFromDetected (s : Control C) (data : List ℝ) :
    Except Err (Control C × List ℝ) :=
  match s.envelope with
  | none => .error .nullDereference
  | some e =>
    let r := envelopeLoop e data
    let level := r.2.map (if s.params.rms then powerToDb else amplitudeToDb)
    let ws := level.map fun v => specificGain s.params v + s.params.outputGain
    if s.changeNeeded then
      let s := { s with params := s.nextParams, changeNeeded := false, envelope := some r.1 }
      -- the second computation writes to the same memory as the first
      let ws := level.map fun v => specificGain s.params v + s.params.outputGain
      let ws := interpLoop (1 / data.length) data.length 0 0 ws
      .ok (s, ws.map dbToAmplitude)
    else .ok ({ s with envelope := some r.1 }, ws.map dbToAmplitude)

/-- Detection, dynamic_range_control.h:322-326: mean power or magnitude over the channels. -/
noncomputable def detect (rms : Bool) (x : Fin C → ℝ) : ℝ :=
  (∑ c, if rms then x c ^ 2 else |x c|) / C

/-- `ComputeGainSignalOnly`, dynamic_range_control.h:315-328. -/
noncomputable def Control.gainSignal (s : Control C) (x : List (Fin C → ℝ)) :
    Except Err (Control C × List ℝ) :=
  if s.maxBlock < x.length then .error .outOfBounds
  else s.gainFromDetected (x.map (detect s.params.rms))

/-- `ApplyGainToSignal`, dynamic_range_control.h:332-341. `junk`: see `FixedDelayLine`. -/
noncomputable def Control.applyGain (junk : ℕ → Fin C → ℝ) (s : Control C) (x : List (Fin C → ℝ))
    (gain : List ℝ) : Except Err (Control C × List (Fin C → ℝ)) :=
  match FixedDelayLine.processBlock junk s.delay x with
  | .error _ => .error .outOfBounds
  | .ok (d, delayed) =>
    .ok ({ s with delay := d }, List.zipWith (fun f g => fun c => f c * g) delayed gain)

/-- `ProcessBlockWithSidechain`, dynamic_range_control.h:284-308. -/
noncomputable def Control.processWithSidechain (junk : ℕ → Fin C → ℝ) (s : Control C)
    (x sidechain : List (Fin C → ℝ)) : Except Err (Control C × List (Fin C → ℝ)) := do
  let (s, gain) ← s.gainSignal sidechain
  s.applyGain junk x gain

/-- `ProcessBlock`, dynamic_range_control.h:275-278. -/
noncomputable def Control.process (junk : ℕ → Fin C → ℝ) (s : Control C)
    (x : List (Fin C → ℝ)) : Except Err (Control C × List (Fin C → ℝ)) :=
  s.processWithSidechain junk x x

/-- Consecutive `ProcessBlockWithSidechain` calls (input block, sidechain block). -/
noncomputable def Control.run (junk : ℕ → Fin C → ℝ) (s : Control C) :
    List (List (Fin C → ℝ) × List (Fin C → ℝ)) →
      Except Err (Control C × List (List (Fin C → ℝ)))
  | [] => .ok (s, [])
  | x :: xs => do
    let (s, y) ← s.processWithSidechain junk x.1 x.2
    let (s, ys) ← s.run junk xs
    return (s, y :: ys)

end Verif.Drc
