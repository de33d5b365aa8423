import Verif.Model.Loudness

/-!
# Model of the two-way compressor driven by the loudness meter

`audio/dsp/loudness/loudness_1771_two_way_compressor.{h,cc}`. Over the reals (rounding is not modelled), except that the
minus infinity and the NaN which the meter returns for a zero and a negative average power are followed through the gain
computation. A block is the list of its columns; blocks with another number of rows than the number of channels
(`CHECK_EQ`, line 160) are not represented.
-/

namespace Verif.LoudnessCompressor
open Verif.Stream Verif.Loudness Verif.Envelope

/-- `Loudness1771TwoWayCompressorParams`, loudness_1771_two_way_compressor.h:72-129. -/
structure Params where
  inputGain : ℝ
  outputGain : ℝ
  loudness : Loudness.Params
  twoWay : Drc.TwoWay
  attack : ℝ
  release : ℝ
  lookahead : ℝ

/-- The default parameters, loudness_1771_two_way_compressor.h:74-83. -/
noncomputable def Params.default : Params :=
  { inputGain := 0
    outputGain := 0
    loudness := stereo 0.4 48000
    twoWay := ⟨{}, {}, {}, {}⟩
    attack := 0.001
    release := 0.05
    lookahead := 0 }

/-- `*envelope_`. `nan` tells that the member `envelope_` of the follower is NaN. -/
structure Follower where
  e : AttackRelease
  nan : Bool

/-- Members, loudness_1771_two_way_compressor.h:219-231. `envelope` is the `unique_ptr`, null before `Init`. The contents
of the workspaces are overwritten before they are read in each call. -/
structure Compressor (C : ℕ) where
  params : Params
  maxBlock : ℤ
  rate : ℝ
  meter : Meter C
  envelope : Option Follower
  delay : FixedDelayLine.State (Fin C → ℝ)

variable {C : ℕ}

/-- An object before `Init`. The numbers that the code leaves uninitialised are zero here. -/
noncomputable def Compressor.new (C : ℕ) : Compressor C :=
  ⟨Params.default, 0, 0, Meter.new C, none, FixedDelayLine.init 0 0 0⟩

/-- `VerifyParams`, loudness_1771_two_way_compressor.cc:27-57. -/
def Params.Ok (p : Params) (C : ℕ) (maxBlock : ℤ) (rate : ℝ) : Prop :=
  ¬ p.attack ≤ 0 ∧ ¬ p.release ≤ 0 ∧ ¬ C ≤ 0 ∧ ¬ maxBlock ≤ 0 ∧ ¬ rate ≤ 0

open Classical in
/-- `Init`, loudness_1771_two_way_compressor.cc:61-88. -/
noncomputable def Compressor.init (s : Compressor C) (p : Params) (maxBlock : ℤ) (rate : ℝ) :
    Except Drc.Err (Compressor C × Bool) :=
  if p.Ok C maxBlock rate then
    match s.meter.init p.loudness rate with
    | none => .error .check
    | some (m, false) => .ok ({ s with params := p, maxBlock := maxBlock, rate := rate, meter := m }, false)
    | some (m, true) =>
      match AttackRelease.make p.attack p.release 200 rate with
      | none => .error .check
      | some e =>
        if 0 ≤ Drc.roundAway (p.lookahead * rate) then
          .ok (⟨p, maxBlock, rate, m, some ⟨e, false⟩,
            FixedDelayLine.init 0 (Drc.roundAway (p.lookahead * rate)).toNat maxBlock.toNat⟩, true)
        else .error .check
  else .ok ({ s with params := p }, false)

/-- `Reset`, loudness_1771_two_way_compressor.cc:90-93. -/
noncomputable def Compressor.reset (s : Compressor C) : Except Drc.Err (Compressor C) :=
  match s.envelope with
  | none => .error .nullDereference
  | some f => .ok { s with meter := s.meter.reset, envelope := some ⟨f.e.reset, false⟩ }

/-- One element of `DecibelsToPowerRatio`, decibels.h:77-82: minus infinity gives zero; `none` is NaN. -/
noncomputable def dbPower : Db → Option ℝ
  | .value x => some (Drc.dbToPower x)
  | .minusInfinity => some 0
  | .nan => none

/-- One iteration of the loop at loudness_1771_two_way_compressor.cc:99-103. A NaN input (`none`) makes the envelope NaN
(attack_release_envelope.cc:57-71: the comparison with it is false, and the release branch adds NaN), and it stays NaN;
`std::max(1e-12f, x)` is `1e-12f` for NaN `x`. (The smoothers of the two coefficients, which still advance in the code,
are reset together with the envelope and have no other effect while the envelope is NaN.) -/
noncomputable def Follower.step (f : Follower) (v : Option ℝ) : Follower × ℝ :=
  if f.nan then (f, 1 / 10 ^ 12)
  else
    match v with
    | none => (⟨f.e, true⟩, 1 / 10 ^ 12)
    | some v => (⟨(f.e.output v).1, false⟩, max (1 / 10 ^ 12) (f.e.output v).2)

/-- Lines 105-123 of `ComputeGainFromDetectedSignal`, loudness_1771_two_way_compressor.cc, for one element: `none` is the
failed `CHECK` of `OutputLevelTwoWayCompressor`. -/
noncomputable def gainOf (p : Params) (power : ℝ) : Option ℝ :=
  match Drc.twoWay (Drc.powerToDb power + p.inputGain) p.twoWay with
  | none => none
  | some y => some (Drc.dbToAmplitude (y - Drc.powerToDb power + p.outputGain))

/-- `ComputeGainSignalOnly`, loudness_1771_two_way_compressor.h:179-189, with `ComputeGainFromDetectedSignal`,
loudness_1771_two_way_compressor.cc:95-125. -/
noncomputable def Compressor.gains (s : Compressor C) (x : List (Fin C → ℝ)) : Except Drc.Err (Compressor C × List ℝ) :=
  match s.meter.processBlock x with
  | none => .error .outOfBounds
  | some (m, loudness) =>
    match s.envelope with
    | none => .error .nullDereference
    | some f =>
      let r := runSamples Follower.step f (loudness.map dbPower)
      match r.2.mapM (gainOf s.params) with
      | none => .error .check
      | some g => .ok ({ s with meter := m, envelope := some r.1 }, g)

/-- `ApplyGainToSignal`, loudness_1771_two_way_compressor.h:198-212 (the gain has the length of the input here). -/
noncomputable def Compressor.applyGain (junk : ℕ → Fin C → ℝ) (s : Compressor C) (x : List (Fin C → ℝ)) (g : List ℝ) :
    Except Drc.Err (Compressor C × List (Fin C → ℝ)) :=
  match FixedDelayLine.processBlock junk s.delay x with
  | .error _ => .error .outOfBounds
  | .ok (d, delayed) => .ok ({ s with delay := d }, List.zipWith (fun f g => fun c => f c * g) delayed g)

open Classical in
/-- `ProcessBlock`, loudness_1771_two_way_compressor.h:151-173. `junk` is uninitialised memory of the delay line. -/
noncomputable def Compressor.process (junk : ℕ → Fin C → ℝ) (s : Compressor C) (x : List (Fin C → ℝ)) :
    Except Drc.Err (Compressor C × List (Fin C → ℝ)) :=
  if 1 ≤ x.length ∧ (x.length : ℤ) ≤ s.maxBlock then
    match s.gains x with
    | .error e => .error e
    | .ok (s', g) => s'.applyGain junk x g
  else .error .check

/-- Successive calls of `ProcessBlock`. -/
noncomputable def Compressor.run (junk : ℕ → Fin C → ℝ) : Compressor C → List (List (Fin C → ℝ)) →
    Except Drc.Err (Compressor C × List (List (Fin C → ℝ)))
  | s, [] => .ok (s, [])
  | s, x :: xs =>
    match s.process junk x with
    | .error e => .error e
    | .ok (s', y) =>
      match s'.run junk xs with
      | .error e => .error e
      | .ok (s'', ys) => .ok (s'', y :: ys)

end Verif.LoudnessCompressor
