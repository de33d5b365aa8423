import Mathlib.Analysis.SpecialFunctions.Trigonometric.Basic
import Mathlib.Analysis.SpecialFunctions.Log.Basic
import Mathlib.Analysis.SpecialFunctions.Sqrt

/-!
# Model of the MFCC classes

audio/dsp/mfcc/dct.{h,cc}, mel_filterbank.{h,cc}, mfcc.{h,cc}. Doubles are modelled by reals; rounding
is not modelled. Reads and writes outside a `std::vector`, conversions of doubles that do not fit an
`int` and negative sizes given to `resize`/`assign` are distinct failures.
-/

namespace Verif.Mfcc

/-- What can go wrong. -/
inductive Err
  /-- access outside a vector -/
  | oob
  /-- conversion to `int` out of range -/
  | castOverflow
  /-- negative size converted to `size_t` -/
  | badSize
  /-- a `CHECK` fails -/
  | check
deriving DecidableEq

/-! ### Dct -/

/-- The members of `Dct`, dct.h:37-40. The constructor, dct.cc:29-30, sets `initialized` only. -/
structure Dct where
  initialized : Bool
  count : ℤ
  length : ℤ
  cosines : List (List ℝ)

/-- `Dct::Initialize`, dct.cc:32-63. The members are overwritten before the arguments are checked. -/
noncomputable def Dct.init (d : Dct) (inputLength coefficientCount : ℤ) : Dct × Bool :=
  let d := { d with count := coefficientCount, length := inputLength }
  if d.count < 1 then (d, false)
  else if inputLength < 1 then (d, false)
  else if d.count > d.length then (d, false)
  else
    let fnorm := √(2 / (d.length : ℝ))
    let arg := Real.pi / (d.length : ℝ)
    ({ d with
        cosines := (List.range d.count.toNat).map fun i : ℕ =>
          (List.range d.length.toNat).map fun j : ℕ => fnorm * Real.cos (i * arg * (j + 1 / 2))
        initialized := true }, true)

/-- `cosines_[i][j] * input[j]`, dct.cc:81. -/
noncomputable def Dct.term (d : Dct) (input : List ℝ) (i j : ℕ) : Except Err ℝ :=
  match d.cosines[i]? with
  | none => .error .oob
  | some row =>
    match row[j]?, input[j]? with
    | some c, some x => .ok (c * x)
    | _, _ => .error .oob

/-- `Dct::Compute`, dct.cc:65-85. `output` is the previous content of the output vector. -/
noncomputable def Dct.compute (d : Dct) (input output : List ℝ) : Except Err (List ℝ) :=
  if d.initialized = false then .ok output
  else if d.count < 0 then .error .badSize
  else
    let length : ℤ := if (input.length : ℤ) > d.length then d.length else input.length
    (List.range d.count.toNat).mapM fun i =>
      (List.range length.toNat).foldlM (fun sum j => do
        let t ← d.term input i j
        return sum + t) 0

/-! ### MelFilterbank -/

/-- `FreqToMel`, mel_filterbank.cc:224-226. -/
noncomputable def freqToMel (freq : ℝ) : ℝ := 1127 * Real.log (1 + freq / 700)

/-- The members of `MelFilterbank`, mel_filterbank.h:52-72, without `sample_rate_`, which is used by
`Initialize` only. -/
structure Mel where
  initialized : Bool
  channels : ℤ
  fftLength : ℤ
  weights : List ℝ
  mapper : List ℤ
  sums : List ℝ
  start : ℤ
  stop : ℤ

/-- `static_cast<int>` of a double. -/
noncomputable def castInt (x : ℝ) : Except Err ℤ :=
  if -(2 ^ 31) - 1 < x ∧ x < 2 ^ 31 then .ok (if x < 0 then ⌈x⌉ else ⌊x⌋) else .error .castOverflow

/-- `v[c] += x` for an `int` index. -/
noncomputable def addAt (v : List ℝ) (c : ℤ) (x : ℝ) : Except Err (List ℝ) :=
  if 0 ≤ c ∧ c < v.length then .ok (v.set c.toNat (v.getD c.toNat 0 + x)) else .error .oob

/-- `if (b) v[c] += x;` -/
noncomputable def addAtIf (b : Bool) (v : List ℝ) (c : ℤ) (x : ℝ) : Except Err (List ℝ) :=
  if b then addAt v c x else .ok v

/-- The channel and weight of one bin, mel_filterbank.cc:100-110. The DCHECKs and a possible overflow of
the conversion of the ceiling are not modelled: they are excluded by `C35_bin_range`. -/
noncomputable def binOf (start stop : ℤ) (hzPerSbin melLow melSpacing : ℝ) (i : ℕ) : ℤ × ℝ :=
  if (i : ℤ) < start ∨ (i : ℤ) > stop then (-2, 0)
  else
    let melPosition := (freqToMel (i * hzPerSbin) - melLow) / melSpacing - 1
    let channel := ⌈melPosition⌉ - 1
    (channel, 1 - (melPosition - channel))

/-- The accumulation of weights, mel_filterbank.cc:113-120, for a used bin. -/
noncomputable def accumulate (channels : ℤ) (start stop : ℤ) (bin : ℕ → ℤ × ℝ) (sums : List ℝ) (i : ℕ) :
    Except Err (List ℝ) :=
  if (i : ℤ) < start ∨ (i : ℤ) > stop then .ok sums
  else do
    let sums ← addAtIf ((bin i).1 + 1 < channels) sums ((bin i).1 + 1) (1 - (bin i).2)
    addAtIf ((bin i).1 ≥ 0) sums (bin i).1 (bin i).2

/-- `MelFilterbank::Initialize`, mel_filterbank.cc:45-152. The check of the sums, :128-148, only logs. -/
noncomputable def Mel.init (m : Mel) (fftLength : ℤ) (sampleRate : ℝ) (channels : ℤ)
    (lower upper : ℝ) : Except Err (Mel × Bool) :=
  let m := { m with channels := channels, fftLength := fftLength }
  if m.channels < 1 then .ok (m, false)
  else if sampleRate ≤ 0 then .ok (m, false)
  else if m.fftLength < 2 then .ok (m, false)
  else if lower < 0 then .ok (m, false)
  else if upper ≤ lower then .ok (m, false)
  else do
    let melLow := freqToMel lower
    let melHi := freqToMel upper
    let melSpacing := (melHi - melLow) / (m.channels + 1)
    let hzPerSbin := sampleRate / (2 * (m.fftLength - 1))
    let start ← castInt (3 / 2 + lower / hzPerSbin)
    let stop ← castInt (upper / hzPerSbin)
    let bin := binOf start stop hzPerSbin melLow melSpacing
    let sums ← (List.range m.fftLength.toNat).foldlM
      (accumulate m.channels start stop bin) (List.replicate m.channels.toNat 0)
    return ({ m with
      start := start
      stop := stop
      mapper := (List.range m.fftLength.toNat).map fun i => (bin i).1
      weights := (List.range m.fftLength.toNat).map fun i => (bin i).2
      sums := sums
      initialized := true }, true)

/-- One bin of `Compute`, mel_filterbank.cc:173-180. -/
noncomputable def Mel.step (m : Mel) (spectrum : List ℝ) (mel : List ℝ) (i : ℕ) :
    Except Err (List ℝ) :=
  match spectrum[i]?, m.weights[i]?, m.mapper[i]? with
  | some s, some w, some channel => do
    let specVal := √s
    let weighted := specVal * w
    let mel ← addAtIf (channel ≥ 0) mel channel weighted
    addAtIf (channel + 1 < m.channels) mel (channel + 1) (specVal - weighted)
  | _, _, _ => .error .oob

/-- `MelFilterbank::Compute`, mel_filterbank.cc:157-182. `output` is the previous content of `mel`.
`start_index_` is at least 1 and `end_index_` at least 0 in every initialized object. -/
noncomputable def Mel.compute (m : Mel) (spectrum output : List ℝ) : Except Err (List ℝ) :=
  if m.initialized = false then .ok output
  else if (spectrum.length : ℤ) ≤ m.stop then .ok output
  else if m.channels < 0 then .error .badSize
  else (List.range' m.start.toNat (m.stop + 1 - m.start).toNat).foldlM (m.step spectrum)
    (List.replicate m.channels.toNat 0)

/-- `if (b) out[i] += w * mel[c] / channel_weights_sum_[c];`, mel_filterbank.cc:209-218. -/
noncomputable def Mel.inverseTerm (m : Mel) (b : Bool) (mel out : List ℝ) (i : ℕ) (c : ℤ) (w : ℝ) :
    Except Err (List ℝ) :=
  if b then
    if 0 ≤ c then
      match mel[c.toNat]?, m.sums[c.toNat]? with
      | some v, some s => addAt out i (w * v / s)
      | _, _ => .error .oob
    else .error .oob
  else .ok out

/-- One bin of `EstimateInverse`, mel_filterbank.cc:208-220. -/
noncomputable def Mel.inverseStep (m : Mel) (mel : List ℝ) (out : List ℝ) (i : ℕ) :
    Except Err (List ℝ) :=
  match m.mapper[i]?, m.weights[i]? with
  | some channel, some w => do
    let out ← m.inverseTerm (channel + 1 < m.channels) mel out i (channel + 1) (1 - w)
    let out ← m.inverseTerm (channel ≥ 0) mel out i channel w
    match out[i]? with
    | some v => .ok (out.set i (v * v))
    | none => .error .oob
  | _, _ => .error .oob

/-- `MelFilterbank::EstimateInverse`, mel_filterbank.cc:184-222. A division by a zero sum is a NaN or an
infinity in the code; theorems about the result assume that the sums are not zero. -/
noncomputable def Mel.estimateInverse (m : Mel) (mel output : List ℝ) : Except Err (List ℝ) :=
  if m.initialized = false then .ok output
  else if (mel.length : ℤ) ≠ m.channels then .ok output
  else if m.fftLength < 0 then .error .badSize
  else (List.range' m.start.toNat (m.stop + 1 - m.start).toNat).foldlM (m.inverseStep mel)
    (List.replicate m.fftLength.toNat 0)

/-! ### Mfcc -/

/-- The members of `Mfcc`, mfcc.h:68-74. -/
structure Mfcc where
  mel : Mel
  dct : Dct
  initialized : Bool
  lower : ℝ
  upper : ℝ
  channelCount : ℤ
  coefficientCount : ℤ

/-- `Mfcc::Initialize`, mfcc.cc:40-51. -/
noncomputable def Mfcc.init (m : Mfcc) (inputLength : ℤ) (sampleRate : ℝ) :
    Except Err (Mfcc × Bool) := do
  let (mel, ok1) ← m.mel.init inputLength sampleRate m.channelCount m.lower m.upper
  let (dct, ok2) := m.dct.init m.channelCount m.coefficientCount
  return ({ m with
    mel := mel
    dct := dct
    initialized := ok1 && ok2 }, ok1 && ok2)

/-- The floor and logarithm of mfcc.cc:62-66, with `kFilterbankFloor = 1e-12`, :30. -/
noncomputable def floorLog (v : ℝ) : ℝ :=
  Real.log (if v < 1 / 10 ^ 12 then 1 / 10 ^ 12 else v)

/-- `Mfcc::Compute`, mfcc.cc:53-69. -/
noncomputable def Mfcc.compute (m : Mfcc) (frame output : List ℝ) : Except Err (List ℝ) :=
  if m.initialized = false then .ok output
  else do
    let working ← m.mel.compute frame []
    m.dct.compute (working.map floorLog) output

/-- The setters, mfcc.h:47-65: all have the same shape. -/
noncomputable def Mfcc.setCoefficientCount (m : Mfcc) (n : ℤ) : Except Err Mfcc :=
  if m.initialized then .error .check else .ok { m with coefficientCount := n }

end Verif.Mfcc
