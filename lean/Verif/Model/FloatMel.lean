import Verif.Model.Mfcc
import Verif.Model.Rounding

/-!
# Model of audio/dsp/mfcc/mel_filterbank.cc in floating point

Every operation on doubles is followed by the rounding `rnd`; `log` is the one of the C library. Conversions of `int` to
`double` are exact. Multiplications and additions are not contracted. The `DCHECK`s of :108-109, which are compiled only into
debug builds, are not modelled. A write outside a `std::vector`, which is undefined behaviour, is the failure `oob`.
-/

namespace Verif.FloatMel
open Verif.Rounding Verif.Mfcc

/-- The arithmetic of the machine. -/
structure Machine where
  rnd : ℝ → ℝ
  log : ℝ → ℝ

/-- IEEE 754 doubles with a correctly rounded logarithm. -/
noncomputable def Machine.ideal : Machine := ⟨binary64, fun x => binary64 (Real.log x)⟩

/-- What the theorems use of the machine: roundings with relative error `u` (and absolute error `η` in the subnormal range),
a logarithm with the relative error `v`. -/
structure Machine.Accurate (M : Machine) (u v η : ℝ) : Prop where
  rnd : Rounding.Accurate M.rnd u η
  log : ∀ x, 1 ≤ x → |M.log x - Real.log x| ≤ v * Real.log x + η

variable (M : Machine)

/-- `FreqToMel`, mel_filterbank.cc:224-226. -/
noncomputable def freqToMel (freq : ℝ) : ℝ := M.rnd (1127 * M.log (M.rnd (1 + M.rnd (freq / 700))))

/-- `v[c] += x` for an `int` index. -/
noncomputable def addAt (v : List ℝ) (c : ℤ) (x : ℝ) : Except Err (List ℝ) :=
  if 0 ≤ c ∧ c < v.length then .ok (v.set c.toNat (M.rnd (v.getD c.toNat 0 + x))) else .error .oob

/-- `if (b) v[c] += x;` -/
noncomputable def addAtIf (b : Bool) (v : List ℝ) (c : ℤ) (x : ℝ) : Except Err (List ℝ) :=
  if b then addAt M v c x else .ok v

/-- `mel_position`, mel_filterbank.cc:104-105. -/
noncomputable def melPosition (hzPerSbin melLow melSpacing : ℝ) (i : ℕ) : ℝ :=
  M.rnd (M.rnd (M.rnd (freqToMel M (M.rnd (i * hzPerSbin)) - melLow) / melSpacing) - 1)

/-- The channel and weight of one bin, mel_filterbank.cc:100-110. An overflow of the conversion of the ceiling is not
modelled. -/
noncomputable def binOf (start stop : ℤ) (hzPerSbin melLow melSpacing : ℝ) (i : ℕ) : ℤ × ℝ :=
  if (i : ℤ) < start ∨ (i : ℤ) > stop then (-2, 0)
  else
    let position := melPosition M hzPerSbin melLow melSpacing i
    let channel := ⌈position⌉ - 1
    (channel, M.rnd (1 - M.rnd (position - channel)))

/-- The accumulation of weights, mel_filterbank.cc:113-120, for a used bin. -/
noncomputable def accumulate (channels : ℤ) (start stop : ℤ) (bin : ℕ → ℤ × ℝ) (sums : List ℝ) (i : ℕ) :
    Except Err (List ℝ) :=
  if (i : ℤ) < start ∨ (i : ℤ) > stop then .ok sums
  else do
    let sums ← addAtIf M ((bin i).1 + 1 < channels) sums ((bin i).1 + 1) (M.rnd (1 - (bin i).2))
    addAtIf M ((bin i).1 ≥ 0) sums (bin i).1 (bin i).2

/-- `mel_spacing`, mel_filterbank.cc:79-81. -/
noncomputable def melSpacing (channels : ℤ) (lower upper : ℝ) : ℝ :=
  M.rnd (M.rnd (freqToMel M upper - freqToMel M lower) / ((channels : ℝ) + 1))

/-- `hz_per_sbin`, mel_filterbank.cc:84. -/
noncomputable def hzPerSbin (fftLength : ℤ) (sampleRate : ℝ) : ℝ := M.rnd (sampleRate / M.rnd (2 * ((fftLength : ℝ) - 1)))

/-- `MelFilterbank::Initialize`, mel_filterbank.cc:45-152. The check of the sums, :128-148, only logs. -/
noncomputable def init (m : Mel) (fftLength : ℤ) (sampleRate : ℝ) (channels : ℤ) (lower upper : ℝ) :
    Except Err (Mel × Bool) :=
  let m := { m with channels := channels, fftLength := fftLength }
  if m.channels < 1 then .ok (m, false)
  else if sampleRate ≤ 0 then .ok (m, false)
  else if m.fftLength < 2 then .ok (m, false)
  else if lower < 0 then .ok (m, false)
  else if upper ≤ lower then .ok (m, false)
  else do
    let hz := hzPerSbin M m.fftLength sampleRate
    let start ← castInt (M.rnd (3 / 2 + M.rnd (lower / hz)))
    let stop ← castInt (M.rnd (upper / hz))
    let bin := binOf M start stop hz (freqToMel M lower) (melSpacing M m.channels lower upper)
    let sums ← (List.range m.fftLength.toNat).foldlM (accumulate M m.channels start stop bin)
      (List.replicate m.channels.toNat 0)
    return ({ m with
      start := start
      stop := stop
      mapper := (List.range m.fftLength.toNat).map fun i => (bin i).1
      weights := (List.range m.fftLength.toNat).map fun i => (bin i).2
      sums := sums
      initialized := true }, true)

/-- One bin of `Compute`, mel_filterbank.cc:173-180. -/
noncomputable def step (m : Mel) (spectrum : List ℝ) (mel : List ℝ) (i : ℕ) : Except Err (List ℝ) :=
  match spectrum[i]?, m.weights[i]?, m.mapper[i]? with
  | some s, some w, some channel => do
    let specVal := M.rnd √s
    let weighted := M.rnd (specVal * w)
    let mel ← addAtIf M (channel ≥ 0) mel channel weighted
    addAtIf M (channel + 1 < m.channels) mel (channel + 1) (M.rnd (specVal - weighted))
  | _, _, _ => .error .oob

/-- `MelFilterbank::Compute`, mel_filterbank.cc:157-182. `output` is the previous content of `mel`. `start_index_` is at
least 1 in every initialized object. -/
noncomputable def compute (m : Mel) (spectrum output : List ℝ) : Except Err (List ℝ) :=
  if m.initialized = false then .ok output
  else if (spectrum.length : ℤ) ≤ m.stop then .ok output
  else if m.channels < 0 then .error .badSize
  else (List.range' m.start.toNat (m.stop + 1 - m.start).toNat).foldlM (step M m spectrum)
    (List.replicate m.channels.toNat 0)

end Verif.FloatMel
