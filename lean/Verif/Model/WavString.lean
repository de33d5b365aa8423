import Verif.Model.Wav
import Verif.Spec.Quantize

/-!
# Model of writing WAV data into a string and of reading whole WAV files

`audio/dsp/portable/write_wav_string.cc` and `audio/dsp/portable/read_wav_file.c`, on top of the generic
reader and writer of `Verif.Model.Wav`.

* Floats are their values (`Verif.Quantize.FVal`), so that comparisons with NaN and overflow to infinity
  are those of IEEE 754. The only arithmetic is a multiplication by a power of two, which is exact apart
  from overflow.
* A conversion of a float to an integer type that cannot hold it is undefined behaviour (`none`).
* `std::string::append` accepts as many bytes as there is memory for (`room`); running out of memory
  throws in C++ and shows as a failed write here. Theorems assume enough room.
-/

namespace Verif.WavString

open Verif.Wav Verif.Quantize Verif.Serialize

/-! ### Floats -/

/-- `a < b` for floats: false if one of them is NaN. -/
def FVal.less : FVal → FVal → Bool
  | .nan, _ => false
  | _, .nan => false
  | .inf a, .inf b => a && !b
  | .inf a, .fin _ => a
  | .fin _, .inf b => !b
  | .fin p, .fin q => decide (p < q)

/-- Product with the positive power of two `2 ^ k`: overflows to infinity from `2 ^ 128` on. -/
def FVal.scale (k : ℕ) : FVal → FVal
  | .fin q => if 2 ^ 128 ≤ |q * 2 ^ k| then .inf (decide (q < 0)) else .fin (q * 2 ^ k)
  | v => v

/-- `std::isnan`, `x != x`. -/
def FVal.isNan : FVal → Bool
  | .nan => true
  | _ => false

/-- `std::min(a, b)`: `b < a ? b : a`. -/
def FVal.minimum (a b : FVal) : FVal := if FVal.less b a then b else a

/-- `std::max(a, b)`: `a < b ? b : a`. -/
def FVal.maximum (a b : FVal) : FVal := if FVal.less a b then b else a

/-- Conversion of a float to a signed integer type of `k` bits: towards zero, undefined if the result
does not fit. -/
def FVal.toInt (k : ℕ) : FVal → Option ℤ
  | .fin q => if -2 ^ (k - 1) ≤ trunc q ∧ trunc q < 2 ^ (k - 1) then some (trunc q) else none
  | _ => none

/-! ### write_wav_string.cc -/

/-- One iteration of the loop of `FloatSamplesToInt`, write_wav_string.cc:59-66. -/
def floatToInt16 (x : FVal) : Option ℤ :=
  let f := FVal.maximum (.fin (-32768)) (FVal.minimum (FVal.scale 15 x) (.fin 32767))
  let f := if FVal.isNan f then .fin 0 else f
  FVal.toInt 16 f

/-- `FloatSamplesToInt`, write_wav_string.cc:57-68: `input` are the elements from `input_offset` on,
`output` the previous contents of the vector, of which the first elements are overwritten. -/
def floatSamplesToInt (input : List FVal) (output : List (BitVec 16)) : Option (List (BitVec 16)) :=
  (input.mapM fun x => (floatToInt16 x).map (BitVec.ofInt 16)).map (· ++ output.drop input.length)

/-- `WriteWavToString` for `int16_t`, write_wav_string.cc:44-55. Result: return value and string. -/
def writeString (xs : List (BitVec 16)) (rate channels : Int) (room : Nat) : Option (Bool × Sink) :=
  match writeHeader xs.length rate channels ⟨[], room, false⟩ with
  | none => none
  | some (false, w) => some (false, w)
  | some (true, w) => writeSamples xs w

/-- The loop and the last block of `WriteWavToString` for `float`, write_wav_string.cc:80-93. `xs` are the
samples from `position` on. The results of `WriteWavSamplesGeneric` are ignored. -/
def writeBlocks (xs : List FVal) (buffer : List (BitVec 16)) (w : Sink) : Option Sink :=
  if 512 < xs.length then
    match floatSamplesToInt (xs.take 512) buffer with
    | none => none
    | some buffer =>
      match writeSamples (buffer.take 512) w with
      | none => none
      | some (_, w) => writeBlocks (xs.drop 512) buffer w
  else if xs.length ≠ 0 then
    match floatSamplesToInt xs buffer with
    | none => none
    | some buffer =>
      match writeSamples (buffer.take xs.length) w with
      | none => none
      | some (_, w) => some w
  else some w
  termination_by xs.length
  decreasing_by rw [List.length_drop]; omega

/-- `WriteWavToString` for `float`, write_wav_string.cc:70-95. -/
def writeFloatString (xs : List FVal) (rate channels : Int) (room : Nat) : Option (Bool × Sink) :=
  match writeHeader xs.length rate channels ⟨[], room, false⟩ with
  | none => none
  | some (false, w) => some (false, w)
  | some (true, w) => (writeBlocks xs (List.replicate 512 0) w).map fun w => (true, w)

/-! ### read_wav_file.c -/

/-- What a whole-file reader does: `notOpened` returns NULL and leaves the outputs alone; `failed`
returns NULL with all outputs 0; `read` returns the samples, `*num_channels` and `*sample_rate_hz`
(`*num_samples` is the length); `aborted` is a failed `CHECK`; `undefined` is undefined behaviour. -/
inductive FileRead
  | notOpened
  | failed
  | read (xs : List Int) (channels : Nat) (rate : Int)
  | aborted
  | undefined
  deriving DecidableEq

/-- The environment of a read: contents of the file (`none`: `fopen` fails), which allocations succeed,
whether `fclose` succeeds. -/
structure Env where
  file : Option (List Byte)
  mallocOk : Nat → Bool
  closeOk : Bool

/-- `WavReaderLocal`, read_wav_file.c:26-34: with seeking, without a chunk callback. -/
def fileCfg : Cfg := { hasSeek := true, hasCustom := false }

/-- The integer stored in a sample. -/
def sampleInt : Sample → Int
  | .i16 v => v
  | .i32 v => v
  | .f32 bits => bits.toInt

/-- `Read16BitWavFile`, read_wav_file.c:53-105, with non-null pointers. Simplification: the second `fclose` after a failed one
(line 102) is taken to do nothing; `Verif/Model/Resources.lean` models it. -/
def read16BitWavFile (narrow : BitVec 64 → BitVec 32) (junk : Junk) (info0 : Info) (env : Env) : FileRead :=
  match env.file with
  | none => .notOpened
  | some file =>
    match readHeader junk fileCfg info0 file with
    | .exhausted => .undefined
    | .fail _ => .failed
    | .ok info s =>
      if (2 ^ 64 - 1) / 2 < info.remaining then .failed
      else if ¬env.mallocOk (info.remaining * 2) then .failed
      else
        match read16BitSamples narrow junk info.remaining info s with
        | none => .aborted
        | some .undefined => .undefined
        | some (.samples xs _ _) =>
          if ¬env.closeOk then .failed
          else .read (xs.map sampleInt) info.numChannels info.sampleRateHz

/-- One iteration of `InPlaceFloatToInt32Conversion`, read_wav_file.c:111-124. `INT32_MAX` rounds to
`2 ^ 31` as a float. -/
def floatToInt32 (x : FVal) : Option ℤ :=
  let normalized := FVal.scale 31 x
  let clipped := if FVal.less (.fin (2 ^ 31)) normalized then .fin (2 ^ 31) else normalized
  let clipped := if FVal.less clipped (.fin (-2 ^ 31)) then .fin (-2 ^ 31) else clipped
  let clipped := if FVal.isNan clipped then .fin 0 else clipped
  FVal.toInt 32 clipped

/-- `InPlaceFloatToInt32Conversion`, read_wav_file.c:107-126. The samples of a float file are all bit
patterns of floats (an integer sample is left alone here; that does not happen). -/
def inPlaceFloatToInt32 (xs : List Sample) : Option (List Int) :=
  xs.mapM fun x =>
    match x with
    | .f32 bits => floatToInt32 (valueOf bits)
    | x => some (sampleInt x)

/-- The samples returned by `ReadWavFile`, read_wav_file.c:174-180. -/
def convertSamples (format : SampleFormat) (xs : List Sample) : Option (List Int) :=
  if format = .float then inPlaceFloatToInt32 xs else some (xs.map sampleInt)

/-- Upgrade from 16-bit to 32-bit samples, read_wav_file.c:151-155. -/
def upgrade (info : Info) : Info :=
  if info.format = .int16 then { info with destAlign := 4, format := .int32 } else info

/-- `ReadWavFile`, read_wav_file.c:128-193, with non-null pointers. The second `fclose` (line 190) as above. -/
def readWavFile (narrow : BitVec 64 → BitVec 32) (junk : Junk) (info0 : Info) (env : Env) : FileRead :=
  match env.file with
  | none => .notOpened
  | some file =>
    match readHeader junk fileCfg info0 file with
    | .exhausted => .undefined
    | .fail _ => .failed
    | .ok info s =>
      if (2 ^ 64 - 1) / 4 < (upgrade info).remaining then .failed
      else if ¬env.mallocOk ((upgrade info).remaining * 4) then .failed
      else
        match readSamples narrow junk (upgrade info).remaining (upgrade info) s with
        | .undefined => .undefined
        | .samples xs _ _ =>
          match convertSamples (upgrade info).format xs with
          | none => .undefined
          | some ys =>
            if ¬env.closeOk then .failed
            else .read ys info.numChannels info.sampleRateHz

end Verif.WavString
