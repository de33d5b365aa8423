import Verif.Model.Wav

/-!
# What a WAV file is

A description of the byte layout, independent of the reader and the writer (only the names of the
encodings, of the fields reported to the caller and the four character codes are shared).
-/

namespace Verif.Wav.Spec

open Verif.Serialize (Byte)

/-- Value of a little-endian field. -/
def num : List Byte → Nat
  | [] => 0
  | b :: bs => b.toNat + 256 * num bs

/-- `k` byte little-endian encoding. -/
def leBytes : Nat → Nat → List Byte
  | 0, _ => []
  | k + 1, n => BitVec.ofNat 8 n :: leBytes k (n / 256)

/-- The `len` bytes at offset `off`. -/
def field (bs : List Byte) (off len : Nat) : List Byte := (bs.drop off).take len

/-- Contents of a usable `fmt ` chunk. -/
structure Fmt where
  channels : Nat
  /-- Sample rate, read as a signed 32-bit number. -/
  rate : Int
  bits : Nat
  enc : Encoding
  deriving DecidableEq, Repr

/-- The supported (format code, bits per sample) pairs. -/
def encodingOf (code bits : Nat) : Option Encoding :=
  match code, bits with
  | 1, 16 => some .pcm16
  | 1, 24 => some .pcm24
  | 3, 32 => some .float32
  | 3, 64 => some .float64
  | 7, 8 => some .mulaw
  | _, _ => none

/-- A 32-bit field as a signed number. -/
def signed32 (n : Nat) : Int := if n < 2 ^ 31 then n else (n : Int) - 2 ^ 32

/-- Parse the body of a `fmt ` chunk: format code at 0, channels at 2, sample rate at 4, bits per
sample at 14; with the extension code, the format code is at 24. -/
def formatOf (body : List Byte) : Option Fmt :=
  let code0 := num (field body 0 2)
  let code := if code0 = 0xFFFE ∧ 26 ≤ body.length then num (field body 24 2) else code0
  let channels := num (field body 2 2)
  let bits := num (field body 14 2)
  if body.length < 16 ∨ channels = 0 then none
  else (encodingOf code bits).map fun e => ⟨channels, signed32 (num (field body 4 4)), bits, e⟩

/-- Bytes per sample in memory and sample type for an encoding. -/
def container : Encoding → Nat × SampleFormat
  | .pcm16 => (2, .int16)
  | .pcm24 => (4, .int32)
  | .mulaw => (2, .int16)
  | .float32 => (4, .float)
  | .float64 => (4, .float)

/-- What the caller is told about a file with format `f` and `n` samples. -/
def infoOf (f : Fmt) (n : Nat) : Info :=
  { numChannels := f.channels
    sampleRateHz := f.rate
    remaining := n
    bitDepth := f.bits
    destAlign := (container f.enc).1
    encoding := f.enc
    format := (container f.enc).2 }

/-- A chunk: four character code, length, body. -/
def chunk (id body : List Byte) : List Byte := id ++ leBytes 4 body.length ++ body

/-- `Chunks st bs st'`: `bs` is a sequence of complete chunks, none of them `data`; every `fmt ` chunk
is usable; every `fact` chunk has four bytes and comes after a `fmt ` chunk; `st` is the format known
before and `st'` the one known after the sequence. -/
inductive Chunks : Option Fmt → List Byte → Option Fmt → Prop
  | nil (st : Option Fmt) : Chunks st [] st
  | fmt {st : Option Fmt} {body bs : List Byte} {f : Fmt} {st' : Option Fmt} :
      body.length < 2 ^ 32 → formatOf body = some f → Chunks (some f) bs st' →
      Chunks st (chunk idFmt body ++ bs) st'
  | fact {f : Fmt} {body bs : List Byte} {st' : Option Fmt} :
      body.length = 4 → Chunks (some f) bs st' → Chunks (some f) (chunk idFact body ++ bs) st'
  | other {st : Option Fmt} {id body bs : List Byte} {st' : Option Fmt} :
      id.length = 4 → id ≠ idFmt → id ≠ idFact → id ≠ idData → body.length < 2 ^ 32 →
      Chunks st bs st' → Chunks st (chunk id body ++ bs) st'

/-- `file` is a complete WAV header for format `f` announcing `size` bytes of data, followed by
`tail`. -/
def WellFormed (file : List Byte) (f : Fmt) (size : Nat) (tail : List Byte) : Prop :=
  ∃ riffSize chunks : List Byte, riffSize.length = 4 ∧ size < 2 ^ 32 ∧ Chunks none chunks (some f) ∧
    file = idRIFF ++ riffSize ++ idWAVE ++ chunks ++ (idData ++ leBytes 4 size) ++ tail

/-- `file` is cut inside the eight bytes that start its data chunk. -/
def CutInDataHeader (file : List Byte) (f : Fmt) : Prop :=
  ∃ riffSize chunks t : List Byte, riffSize.length = 4 ∧ Chunks none chunks (some f) ∧ t.length < 8 ∧
    file = idRIFF ++ riffSize ++ idWAVE ++ chunks ++ t

/-! ### Samples -/

/-- Mu-law expansion (ITU-T G.711): complement the code; the top bit is the sign, the next three the
segment, the last four the step within the segment. -/
def mulaw (b : Nat) : Int :=
  let c := 255 - b
  let mag : Int := (((c % 16) * 8 + 132) * 2 ^ (c / 16 % 8) : Nat) - 132
  if 128 ≤ c then -mag else mag

/-- Two's complement value of a `k`-bit number. -/
def signed (k n : Nat) : Int := if n < 2 ^ (k - 1) then n else (n : Int) - 2 ^ k

/-- The sample stored for the bytes `bs` of one sample, for in-memory size `dest`. Integers are scaled
to the width of the container (16-bit data into 32 bits: times 2^16; 24-bit: times 2^8). `narrow` is
the conversion from double to float. -/
def decode (narrow : BitVec 64 → BitVec 32) (dest : Nat) (bs : List Byte) : Option Sample :=
  match dest, bs.length with
  | 2, 1 => some (.i16 (mulaw (num bs)))
  | 2, 2 => some (.i16 (signed 16 (num bs)))
  | 4, 1 => some (.i32 (mulaw (num bs) * 2 ^ 16))
  | 4, 2 => some (.i32 (signed 16 (num bs) * 2 ^ 16))
  | 4, 3 => some (.i32 (signed 24 (num bs) * 2 ^ 8))
  | 4, 4 => some (.f32 (BitVec.ofNat 32 (num bs)))
  | 4, 8 => some (.f32 (narrow (BitVec.ofNat 64 (num bs))))
  | _, _ => none

/-- `xs` are the decoded samples of the first `xs.length * src` bytes of `data`. -/
def DecodesTo (narrow : BitVec 64 → BitVec 32) (dest src : Nat) (data : List Byte) (xs : List Sample) :
    Prop :=
  xs.length * src ≤ data.length ∧
    ∀ i (h : i < xs.length), decode narrow dest (field data (i * src) src) = some xs[i]

/-- Numbers of samples handed out for a sequence of requests when `left` samples are available and only
whole frames of `c` samples are handed out. -/
def serve (c : Nat) : Nat → List Nat → List Nat
  | _, [] => []
  | left, n :: ns => let k := min n left / c * c; k :: serve c (left - k) ns

end Verif.Wav.Spec
