import Verif.Spec.Wav
import Verif.Spec.Quantize

/-!
# Samples of a WAV file on the 32-bit integer scale

What `ReadWavFile` documents: full scale of every encoding fills the 32-bit range.
-/

namespace Verif.Wav.Spec

open Verif.Serialize (Byte)
open Verif.Quantize

/-- The float stored in the bytes of one sample of a float encoding; `narrow` converts double to float. -/
def floatOf (narrow : BitVec 64 → BitVec 32) : Encoding → List Byte → FVal
  | .float64, bs => valueOf (narrow (BitVec.ofNat 64 (num bs)))
  | _, bs => valueOf (BitVec.ofNat 32 (num bs))

/-- The 32-bit integer for the bytes of one sample. -/
def sample32 (narrow : BitVec 64 → BitVec 32) (enc : Encoding) (bs : List Byte) : Int :=
  match enc with
  | .pcm16 => signed 16 (num bs) * 2 ^ 16
  | .pcm24 => signed 24 (num bs) * 2 ^ 8
  | .mulaw => mulaw (num bs) * 2 ^ 16
  | enc => quantize 32 (floatOf narrow enc bs)

/-- The 16-bit integer for the bytes of one sample of a 16-bit or mu-law file. -/
def sample16 (enc : Encoding) (bs : List Byte) : Int :=
  match enc with
  | .mulaw => mulaw (num bs)
  | _ => signed 16 (num bs)

/-- Is the encoding a floating point one? -/
def isFloat : Encoding → Bool
  | .float32 => true
  | .float64 => true
  | _ => false

/-- Number of samples in the file: the announced ones that are there, whole frames only. -/
def sampleCount (f : Fmt) (size : Nat) (data : List Byte) : Nat :=
  min (size / (f.bits / 8)) (data.length / (f.bits / 8)) / f.channels * f.channels

/-- The bytes of sample `i`. -/
def sampleAt (f : Fmt) (data : List Byte) (i : Nat) : List Byte := field data (i * (f.bits / 8)) (f.bits / 8)

/-- The value is a number `≥ 1` or plus infinity. -/
def atLeastOne : FVal → Bool
  | .nan => false
  | .inf negative => !negative
  | .fin q => decide (1 ≤ q)

end Verif.Wav.Spec
