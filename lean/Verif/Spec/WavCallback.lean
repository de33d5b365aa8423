import Verif.Spec.Wav

/-!
# The chunks of a WAV file that its reader does not know
-/

namespace Verif.Wav.Spec

open Verif.Serialize (Byte)

/-- The bytes of a sequence of chunks, each one an id and a body. -/
def chunkBytes (ps : List (List Byte × List Byte)) : List Byte := ps.flatMap fun p => chunk p.1 p.2

/-- Chunks in front of the audio: ids of four bytes other than `data`, lengths that fit into 32 bits. -/
def InFront (ps : List (List Byte × List Byte)) : Prop :=
  ∀ p ∈ ps, p.1.length = 4 ∧ p.1 ≠ idData ∧ p.2.length < 2 ^ 32

/-- The chunks other than `fmt ` and `fact`, in order. -/
def unknownChunks (ps : List (List Byte × List Byte)) : List (List Byte × List Byte) :=
  ps.filter fun p => decide (p.1 ≠ idFmt ∧ p.1 ≠ idFact)

end Verif.Wav.Spec
