import Verif.Spec.Wav

/-!
# RIFF files

The layout of the RIFF specification to which the reader refers (read_wav_file_generic.c:247-253): every chunk whose
body has an odd number of bytes is followed by a padding byte that its length field does not count, and the file begins
with the number of bytes that follow.
-/

namespace Verif.Wav.Spec

open Verif.Serialize (Byte)

/-- A chunk with its padding. -/
def riffChunk (id body : List Byte) : List Byte := chunk id body ++ if body.length % 2 = 1 then [0] else []

/-- The chunks of a RIFF file in front of the `data` chunk: identifiers and bodies. -/
abbrev Pieces := List (List Byte × List Byte)

/-- The bytes of the chunks. -/
def pieceBytes (ps : Pieces) : List Byte := ps.flatMap fun p => riffChunk p.1 p.2

/-- Exactly one `fmt ` chunk, with format `f`; every other chunk has some other identifier than `fmt `, `fact` and `data`
(those are the chunks that "can be skipped"). -/
def Describes (ps : Pieces) (f : Fmt) : Prop :=
  ∃ before after body, ps = before ++ (idFmt, body) :: after ∧ formatOf body = some f ∧ body.length < 2 ^ 32 ∧
    ∀ p ∈ before ++ after, p.1.length = 4 ∧ p.1 ≠ idFmt ∧ p.1 ≠ idFact ∧ p.1 ≠ idData ∧ p.2.length < 2 ^ 32

/-- The RIFF file with the chunks `ps` and then the audio `data`. -/
def riffFile (ps : Pieces) (data : List Byte) : List Byte :=
  idRIFF ++ leBytes 4 (4 + (pieceBytes ps ++ riffChunk idData data).length) ++ idWAVE ++ pieceBytes ps ++ riffChunk idData data

end Verif.Wav.Spec
