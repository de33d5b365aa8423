import Verif.Theorems.Wav
import Verif.Spec.Riff

/-!
# C106: RIFF files with additional chunks
-/

namespace Verif.Wav

open Verif.Serialize Verif.Wav.Spec

theorem others_chunks {st : Option Fmt} : ∀ (ps : Pieces) {bs : List Byte} {st' : Option Fmt},
    (∀ p ∈ ps, p.1.length = 4 ∧ p.1 ≠ idFmt ∧ p.1 ≠ idFact ∧ p.1 ≠ idData ∧ p.2.length < 2 ^ 32) →
    (∀ p ∈ ps, p.2.length % 2 = 0) → Chunks st bs st' → Chunks st (pieceBytes ps ++ bs) st'
  | [], _, _, _, _, h => h
  | p :: ps, bs, st', h1, h2, h => by
    obtain ⟨a1, a2, a3, a4, a5⟩ := h1 p (by simp)
    have hp := h2 p (by simp)
    have : pieceBytes (p :: ps) ++ bs = chunk p.1 p.2 ++ (pieceBytes ps ++ bs) := by
      unfold pieceBytes
      rw [List.flatMap_cons, riffChunk, if_neg (by omega), List.append_nil, List.append_assoc]
    rw [this]
    exact .other a1 a2 a3 a4 a5 (others_chunks ps (fun q hq => h1 q (by simp [hq])) (fun q hq => h2 q (by simp [hq])) h)

/-- **C106, partial.** A RIFF file whose chunks in front of the `data` chunk all have even lengths is accepted, whatever
those chunks contain, with the format of its `fmt ` chunk and all samples of its `data` chunk, and the reader stands at the
first byte of the audio. Missing: chunks of odd length (`C106_odd_chunk_violation`). -/
theorem C106_even_partial (junk : Junk) (cfg : Cfg) (info0 : Info) {ps : Pieces} {f : Fmt} {data : List Byte}
    (h : Describes ps f) (he : ∀ p ∈ ps, p.2.length % 2 = 0) (hd : data.length < 2 ^ 32) :
    ∃ s, readHeader junk cfg info0 (riffFile ps data) = .ok (infoOf f (data.length / (f.bits / 8))) s ∧
      s.err = false ∧ s.rest.take data.length = data := by
  obtain ⟨before, after, body, rfl, hf, hb, ho⟩ := h
  have hc : Chunks none (pieceBytes (before ++ (idFmt, body) :: after)) (some f) := by
    have e : pieceBytes (before ++ (idFmt, body) :: after) = pieceBytes before ++ (chunk idFmt body ++ (pieceBytes after ++ [])) := by
      have hl := he (idFmt, body) (by simp)
      unfold pieceBytes
      rw [List.flatMap_append, List.flatMap_cons, List.append_nil]
      congr 2
      rw [riffChunk, if_neg (by dsimp only at hl ⊢; omega), List.append_nil]
    rw [e]
    refine others_chunks _ (fun p hp => ho p (by simp [hp])) (fun p hp => he p (by simp [hp])) (.fmt hb hf ?_)
    exact others_chunks _ (fun p hp => ho p (by simp [hp])) (fun p hp => he p (by simp [hp])) (.nil _)
  obtain ⟨s, h1, h2, h3⟩ := C06_header_complete junk cfg info0 (file := riffFile (before ++ (idFmt, body) :: after) data)
    (f := f) (size := data.length) (tail := data ++ if data.length % 2 = 1 then [0] else [])
    ⟨leBytes 4 (4 + (pieceBytes (before ++ (idFmt, body) :: after) ++ riffChunk idData data).length), _, leBytes_length 4 _, hd,
      hc, by
        unfold riffFile
        conv_lhs => enter [2]; unfold riffChunk chunk
        simp only [List.append_assoc]⟩
  exact ⟨s, h1, h3, by rw [h2, List.take_left]⟩

def listChunk : List Byte × List Byte := ([0x4C, 0x49, 0x53, 0x54], [7])

/-- The chunk `junk` without contents. -/
def emptyChunk : List Byte × List Byte := ([0x6A, 0x75, 0x6E, 0x6B], [])

/-- 16-bit mono at 48 kHz. -/
def monoBody : List Byte := [1, 0] ++ [1, 0] ++ [0x80, 0xBB, 0, 0] ++ [0, 0, 0, 0] ++ [2, 0] ++ [16, 0]

/-- 8-bit stereo at 1 Hz, mu-law. -/
def stereoBody : List Byte := [7, 0] ++ [2, 0] ++ [1, 0, 0, 0] ++ [0, 0, 0, 0] ++ [2, 0] ++ [8, 0]

/-- The premises of `C106_even_partial` have instances. -/
example : Describes [([0x4C, 0x49, 0x53, 0x54], [7, 7]), (idFmt, monoBody), emptyChunk] ⟨1, 48000, 16, .pcm16⟩ ∧
    ∀ p ∈ [([0x4C, 0x49, 0x53, 0x54], [7, 7]), (idFmt, monoBody), emptyChunk], p.2.length % 2 = 0 :=
  ⟨⟨[([0x4C, 0x49, 0x53, 0x54], [7, 7])], [emptyChunk], monoBody, rfl, by decide, by decide, by decide⟩, by decide⟩

/-- A caller's structure before the call. -/
def blank : Info := ⟨0, 0, 0, 0, 0, .pcm16, .int16⟩

/-- **C106, violation.** A RIFF file with a chunk of one byte (and its padding) in front of the format is rejected, by
files that can seek and by those that cannot. -/
theorem C106_odd_chunk_violation :
    Describes [listChunk, (idFmt, monoBody)] ⟨1, 48000, 16, .pcm16⟩ ∧ ∀ hasSeek,
      ∃ info, readHeader (fun _ _ => 0) ⟨hasSeek, false⟩ blank (riffFile [listChunk, (idFmt, monoBody)] [1, 2, 3, 4]) =
        .fail info := by
  refine ⟨⟨[listChunk], [], monoBody, rfl, by decide, by decide, by decide⟩, fun hasSeek => ?_⟩
  have h : ∀ b, (match readHeader (fun _ _ => 0) ⟨b, false⟩ blank (riffFile [listChunk, (idFmt, monoBody)] [1, 2, 3, 4]) with
      | .fail _ => true | _ => false) = true := by decide +kernel
  have := h hasSeek
  revert this
  cases readHeader (fun _ _ => 0) ⟨hasSeek, false⟩ blank (riffFile [listChunk, (idFmt, monoBody)] [1, 2, 3, 4]) <;> simp

/-- The audio of the next theorem: 74 zeros, then bytes that look like chunks. -/
def audio : List Byte := List.replicate 74 0 ++ chunk idFmt stereoBody ++ chunk idData [9, 9]

/-- **C106, violation.** A RIFF file with a chunk of one byte can also be accepted with what its audio happens to contain:
16-bit mono at 48 kHz is reported as two mu-law channels at 1 Hz. -/
theorem C106_misread_violation :
    Describes [listChunk, emptyChunk, (idFmt, monoBody)] ⟨1, 48000, 16, .pcm16⟩ ∧ audio.length = 108 ∧ ∀ hasSeek,
      ∃ s, readHeader (fun _ _ => 0) ⟨hasSeek, false⟩ blank (riffFile [listChunk, emptyChunk, (idFmt, monoBody)] audio) =
        .ok (infoOf ⟨2, 1, 8, .mulaw⟩ 2) s := by
  refine ⟨⟨[listChunk, emptyChunk], [], monoBody, rfl, by decide, by decide, by decide⟩, by decide, fun hasSeek => ?_⟩
  have h : ∀ b, (match readHeader (fun _ _ => 0) ⟨b, false⟩ blank (riffFile [listChunk, emptyChunk, (idFmt, monoBody)] audio) with
      | .ok i _ => decide (i = infoOf ⟨2, 1, 8, .mulaw⟩ 2) | _ => false) = true := by decide +kernel
  have := h hasSeek
  revert this
  cases readHeader (fun _ _ => 0) ⟨hasSeek, false⟩ blank (riffFile [listChunk, emptyChunk, (idFmt, monoBody)] audio) <;> simp

end Verif.Wav
