import Verif.Model.WavString
import Verif.Spec.Resources

/-!
# Model of the use of files and memory in audio/dsp/portable

The whole-file functions of read_wav_file.c and write_wav_file.c, and `Make` and `Free` of rational_factor_resampler.c, again,
with the calls of `fopen`, `fclose`, `malloc` and `free` in their order. Everything else is as in `Verif.Model.WavString`,
`Verif.Model.Wav` and `Verif.Model.IntResampler`. The reader of the whole-file functions has no custom chunk callback, so that
`ReadWavHeaderGeneric` allocates nothing. `free(NULL)` does nothing and is no event.
-/

namespace Verif.Resources
open Verif.Wav Verif.WavString

/-- Label `fail` of the readers, read_wav_file.c:97-104 and 185-192. -/
def failPath (hasSamples : Bool) : List Event :=
  (if hasSamples then [.release (.memory 0)] else []) ++ [.release .file]

/-- `Read16BitWavFile`, read_wav_file.c:53-105: the result and the events. When the process ends or its behaviour is undefined,
the events up to there. -/
def read16BitWavFile (narrow : BitVec 64 → BitVec 32) (junk : Junk) (info0 : Info) (env : Env) : FileRead × List Event :=
  match env.file with
  | none => (.notOpened, [])
  | some file =>
    let es := [.acquire .file]
    match readHeader junk fileCfg info0 file with
    | .exhausted => (.undefined, es)
    | .fail _ => (.failed, es ++ failPath false)
    | .ok info s =>
      if (2 ^ 64 - 1) / 2 < info.remaining then (.failed, es ++ failPath false)
      else if ¬env.mallocOk (info.remaining * 2) then (.failed, es ++ failPath false)
      else
        let es := es ++ [.acquire (.memory 0)]
        match read16BitSamples narrow junk info.remaining info s with
        | none => (.aborted, es)
        | some .undefined => (.undefined, es)
        | some (.samples xs _ _) =>
          let es := es ++ [.release .file]                        -- fclose, 94
          if ¬env.closeOk then (.failed, es ++ failPath true)
          else (.read (xs.map sampleInt) info.numChannels info.sampleRateHz, es)

/-- `ReadWavFile`, read_wav_file.c:128-193: the result and the events. -/
def readWavFile (narrow : BitVec 64 → BitVec 32) (junk : Junk) (info0 : Info) (env : Env) : FileRead × List Event :=
  match env.file with
  | none => (.notOpened, [])
  | some file =>
    let es := [.acquire .file]
    match readHeader junk fileCfg info0 file with
    | .exhausted => (.undefined, es)
    | .fail _ => (.failed, es ++ failPath false)
    | .ok info s =>
      if (2 ^ 64 - 1) / 4 < (upgrade info).remaining then (.failed, es ++ failPath false)
      else if ¬env.mallocOk ((upgrade info).remaining * 4) then (.failed, es ++ failPath false)
      else
        let es := es ++ [.acquire (.memory 0)]
        match readSamples narrow junk (upgrade info).remaining (upgrade info) s with
        | .undefined => (.undefined, es)
        | .samples xs _ _ =>
          match convertSamples (upgrade info).format xs with
          | none => (.undefined, es)
          | some ys =>
            let es := es ++ [.release .file]                      -- fclose, 182
            if ¬env.closeOk then (.failed, es ++ failPath true)
            else (.read ys info.numChannels info.sampleRateHz, es)

/-- `WriteWavFile`, write_wav_file.c:30-55, with a file name: whether it returns 1, and the events. `fopen` fails if `disk` is
`none`; otherwise the file accepts `disk` bytes. `none` is undefined behaviour. -/
def writeWavFile (disk : Option ℕ) (closeOk : Bool) (xs : List (BitVec 16)) (rate channels : Int) :
    Option (Bool × List Event) :=
  if rate ≤ 0 ∨ channels ≤ 0 ∨ xs.length % channels.toNat ≠ 0 ∨ (2 ^ 32 - 1 - 60) / 2 < xs.length then some (false, [])
  else
    match disk with
    | none => some (false, [])
    | some room =>
      match writeHeader xs.length rate channels ⟨[], room, false⟩ with
      | none => none
      | some (_, w1) =>
        if w1.err then some (false, [.acquire .file])             -- goto fail, 44
        else
          match writeSamples xs w1 with
          | none => none
          | some _ => some (closeOk, [.acquire .file, .release .file])

/-- A pointer member: `NULL`, or a block. -/
abbrev Pointer := Option ℕ

/-- The pointers of a `RationalFactorResampler`, rational_factor_resampler.c:35-73, and the block of the struct itself. -/
structure Resampler where
  self : ℕ
  filters : Pointer
  delayedInput : Pointer
  output : Pointer
  deriving DecidableEq

/-- `free`. -/
def freePointer : Pointer → List Event
  | none => []
  | some k => [.release (.memory k)]

/-- `RationalFactorResamplerFree`, rational_factor_resampler.c:173-180. -/
def freeResampler : Option Resampler → List Event
  | none => []
  | some r => freePointer r.output ++ freePointer r.delayedInput ++ freePointer r.filters ++ [.release (.memory r.self)]

/-- `malloc` of the `k`-th block. -/
def malloc (ok : ℕ → Bool) (k : ℕ) : Pointer × List Event := if ok k then (some k, [.acquire (.memory k)]) else (none, [])

/-- `RationalFactorResamplerMake`, rational_factor_resampler.c:75-171: the pointer and the events. `valid` says whether the
arguments are accepted (lines 82-90, modelled in `Verif.Model.RationalFactorResampler`), `ok k` whether the `k`-th `malloc`
succeeds. The operator `||` of lines 138-141 stops at the first failure. -/
def makeResampler (valid : Bool) (ok : ℕ → Bool) : Option Resampler × List Event :=
  if ¬valid then (none, [])
  else
    match malloc ok 0 with
    | (none, es) => (none, es)
    | (some self, es) =>
      let r : Resampler := ⟨self, none, none, none⟩
      let a := malloc ok 1
      let r := { r with filters := a.1 }
      let es := es ++ a.2
      if a.1 = none then (none, es ++ freeResampler (some r))
      else
        let b := malloc ok 2
        let r := { r with delayedInput := b.1 }
        let es := es ++ b.2
        if b.1 = none then (none, es ++ freeResampler (some r))
        else
          let d := malloc ok 3
          let r := { r with output := d.1 }
          let es := es ++ d.2
          if d.1 = none then (none, es ++ freeResampler (some r))
          else (some r, es)

end Verif.Resources
