import Verif.Model.Wav

/-!
# Model of the custom chunk callback of the WAV reader

`ReadWavHeaderGeneric` of audio/dsp/portable/read_wav_file_generic.c again, this time with the calls of `custom_chunk_fun`
and the outcome of `malloc`. The callback does not touch the source, nor the `id` it is given. Everything else is as in
`Verif.Model.Wav`.
-/

namespace Verif.Wav

open Verif.Serialize

/-- One call of `custom_chunk_fun`: `id` and the `num_bytes` bytes of `data`, read_wav_file_generic.h:68-69. -/
abbrev Call := List Byte × List Byte

/-- The `while (1)` of `ReadWavHeaderGeneric`, read_wav_file_generic.c:281-331, with at most `fuel` iterations: the calls
of `custom_chunk_fun` and the result. `alloc n` says whether `malloc(n)` (line 318) returns a buffer. -/
def callbackLoop (junk : Junk) (alloc : Nat → Bool) (cfg : Cfg) : Nat → List Byte → Info → Src → List Call × Outcome
  | 0, _, _, _ => ([], .exhausted)
  | fuel + 1, id, info, s =>
    let r := readCheck id s
    let size := readUint32 junk r.2
    if r.1 = idFmt then
      match readFmtChunk junk cfg info size.1 size.2 with
      | none => ([], failed info)
      | some (info', s') =>
        if s'.err then ([], failed info') else callbackLoop junk alloc cfg fuel r.1 info' s'
    else if r.1 = idFact then
      match readFactChunk junk info size.1 size.2 with
      | none => ([], failed info)
      | some (info', s') =>
        if s'.err then ([], failed info') else callbackLoop junk alloc cfg fuel r.1 info' s'
    else if r.1 = idData then
      if info.numChannels = 0 then ([], failed info)
      else ([], .ok { info with remaining := size.1.toNat / (info.bitDepth / 8) } size.2)
    else if cfg.hasCustom then
      if alloc size.1.toNat then
        let data := readCheck (fresh junk size.2 size.1.toNat) size.2
        let rest := if data.2.err then ([], failed info) else callbackLoop junk alloc cfg fuel r.1 info data.2
        ((r.1, data.1) :: rest.1, rest.2)
      else ([], failed info)
    else
      let s' := seekCheck cfg size.1.toNat size.2
      if s'.err then ([], failed info) else callbackLoop junk alloc cfg fuel r.1 info s'

/-- `ReadWavHeaderGeneric`, read_wav_file_generic.c:246-341: the calls of `custom_chunk_fun` and the result. -/
def readHeaderCalls (junk : Junk) (alloc : Nat → Bool) (cfg : Cfg) (info : Info) (file : List Byte) :
    List Call × Outcome :=
  let s0 : Src := { rest := file, err := false, tick := 0 }
  let r1 := readCheck (fresh junk s0 4) s0
  if r1.1 ≠ idRIFF then ([], failed info)
  else
    let s2 := seekCheck cfg 4 r1.2
    let r3 := readCheck r1.1 s2
    if r3.1 ≠ idWAVE then ([], failed info)
    else if r3.2.err then ([], failed info)
    else callbackLoop junk alloc cfg (file.length + 1) r3.1 { info with numChannels := 0 } r3.2

end Verif.Wav
