import Verif.Model.Serialize

/-!
# Model of the WAV reader and writer

`audio/dsp/portable/read_wav_file_generic.c`, `audio/dsp/portable/read_wav_info.h`,
`audio/dsp/portable/write_wav_file_generic.c`, `audio/dsp/portable/write_wav_file.c`.

* The byte source is a byte string: `read_fun` hands out the next bytes, fewer than requested only
  at the end of the string, and leaves the rest of the caller's buffer as it was. `eof_fun` and the
  log messages have no effect on the results and are left out.
* `seek_fun` is either absent (the reader then skips by reading) or behaves like `fseek`: a seek past
  the end succeeds and later reads return nothing (`Cfg.hasSeek`).
* What a local buffer contains before it is read into is unspecified in C. It is supplied by `junk`,
  indexed by the number of reads done so far; theorems quantify over `junk`.
* `size_t` has 64 bits, `int` 32. Pointers are non-null and suitably aligned. `malloc` succeeds; the
  custom chunk callback does not touch the source.
-/

namespace Verif.Wav

open Verif.Serialize

/-- Four character code. -/
def idRIFF : List Byte := [0x52, 0x49, 0x46, 0x46]
/-- Four character code. -/
def idWAVE : List Byte := [0x57, 0x41, 0x56, 0x45]
/-- Four character code. -/
def idFmt : List Byte := [0x66, 0x6D, 0x74, 0x20]
/-- Four character code. -/
def idFact : List Byte := [0x66, 0x61, 0x63, 0x74]
/-- Four character code. -/
def idData : List Byte := [0x64, 0x61, 0x74, 0x61]

/-- Contents of uninitialised buffers: byte `i` of the buffer passed to read number `t`. -/
abbrev Junk := Nat → Nat → Byte

/-- Which callbacks the `WavReader` has, read_wav_file_generic.h. -/
structure Cfg where
  /-- `seek_fun != NULL`. -/
  hasSeek : Bool
  /-- `custom_chunk_fun != NULL`. -/
  hasCustom : Bool

/-- `WavReader` with its source: the bytes not consumed yet, `has_error`, number of reads so far. -/
structure Src where
  rest : List Byte
  err : Bool
  tick : Nat

/-- A local buffer of `n` bytes that has not been written. -/
def fresh (junk : Junk) (s : Src) (n : Nat) : List Byte := (List.range n).map (junk s.tick)

/-- `ReadWithErrorCheck` into a buffer holding `old`, read_wav_file_generic.c:28-36. -/
def readCheck (old : List Byte) (s : Src) : List Byte × Src :=
  let got := s.rest.take old.length
  (got ++ old.drop got.length,
    { rest := s.rest.drop old.length
      err := s.err || decide (got.length ≠ old.length)
      tick := s.tick + 1 })

/-- The reading loop of `SeekWithErrorCheck`, read_wav_file_generic.c:43-51; `w->read_fun` returns
the number of bytes available up to the amount asked for. -/
def seekByReading (n : Nat) (s : Src) : Src :=
  if h : 256 < n then
    if s.rest.length < 256 then { s with rest := [], err := true }
    else seekByReading (n - 256) { s with rest := s.rest.drop 256 }
  else { s with rest := s.rest.drop n, err := s.err || decide (s.rest.length < n) }
termination_by n
decreasing_by omega

/-- `SeekWithErrorCheck`, read_wav_file_generic.c:38-59. -/
def seekCheck (cfg : Cfg) (n : Nat) (s : Src) : Src :=
  if cfg.hasSeek then { s with rest := s.rest.drop n } else seekByReading n s

/-- Element of a byte buffer. -/
def at' (b : List Byte) (i : Nat) : Byte := b.getD i 0

/-- `ReadUint8`, read_wav_file_generic.c:61-65. -/
def readUint8 (junk : Junk) (s : Src) : Byte × Src :=
  let r := readCheck (fresh junk s 1) s
  (at' r.1 0, r.2)

/-- `ReadUint16`, read_wav_file_generic.c:105-109. -/
def readUint16 (junk : Junk) (s : Src) : BitVec 16 × Src :=
  let r := readCheck (fresh junk s 2) s
  (leReadU16 64 (at' r.1 0) (at' r.1 1), r.2)

/-- `Read3BytesIntoUint32`, read_wav_file_generic.c:111-118. -/
def read3BytesIntoUint32 (junk : Junk) (s : Src) : BitVec 32 × Src :=
  let r := readCheck (fresh junk s 3) s
  ((at' r.1 0).setWidth 32 <<< 8 ||| (at' r.1 1).setWidth 32 <<< 16 ||| (at' r.1 2).setWidth 32 <<< 24,
    r.2)

/-- `ReadUint32` and the bits of `ReadFloat32`, read_wav_file_generic.c:120-130. -/
def readUint32 (junk : Junk) (s : Src) : BitVec 32 × Src :=
  let r := readCheck (fresh junk s 4) s
  (leReadU32 64 (at' r.1 0) (at' r.1 1) (at' r.1 2) (at' r.1 3), r.2)

/-- The bits of the double read in `ReadFloat64IntoFloat32`, read_wav_file_generic.c:132-136. -/
def readUint64 (junk : Junk) (s : Src) : BitVec 64 × Src :=
  let r := readCheck (fresh junk s 8) s
  (leReadU64 64 (at' r.1 0) (at' r.1 1) (at' r.1 2) (at' r.1 3) (at' r.1 4) (at' r.1 5) (at' r.1 6)
    (at' r.1 7), r.2)

/-- `mulaw_table`, read_wav_file_generic.c:68-101. -/
def mulawTable : List Int := [
  -32124, -31100, -30076, -29052, -28028, -27004, -25980, -24956,
  -23932, -22908, -21884, -20860, -19836, -18812, -17788, -16764,
  -15996, -15484, -14972, -14460, -13948, -13436, -12924, -12412,
  -11900, -11388, -10876, -10364,  -9852,  -9340,  -8828,  -8316,
   -7932,  -7676,  -7420,  -7164,  -6908,  -6652,  -6396,  -6140,
   -5884,  -5628,  -5372,  -5116,  -4860,  -4604,  -4348,  -4092,
   -3900,  -3772,  -3644,  -3516,  -3388,  -3260,  -3132,  -3004,
   -2876,  -2748,  -2620,  -2492,  -2364,  -2236,  -2108,  -1980,
   -1884,  -1820,  -1756,  -1692,  -1628,  -1564,  -1500,  -1436,
   -1372,  -1308,  -1244,  -1180,  -1116,  -1052,   -988,   -924,
    -876,   -844,   -812,   -780,   -748,   -716,   -684,   -652,
    -620,   -588,   -556,   -524,   -492,   -460,   -428,   -396,
    -372,   -356,   -340,   -324,   -308,   -292,   -276,   -260,
    -244,   -228,   -212,   -196,   -180,   -164,   -148,   -132,
    -120,   -112,   -104,    -96,    -88,    -80,    -72,    -64,
     -56,    -48,    -40,    -32,    -24,    -16,     -8,      0,
   32124,  31100,  30076,  29052,  28028,  27004,  25980,  24956,
   23932,  22908,  21884,  20860,  19836,  18812,  17788,  16764,
   15996,  15484,  14972,  14460,  13948,  13436,  12924,  12412,
   11900,  11388,  10876,  10364,   9852,   9340,   8828,   8316,
    7932,   7676,   7420,   7164,   6908,   6652,   6396,   6140,
    5884,   5628,   5372,   5116,   4860,   4604,   4348,   4092,
    3900,   3772,   3644,   3516,   3388,   3260,   3132,   3004,
    2876,   2748,   2620,   2492,   2364,   2236,   2108,   1980,
    1884,   1820,   1756,   1692,   1628,   1564,   1500,   1436,
    1372,   1308,   1244,   1180,   1116,   1052,    988,    924,
     876,    844,    812,    780,    748,    716,    684,    652,
     620,    588,    556,    524,    492,    460,    428,    396,
     372,    356,    340,    324,    308,    292,    276,    260,
     244,    228,    212,    196,    180,    164,    148,    132,
     120,    112,    104,     96,     88,     80,     72,     64,
      56,     48,     40,     32,     24,     16,      8,      0]

/-- `ReadMulaw`, read_wav_file_generic.c:67-103. -/
def readMulaw (junk : Junk) (s : Src) : Int × Src :=
  let r := readUint8 junk s
  (mulawTable.getD r.1.toNat 0, r.2)

/-- `enum EncodingType`, read_wav_info.h. -/
inductive Encoding | pcm16 | pcm24 | mulaw | float32 | float64
  deriving DecidableEq, Repr

/-- `enum SampleFormat`, read_wav_info.h. -/
inductive SampleFormat | int16 | int32 | float
  deriving DecidableEq, Repr

/-- `ReadWavInfo`, read_wav_info.h:27-59. -/
structure Info where
  numChannels : Nat
  sampleRateHz : Int
  remaining : Nat
  bitDepth : Nat
  destAlign : Nat
  encoding : Encoding
  format : SampleFormat
  deriving DecidableEq, Repr

/-- The `switch (format_code)` of `ReadWavFmtChunk`, read_wav_file_generic.c:172-215; `none` stands
for `return 0`. (A rejected mu-law chunk also overwrites `encoding`, which a failing caller does not
read.) -/
def selectEncoding (code : BitVec 16) (bits : BitVec 16) (info : Info) : Option Info :=
  if code = 1 then
    if bits = 16 then some { info with encoding := .pcm16, destAlign := 2, format := .int16 }
    else if bits = 24 then some { info with encoding := .pcm24, destAlign := 4, format := .int32 }
    else none
  else if code = 3 then
    if bits = 32 then some { info with encoding := .float32, destAlign := 4, format := .float }
    else if bits = 64 then some { info with encoding := .float64, destAlign := 4, format := .float }
    else none
  else if code = 7 then
    if bits ≠ 8 then none
    else some { info with encoding := .mulaw, destAlign := 2, format := .int16 }
  else none

/-- The end of the format chunk, read_wav_file_generic.c:151-157: the format code (from the extension
if there is one) and the source after skipping the rest of the chunk. -/
def fmtTail (junk : Junk) (cfg : Cfg) (size : Nat) (code : BitVec 16) (s : Src) : BitVec 16 × Src :=
  if code = 0xFFFE ∧ 26 ≤ size then
    let s7 := seekCheck cfg 8 s
    let code' := readUint16 junk s7
    (code'.1, seekCheck cfg (size - 26) code'.2)
  else (code, seekCheck cfg (size - 16) s)

/-- `ReadWavFmtChunk`, read_wav_file_generic.c:138-220. The result is `none` for `return 0` (the
source is not used again then). The block alignment is read and only logged about. -/
def readFmtChunk (junk : Junk) (cfg : Cfg) (info : Info) (chunkSize : BitVec 32) (s : Src) :
    Option (Info × Src) :=
  if chunkSize.toNat < 16 then none
  else
    let code := readUint16 junk s
    let chans := readUint16 junk code.2
    let rate := readUint32 junk chans.2
    let s4 := seekCheck cfg 4 rate.2
    let align := readUint16 junk s4
    let bits := readUint16 junk align.2
    let fin := fmtTail junk cfg chunkSize.toNat code.1 bits.2
    if fin.2.err then none
    else if chans.1 = 0 then none
    else
      match selectEncoding fin.1 bits.1 info with
      | none => none
      | some info' =>
        some ({ info' with
                numChannels := chans.1.toNat
                sampleRateHz := rate.1.toInt
                bitDepth := bits.1.toNat }, fin.2)

/-- `ReadWavFactChunk`, read_wav_file_generic.c:222-244. With 64-bit `size_t` the overflow test
never fires; the product `int * uint32_t` is computed modulo 2^32. -/
def readFactChunk (junk : Junk) (info : Info) (chunkSize : BitVec 32) (s : Src) :
    Option (Info × Src) :=
  if chunkSize.toNat ≠ 4 ∨ info.numChannels = 0 then none
  else
    let r := readUint32 junk s
    if (2 ^ 64 - 1) / info.numChannels < r.1.toNat then none
    else some ({ info with remaining := info.numChannels * r.1.toNat % 2 ^ 32 }, r.2)

/-- Result of reading a header: success, failure, or (never, see `C06_header_terminates`) the bound on
the number of loop iterations was hit. -/
inductive Outcome
  | ok (info : Info) (s : Src)
  | fail (info : Info)
  | exhausted

/-- `fail:` in `ReadWavHeaderGeneric`, read_wav_file_generic.c:333-340. -/
def failed (info : Info) : Outcome :=
  .fail { info with numChannels := 0, sampleRateHz := 0, remaining := 0 }

/-- Unknown chunk of `n` bytes, read_wav_file_generic.c:317-328. -/
def skipUnknown (junk : Junk) (cfg : Cfg) (n : Nat) (s : Src) : Src :=
  if cfg.hasCustom then (readCheck (fresh junk s n) s).2 else seekCheck cfg n s

/-- The `while (1)` of `ReadWavHeaderGeneric`, read_wav_file_generic.c:281-331, with at most `fuel`
iterations. `id` keeps its bytes across iterations. -/
def headerLoop (junk : Junk) (cfg : Cfg) : Nat → List Byte → Info → Src → Outcome
  | 0, _, _, _ => .exhausted
  | fuel + 1, id, info, s =>
    let r := readCheck id s
    let size := readUint32 junk r.2
    if r.1 = idFmt then
      match readFmtChunk junk cfg info size.1 size.2 with
      | none => failed info
      | some (info', s') => if s'.err then failed info' else headerLoop junk cfg fuel r.1 info' s'
    else if r.1 = idFact then
      match readFactChunk junk info size.1 size.2 with
      | none => failed info
      | some (info', s') => if s'.err then failed info' else headerLoop junk cfg fuel r.1 info' s'
    else if r.1 = idData then
      if info.numChannels = 0 then failed info
      else .ok { info with remaining := size.1.toNat / (info.bitDepth / 8) } size.2
    else
      let s' := skipUnknown junk cfg size.1.toNat size.2
      if s'.err then failed info else headerLoop junk cfg fuel r.1 info s'

/-- `ReadWavHeaderGeneric`, read_wav_file_generic.c:246-341. `info` holds the caller's previous
contents of the struct. -/
def readHeader (junk : Junk) (cfg : Cfg) (info : Info) (file : List Byte) : Outcome :=
  let s0 : Src := { rest := file, err := false, tick := 0 }
  let r1 := readCheck (fresh junk s0 4) s0
  if r1.1 ≠ idRIFF then failed info
  else
    let s2 := seekCheck cfg 4 r1.2
    let r3 := readCheck r1.1 s2
    if r3.1 ≠ idWAVE then failed info
    else if r3.2.err then failed info
    else headerLoop junk cfg (file.length + 1) r3.1 { info with numChannels := 0 } r3.2

/-! ### Reading samples -/

/-- A decoded sample as stored in the caller's buffer: a 16-bit integer, a 32-bit integer or the bits
of a `float`. -/
inductive Sample
  | i16 (v : Int)
  | i32 (v : Int)
  | f32 (bits : BitVec 32)
  deriving DecidableEq, Repr

/-- One iteration of the loop of `ReadBytesAsSamples`, read_wav_file_generic.c:382-420. `narrow` is
the conversion of a double to a float, on bit patterns. The left shifts of negative or large signed
values (lines 398, 403; undefined behaviour before C23) have the two's complement result. `none`: a
combination of sizes without a case (nothing read, nothing stored). -/
def readOne (narrow : BitVec 64 → BitVec 32) (junk : Junk) (dest src : Nat) (s : Src) :
    Option (Sample × Src) :=
  if dest = 2 then
    if src = 1 then let r := readMulaw junk s; some (.i16 r.1, r.2)
    else if src = 2 then let r := readUint16 junk s; some (.i16 r.1.toInt, r.2)
    else none
  else if dest = 4 then
    if src = 1 then let r := readMulaw junk s; some (.i32 (BitVec.ofInt 32 r.1 <<< 16).toInt, r.2)
    else if src = 2 then
      let r := readUint16 junk s; some (.i32 (r.1.setWidth 32 <<< 16).toInt, r.2)
    else if src = 3 then let r := read3BytesIntoUint32 junk s; some (.i32 r.1.toInt, r.2)
    else if src = 4 then let r := readUint32 junk s; some (.f32 r.1, r.2)
    else if src = 8 then let r := readUint64 junk s; some (.f32 (narrow r.1), r.2)
    else none
  else none

/-- Result of the loop of `ReadBytesAsSamples`, read_wav_file_generic.c:381-428: the samples stored
before the loop ended, whether it ended because of `has_error` (the sample being read is then not
counted), and the source. `none` as in `readOne`. -/
def sampleLoop (narrow : BitVec 64 → BitVec 32) (junk : Junk) (dest src : Nat) :
    Nat → Src → Option (List Sample × Bool × Src)
  | 0, s => some ([], false, s)
  | n + 1, s =>
    match readOne narrow junk dest src s with
    | none => none
    | some (x, s') =>
      if s'.err then some ([], true, s')
      else
        match sampleLoop narrow junk dest src n s' with
        | none => none
        | some (xs, b, s'') => some (x :: xs, b, s'')

/-- Result of a read: the returned samples (the count is the list's length) and the new state;
`undefined` for a division by zero or a case not covered by the `switch`. -/
inductive ReadResult
  | samples (xs : List Sample) (info : Info) (s : Src)
  | undefined

/-- `ReadBytesAsSamples` = `ReadWavSamplesGeneric`, read_wav_file_generic.c:343-432, 442-445. The
samples beyond the returned count that were stored before an error are dropped here. -/
def readSamples (narrow : BitVec 64 → BitVec 32) (junk : Junk) (n : Nat) (info : Info) (s : Src) :
    ReadResult :=
  if info.destAlign ≠ 2 ∧ info.destAlign ≠ 4 then .samples [] info s
  else if info.remaining < info.numChannels ∨ n = 0 then .samples [] info s
  else if info.numChannels = 0 then .undefined
  else
    let src := info.bitDepth / 8
    let want := if n < info.remaining then n else info.remaining
    let want := want - want % info.numChannels
    if (2 ^ 64 - 1) / info.destAlign < want then .samples [] info { s with err := false }
    else
      match sampleLoop narrow junk info.destAlign src want { s with err := false } with
      | none => .undefined
      | some (xs, true, s') =>
        .samples (xs.take (xs.length - xs.length % info.numChannels)) { info with remaining := 0 } s'
      | some (xs, false, s') =>
        .samples xs { info with remaining := info.remaining - want } s'

/-- A sequence of calls of `ReadWavSamplesGeneric` with the given request sizes, and what each of them
returned; `none` if one of them is undefined. -/
def readAll (narrow : BitVec 64 → BitVec 32) (junk : Junk) :
    List Nat → Info → Src → Option (List (List Sample))
  | [], _, _ => some []
  | n :: ns, info, s =>
    match readSamples narrow junk n info s with
    | .undefined => none
    | .samples xs info' s' => (readAll narrow junk ns info' s').map (xs :: ·)

/-- `Read16BitWavSamplesGeneric`, read_wav_file_generic.c:434-440; a failed `CHECK` aborts
(`none`). -/
def read16BitSamples (narrow : BitVec 64 → BitVec 32) (junk : Junk) (n : Nat) (info : Info) (s : Src) :
    Option ReadResult :=
  if ¬(info.bitDepth = 8 ∨ info.bitDepth = 16) then none
  else if info.destAlign ≠ 2 then none
  else if info.format ≠ .int16 then none
  else some (readSamples narrow junk n info s)

/-! ### Writer -/

/-- The sink: bytes accepted so far, how many more it accepts, `has_error`. -/
structure Sink where
  out : List Byte
  room : Nat
  err : Bool

/-- `WriteWithErrorCheck`, write_wav_file_generic.c:14-18; `write_fun` accepts what there is room
for. -/
def writeCheck (bs : List Byte) (w : Sink) : Sink :=
  { out := w.out ++ bs.take w.room
    room := w.room - bs.length
    err := w.err || decide (bs.length ≠ (bs.take w.room).length) }

/-- `WriteUint16`, write_wav_file_generic.c:35-40. -/
def writeUint16 (v : BitVec 16) (w : Sink) : Sink := writeCheck (leWriteU16 v) w

/-- `WriteUint32`, write_wav_file_generic.c:42-47. -/
def writeUint32 (v : BitVec 32) (w : Sink) : Sink := writeCheck (leWriteU32 v) w

/-- `kWavPcmGuid`, write_wav_file_generic.c:12. -/
def pcmGuid : List Byte :=
  [0x00, 0x00, 0x00, 0x00, 0x10, 0x00, 0x80, 0x00, 0x00, 0xAA, 0x00, 0x38, 0x9B, 0x71]

/-- Does an `int` expression stay in range? -/
def fitsInt (v : Int) : Bool := decide (-2 ^ 31 ≤ v ∧ v < 2 ^ 31)

/-- `WriteWavHeaderGeneric`, write_wav_file_generic.c:49-102. Result: return value and sink; `none`
for signed overflow (`num_channels * 2`, `block_align * sample_rate_hz`) or division by zero. -/
def writeHeader (numSamples : Nat) (rate channels : Int) (w : Sink) : Option (Bool × Sink) :=
  let extended := decide (2 < channels)
  let fmtSize : BitVec 32 := if extended then 40 else 16
  let dataSize : BitVec 32 := BitVec.ofNat 32 (2 * numSamples)
  let blockAlign := channels * 2
  if ¬fitsInt blockAlign then none
  else
    let w := { w with err := false }
    let w := writeCheck idRIFF w
    let w := writeUint32 (20 + fmtSize + (if extended then 12 else 0) + dataSize) w
    let w := writeCheck idWAVE w
    if w.err then some (false, w)
    else
      let w := writeCheck idFmt w
      let w := writeUint32 fmtSize w
      let w := writeUint16 (if extended then 0xFFFE else 1) w
      let w := writeUint16 (BitVec.ofInt 16 channels) w
      let w := writeUint32 (BitVec.ofInt 32 rate) w
      if ¬fitsInt (blockAlign * rate) then none
      else
        let w := writeUint32 (BitVec.ofInt 32 (blockAlign * rate)) w
        let w := writeUint16 (BitVec.ofInt 16 blockAlign) w
        let w := writeUint16 16 w
        if w.err then some (false, w)
        else
          let w :=
            if extended then
              let w := writeUint16 22 w
              let w := writeUint16 16 w
              let w := writeUint32 0 w
              let w := writeUint16 1 w
              let w := writeCheck pcmGuid w
              let w := writeCheck idFact w
              let w := writeUint32 4 w
              writeUint32 (BitVec.ofNat 32 (numSamples / channels.toNat)) w
            else w
          if w.err then some (false, w)
          else
            let w := writeCheck idData w
            let w := writeUint32 dataSize w
            some (!w.err, w)

/-- `WriteWavSamplesGeneric`, write_wav_file_generic.c:104-117. The loop counter is an `int`: more than
`INT_MAX` samples make it overflow (`none`). -/
def writeSamples (xs : List (BitVec 16)) (w : Sink) : Option (Bool × Sink) :=
  if 2 ^ 31 ≤ xs.length then none
  else
    let w := xs.foldl (fun w x => writeUint16 x w) { w with err := false }
    some (!w.err, w)

/-- `WriteWavFile`, write_wav_file.c:30-55, once the file is open: `f` accepts `w.room` bytes, and
`closeOk` tells whether `fclose` succeeds. `channels.toNat` is the conversion of a positive `int`. -/
def writeFile (xs : List (BitVec 16)) (rate channels : Int) (closeOk : Bool) (w : Sink) :
    Option (Bool × Sink) :=
  if rate ≤ 0 ∨ channels ≤ 0 ∨ xs.length % channels.toNat ≠ 0 ∨ (2 ^ 32 - 1 - 60) / 2 < xs.length then
    some (false, w)
  else
    match writeHeader xs.length rate channels w with
    | none => none
    | some (_, w1) =>
      if w1.err then some (false, w1)
      else
        match writeSamples xs w1 with
        | none => none
        | some (_, w2) => some (closeOk, w2)

end Verif.Wav
