import Verif.Model.CircularBuffer
import Verif.Model.NumberUtil
import Mathlib.Data.Real.Basic

/-!
# Model of `SpectralProcessor` (audio/dsp/spectral_processor.h, .cc)

Samples are elements of an arbitrary type with a zero (input) and columns of the output are elements of
an additive monoid (in the code: `num_out_channels` floats); rounding is not modelled. The block
callback with its windowing and transforms is first an arbitrary function `blockFn` that may carry a
state; `windowAndProcess` below is the one of the code. `none` stands for a failed `CHECK`, an exception,
an access out of bounds or a loop without end.
-/

namespace Verif.SpectralProcessor

open CircularBuffer (Buf)

/-- Data members that do not change after construction, spectral_processor.h:124-132. -/
structure Config where
  nIn : ℕ
  hop : ℕ
  block : ℕ
  maxChunk : ℕ
  delay : ℕ
deriving DecidableEq

/-- Data members that change: spectral_processor.h:131-135, and the state of the callback. -/
structure State (α M σ : Type) where
  buf : Buf α
  overflow : List M
  pos : ℕ
  cb : σ

variable {α M σ : Type} [Zero α] [AddCommMonoid M]

/-- Constructor without `Reset`, spectral_processor.cc:99-133: initial delay from the greatest common
divisor (84-88); `none`: no chunk length, a failed `CHECK`, or a negative delay, which lets the
allocation at line 145 throw. -/
def configure (nIn : ℤ) (chunks : List ℤ) (windowSize block hop : ℤ) : Option Config := do
  let maxChunk ← chunks.max?
  let g ← NumberUtil.gcdVector (chunks ++ [hop])
  if nIn ≤ 0 ∨ block ≤ 0 ∨ maxChunk ≤ 0 ∨ windowSize ≠ block then none
  else if block - g < 0 then none
  else if hop < 0 then none
  else return ⟨nIn.toNat, hop.toNat, block.toNat, maxChunk.toNat, (block - g).toNat⟩

/-- `Reset`, spectral_processor.cc:137-147. The callback is not reset. -/
def reset (c : Config) (s : State α M σ) : Option (State α M σ) :=
  match CircularBuffer.init 0 s.buf (c.nIn * (c.maxChunk + c.block)) with
  | .error _ => none
  | .ok b =>
    match CircularBuffer.write b (List.replicate (c.nIn * c.delay) 0) with
    | .error _ => none
    | .ok b => some { s with
        buf := b
        overflow := List.replicate (c.maxChunk + c.block) 0
        pos := 0 }

/-- The state after the constructor; `cb` is the state of the callback. -/
def construct (c : Config) (cb : σ) : Option (State α M σ) :=
  reset c ⟨CircularBuffer.fresh, [], 0, cb⟩

/-- The loop of `MoveOverflowIntoOutput`, spectral_processor.cc:229-232: `n` iterations from `i`. -/
def shiftLoop (shift : ℕ) : ℕ → ℕ → List M → List M
  | 0, _, v => v
  | n + 1, i, v => shiftLoop shift n (i + 1) ((v.set i (v.getD (i + shift) 0)).set (i + shift) 0)

/-- `output.setZero()` and `MoveOverflowIntoOutput`, spectral_processor.cc:160-161, 222-233: the output
chunk and the new overflow. -/
def moveOverflow (v : List M) (chunk : ℕ) : List M × List M :=
  let n := min v.length chunk
  (v.take n ++ List.replicate (chunk - n) 0, shiftLoop n (v.length - n) 0 v)

/-- Adding the columns of `y` to those of `x` from column `start` on. -/
def addAt (x : List M) (start : ℕ) (y : List M) : List M :=
  x.take start ++ List.zipWith (· + ·) (x.drop start) y ++ x.drop (start + y.length)

/-- `MoveProcessedIntoOutputAndOverflow`, spectral_processor.cc:235-249: new output chunk and overflow.
`none`: a column range outside of an array. -/
def moveProcessed (processed : List M) (start : ℕ) (out v : List M) : Option (List M × List M) :=
  let n := (max 0 (min (processed.length : ℤ) ((out.length : ℤ) - start))).toNat
  let rest := processed.length - n
  if start + n ≤ out.length ∧ rest ≤ v.length then
    some (addAt out start (processed.take n),
      (addAt v 0 (processed.drop n)).take rest ++ List.replicate (v.length - rest) 0)
  else none

/-- The columns of the interleaved samples. -/
def columns (nIn n : ℕ) (flat : List α) : List (List α) :=
  (List.range n).map fun t => (flat.drop (t * nIn)).take nIn

/-- The loop of `ProcessChunk`, spectral_processor.cc:166-183, at most `fuel` iterations. -/
def loop (c : Config) (blockFn : σ → List (List α) → σ × List M) :
    ℕ → State α M σ → List M → Option (State α M σ × List M)
  | 0, _, _ => none
  | fuel + 1, s, out =>
    if CircularBuffer.numReadable s.buf ≥ c.nIn * c.block then
      match CircularBuffer.peek s.buf (c.nIn * c.block) with
      | .error _ => none
      | .ok x =>
        match CircularBuffer.advance s.buf (c.nIn * c.hop) with
        | .error _ => none
        | .ok b =>
          let r := blockFn s.cb (columns c.nIn c.block x)
          match moveProcessed r.2 s.pos out s.overflow with
          | none => none
          | some (out, v) =>
            let s : State α M σ := ⟨b, v, s.pos + c.hop, r.1⟩
            if s.pos ≥ out.length then some (s, out) else loop c blockFn fuel s out
    else some (s, out)

/-- `ProcessChunk`, spectral_processor.cc:149-187, for a list of input columns: output columns and new
state. -/
def processChunk (c : Config) (blockFn : σ → List (List α) → σ × List M) (s : State α M σ)
    (input : List (List α)) : Option (List M × State α M σ) :=
  let (out, v) := moveOverflow s.overflow input.length
  match CircularBuffer.write s.buf input.flatten with
  | .error _ => none
  | .ok b =>
    match loop c blockFn (CircularBuffer.numReadable b + 1) { s with buf := b, overflow := v } out with
    | none => none
    | some (s, out) =>
      if input.length ≤ s.pos then some (out, { s with pos := s.pos - input.length }) else none

/-- A sequence of chunks. -/
def processAll (c : Config) (blockFn : σ → List (List α) → σ × List M) :
    State α M σ → List (List (List α)) → Option (List (List M) × State α M σ)
  | s, [] => some ([], s)
  | s, x :: xs => do
    let (y, s) ← processChunk c blockFn s x
    let (ys, s) ← processAll c blockFn s xs
    return (y :: ys, s)

/-- `WindowAndProcessInFrequencyDomain`, spectral_processor.cc:189-220. `fwd` and `inv` are the transforms
of `RealFFTTransformer`, `callback` is `ProcessSTFTBlock` (one spectrum per channel). -/
def windowAndProcess {β : Type} [Zero β] (nIn nOut block : ℕ) (window : List ℝ) (fwd : List ℝ → β)
    (inv : β → List ℝ) (callback : σ → List β → σ × List β) (cb : σ) (input : List (List ℝ)) :
    σ × List (Fin nOut → ℝ) :=
  let spectra := (List.range nIn).map fun ch =>
    fwd (List.zipWith (· * ·) (input.map (·.getD ch 0)) window)
  let r := callback cb spectra
  (r.1, (List.range block).map fun t => fun ch : Fin nOut =>
    (inv (r.2.getD ch 0)).getD t 0 * window.getD t 0)

end Verif.SpectralProcessor
