import Verif.Model.NumberUtil
import Mathlib.Analysis.SpecialFunctions.Trigonometric.Basic

/-!
# Model of `Spectrogram` and `InverseSpectrogram` (audio/dsp/spectrogram)

Samples are real numbers: rounding is not modelled. Sizes are natural numbers (an `int` holding the size
of an existing vector). The third-party routine `rdft` (fft2d) is modelled by its documented result.
-/

namespace Verif.Spectrogram

open Real

/-! ## `rdft` of fft2d (third party) -/

/-- `R[k]` of `rdft`: `sum_j a[j] cos(2 pi j k / n)`. -/
noncomputable def rdftCos (n : ℕ) (a : List ℝ) (k : ℕ) : ℝ :=
  ((List.range n).map fun j : ℕ => a.getD j 0 * cos (2 * π * j * k / n)).sum

/-- `I[k]` of `rdft`: `sum_j a[j] sin(2 pi j k / n)`. -/
noncomputable def rdftSin (n : ℕ) (a : List ℝ) (k : ℕ) : ℝ :=
  ((List.range n).map fun j : ℕ => a.getD j 0 * sin (2 * π * j * k / n)).sum

/-- `rdft(n, 1, a, ..)`: `a[2k] = R[k]` for `0 <= k < n/2`, `a[2k+1] = I[k]` for `0 < k < n/2`,
`a[1] = R[n/2]`. -/
noncomputable def rdftForward (n : ℕ) (a : List ℝ) : List ℝ :=
  (List.range n).map fun m =>
    if m = 1 then rdftCos n a (n / 2) else if m % 2 = 0 then rdftCos n a (m / 2)
    else rdftSin n a (m / 2)

/-- `rdft(n, -1, a, ..)`: `a[k] = (R[0] + R[n/2] cos(pi k)) / 2 + sum_{j=1}^{n/2-1} R[j] cos(2 pi j k/n)
+ sum_{j=1}^{n/2-1} I[j] sin(2 pi j k/n)`. -/
noncomputable def rdftInverse (n : ℕ) (a : List ℝ) : List ℝ :=
  (List.range n).map fun k : ℕ =>
    (a.getD 0 0 + a.getD 1 0 * cos (π * k)) / 2 +
    ((List.range' 1 (n / 2 - 1)).map fun j : ℕ => a.getD (2 * j) 0 * cos (2 * π * j * k / n)).sum +
    ((List.range' 1 (n / 2 - 1)).map fun j : ℕ => a.getD (2 * j + 1) 0 * sin (2 * π * j * k / n)).sum

/-! ## `Spectrogram` -/

/-- Members of `Spectrogram`, spectrogram.h:116-130, without the FFT work areas. -/
structure St (α : Type) where
  window : List α
  step : ℕ
  fftLength : ℕ
  initialized : Bool
  toNext : ℕ
  queue : List α

variable {α β : Type}

/-- `ResetSampleBuffer`, spectrogram.cc:32-39, after a call of `Initialize` (before one it writes to an
element of an empty vector). -/
def reset (s : St α) : St α := { s with queue := [], toNext := s.window.length }

/-- `Initialize(window, step_length)`, spectrogram.cc:47-78: return value and new state; `none` is the
failed `CHECK` or an undefined shift in `NextPowerOfTwo`. -/
def initWith (s : St α) (window : List α) (step : ℤ) : Option (Bool × St α) :=
  if window.length < 2 then some (false, { s with window, initialized := false })
  else if step < 1 then some (false, { s with window, initialized := false })
  else do
    let fft ← NumberUtil.nextPowerOfTwo (BitVec.ofNat 32 window.length)
    if fft.toInt ≥ window.length then
      return (true, reset { s with window, step := step.toNat, fftLength := fft.toNat,
                                   initialized := true })
    else none

/-- `GetNextWindowOfSamples`, spectrogram.cc:219-244. `rest` is the input from `*input_start` on. Result:
whether there is a full window, the new state and the rest of the input; `none`: the queue is shorter
than the window, so that `erase` gets an invalid range. -/
def getNextWindow (s : St α) (rest : List α) : Option (Bool × St α × List α) :=
  if s.toNext > rest.length then
    some (false, { s with queue := s.queue ++ rest, toNext := s.toNext - rest.length }, [])
  else
    let q := s.queue ++ rest.take s.toNext
    if q.length < s.window.length then none
    else some (true, { s with queue := q.drop (q.length - s.window.length), toNext := s.step },
      rest.drop s.toNext)

/-- The loop of the `Compute…Spectrogram` functions, spectrogram.cc:92-106, 142-159; `slice` is what is
stored for a queue. At most `fuel` iterations (`none` if it needs more). -/
def computeLoop (slice : St α → β) : ℕ → St α → List α → Option (List β × St α)
  | 0, _, _ => none
  | fuel + 1, s, rest =>
    match getNextWindow s rest with
    | none => none
    | some (false, s', _) => some ([], s')
    | some (true, s', rest') =>
      match computeLoop slice fuel s' rest' with
      | none => none
      | some (out, s'') => some (slice s' :: out, s'')

/-- `Compute…Spectrogram`, spectrogram.cc:81-108, 131-161: `(true, frames)` or `(false, [])`. -/
def compute (slice : St α → β) (s : St α) (input : List α) : Option (Bool × List β × St α) :=
  if ¬ s.initialized then some (false, [], s)
  else (computeLoop slice (input.length + 1) s input).map fun r => (true, r.1, r.2)

/-- `ProcessCoreFFT`, spectrogram.cc:246-266: the contents of `fft_input_output_`. -/
noncomputable def processCoreFFT (s : St ℝ) : List ℝ :=
  let x := List.zipWith (· * ·) s.queue s.window ++ List.replicate (s.fftLength - s.window.length) 0
  let r := rdftForward s.fftLength x
  r.set 1 0 ++ [r.getD 1 0, 0]

/-- The slice stored by `ComputeComplexSpectrogram`, spectrogram.cc:98-105, with `1 + fft_length / 2`
channels (line 66). -/
noncomputable def complexSlice (s : St ℝ) : List (ℝ × ℝ) :=
  let r := processCoreFFT s
  (List.range (1 + s.fftLength / 2)).map fun i => (r.getD (2 * i) 0, r.getD (2 * i + 1) 0)

/-- The slice stored by `ComputeSquaredMagnitudeSpectrogram`, spectrogram.cc:148-158. -/
noncomputable def squaredSlice (s : St ℝ) : List ℝ :=
  let r := processCoreFFT s
  (List.range (1 + s.fftLength / 2)).map fun i =>
    r.getD (2 * i) 0 * r.getD (2 * i) 0 + r.getD (2 * i + 1) 0 * r.getD (2 * i + 1) 0

/-- A sequence of `Compute…` calls: the frames of each call and the final state; `none` if a call fails
or returns false. -/
def computeAll (slice : St α → β) : St α → List (List α) → Option (List (List β) × St α)
  | s, [] => some ([], s)
  | s, x :: xs =>
    match compute slice s x with
    | some (true, out, s') => (computeAll slice s' xs).map fun r => (out :: r.1, r.2)
    | _ => none

/-! ## `InverseSpectrogram` -/

/-- Members of `InverseSpectrogram`, inverse_spectrogram.h:114-135, without the FFT work areas. `window`
is `none` when `with_window_function_` is false. -/
structure Inv where
  fftLength : ℕ
  frameSize : ℕ
  step : ℕ
  overlap : ℕ
  initialized : Bool
  processed : Bool
  window : Option (List ℝ)
  working : List ℝ

/-- Constructor, inverse_spectrogram.h:55-56 (the other members are read by no operation before
`Initialize` succeeds). -/
def Inv.fresh : Inv := ⟨0, 0, 0, 0, false, false, none, []⟩

/-- `InternalInitialize`, inverse_spectrogram.cc:57-78. -/
def Inv.internalInitialize (s : Inv) : Inv :=
  { s with
    overlap := s.frameSize - s.step
    working := List.replicate (s.frameSize - s.step) 0
    processed := false
    initialized := true }

/-- `Initialize(fft_length, step_length)`, inverse_spectrogram.cc:80-102. -/
def Inv.initializeLength (s : Inv) (fftLength step : ℤ) : Bool × Inv :=
  let s := { s with initialized := false }
  if fftLength < 2 then (false, s)
  else if ¬ NumberUtil.isPowerOfTwoOrZero (BitVec.ofInt 32 fftLength) then (false, s)
  else
    let s := { s with fftLength := fftLength.toNat, frameSize := fftLength.toNat }
    if step < 1 then (false, s)
    else (true, { s with step := step.toNat, window := none }.internalInitialize)

/-- `Initialize(window, step_length)`, inverse_spectrogram.cc:104-123; `none`: undefined shift in
`NextPowerOfTwo`. -/
def Inv.initializeWindow (s : Inv) (window : List ℝ) (step : ℤ) : Option (Bool × Inv) :=
  let s := { s with initialized := false }
  if window.length < 2 then some (false, s)
  else do
    let fft ← NumberUtil.nextPowerOfTwo (BitVec.ofNat 32 window.length)
    let s := { s with frameSize := window.length, window := some window, fftLength := fft.toNat }
    if step < 1 then return (false, s)
    else return (true, { s with step := step.toNat }.internalInitialize)

/-- `WindowValue`, inverse_spectrogram.cc:193-201; `none`: read past the end of the window. -/
def Inv.windowValue (s : Inv) (k : ℕ) : Option ℝ :=
  match s.window with
  | none => some 1
  | some w => if k > w.length then some 0 else w[k]?

/-- The loop of `ProcessCoreFFT`, inverse_spectrogram.cc:182-190, from `k` on with `n` iterations left;
`x` is `fft_input_output_` after the transform. `none`: index out of range. -/
noncomputable def Inv.coreLoop (s : Inv) (x : List ℝ) : ℕ → ℕ → List ℝ → Option (List ℝ)
  | 0, _, working => some working
  | n + 1, k, working => do
    let v ← x[k]?
    let w ← s.windowValue k
    let cur := v / (s.fftLength / 2 : ℕ) * w
    if k < s.overlap then
      let old ← working[k]?
      s.coreLoop x n (k + 1) (working.set k (old + cur))
    else s.coreLoop x n (k + 1) (working ++ [cur])

/-- The buffer given to the inverse transform, inverse_spectrogram.cc:139-146: real part of the last
entry in place of the imaginary part of the first. -/
def Inv.pack (n : ℕ) (slice : List (ℝ × ℝ)) : List ℝ :=
  (List.range n).map fun m =>
    if m = 0 then (slice.getD 0 (0, 0)).1 else if m = 1 then (slice.getD (n / 2) (0, 0)).1
    else if m % 2 = 0 then (slice.getD (m / 2) (0, 0)).1 else (slice.getD (m / 2) (0, 0)).2

/-- One iteration of `Process`, inverse_spectrogram.cc:135-157: the samples appended to the output and
the new state. `none`: the slice has the wrong size (`DCHECK_EQ`, 137), the working buffer has (180), or
an index is out of range. -/
noncomputable def Inv.processSlice (s : Inv) (slice : List (ℝ × ℝ)) : Option (List ℝ × Inv) :=
  if slice.length ≠ s.fftLength / 2 + 1 then none
  else if s.working.length ≠ s.overlap then none
  else do
    let x := rdftInverse s.fftLength (Inv.pack s.fftLength slice)
    let working ← s.coreLoop x s.frameSize 0 s.working
    if working.length < s.overlap then none
    else
      let n := working.length - s.overlap
      return (working.take n, { s with working := working.drop n, processed := true })

/-- The loop of `Process` over the slices. -/
noncomputable def Inv.processLoop : Inv → List (List (ℝ × ℝ)) → Option (List ℝ × Inv)
  | s, [] => some ([], s)
  | s, x :: xs => do
    let (y, s) ← s.processSlice x
    let (ys, s) ← Inv.processLoop s xs
    return (y ++ ys, s)

/-- `Process`, inverse_spectrogram.cc:125-159. -/
noncomputable def Inv.process (s : Inv) (input : List (List (ℝ × ℝ))) : Option (Bool × List ℝ × Inv) :=
  if ¬ s.initialized then some (false, [], s)
  else (Inv.processLoop s input).map fun r => (true, r.1, r.2)

/-- `Flush(output)` with a valid pointer, inverse_spectrogram.cc:203-222. (With a null pointer, which the
comment in the header allows, line 205 dereferences it.) The state is re-initialised with the overload
for a transform length. -/
def Inv.flush (s : Inv) : Bool × List ℝ × Inv :=
  if ¬ s.initialized then (false, [], s)
  else
    let out := if s.processed then s.working else []
    let s := if s.processed then { s with working := [] } else s
    (true, out, (s.initializeLength s.fftLength s.step).2)

/-- A sequence of `Process` calls. -/
noncomputable def Inv.processAll : Inv → List (List (List (ℝ × ℝ))) → Option (List (List ℝ) × Inv)
  | s, [] => some ([], s)
  | s, x :: xs =>
    match s.process x with
    | some (true, out, s') => (Inv.processAll s' xs).map fun r => (out :: r.1, r.2)
    | _ => none

/-- The loop over `offset`, inverse_spectrogram.cc:41-45: the normalisation factor. -/
def denomLoop (w : List ℝ) (step offset : ℕ) (denom : ℝ) : ℝ :=
  if h : offset < w.length ∧ 0 < step then
    denomLoop w step (offset + step) (denom + w.getD offset 0 * w.getD offset 0)
  else denom
termination_by w.length - offset
decreasing_by omega

/-- The loop inverse_spectrogram.cc:49-52. -/
noncomputable def divideLoop (n step offset : ℕ) (denom : ℝ) (result : List ℝ) : List ℝ :=
  if h : offset < n ∧ 0 < step then
    divideLoop n step (offset + step) denom (result.set offset (result.getD offset 0 / denom))
  else result
termination_by n - offset
decreasing_by omega

/-- `GenerateSynthesisWindow`, inverse_spectrogram.cc:29-55. (Its `DCHECK`s demand `step <= size` and
nonzero factors.) -/
noncomputable def generateSynthesisWindow (w : List ℝ) (step : ℕ) : List ℝ :=
  (List.range step).foldl (fun r i => divideLoop w.length step i (denomLoop w step i 0) r) w

end Verif.Spectrogram
