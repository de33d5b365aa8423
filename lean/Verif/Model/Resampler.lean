import Mathlib.Algebra.Module.Defs
import Mathlib.Algebra.Order.Floor.Ring
import Mathlib.Data.Rat.Defs

/-!
# Model of the rational factor resamplers

* audio/dsp/portable/rational_factor_resampler.c (the C resampler), and
* audio/dsp/resampler_q.h, audio/dsp/resampler_q.cc (`QResampler`).

Both run the same algorithm (rational_factor_resampler.c:239-371, resampler_q.h:667-792); the
differences are modelled by `Cfg.delayCap`, by `processC` (drop of excess input, fixed output buffer)
and by `flushQ`/`resampleSignal`. A frame is an element of a module `M` over the coefficients `R`: for
one channel `M = R`, for several channels `M = Fin n → R`, for complex samples `M = ℂ`.

The arithmetic on samples is a parameter, the operation `Mac`: exact in a module, or with rounding
(`Verif.Model.FloatResampler`). The straddle loop adds up in the order of the C code; in `QResampler` the
head and the tail are added up separately and then added, which is the same in exact arithmetic and is
modelled in `Verif.Model.FloatResampler`. Simplifications: `int` sizes are natural numbers without
overflow. Reads and writes outside a buffer, and failed `assert`/`DCHECK`s, are the outcome `none`.
-/

namespace Verif.Resampler

/-- Constant members of a resampler: rational_factor_resampler.c:35-73, resampler_q.h:848-854. `coeffs`
is the array `filters` (C) and the concatenation of `coeffs_` (C++); `delayCap` is the number of frames
that `delayed_input` has room for: `num_taps` in C (rational_factor_resampler.c:140), `num_taps - 1`
in C++ (resampler_q.h:347). -/
structure Cfg (R : Type*) where
  num : ℕ
  den : ℕ
  radius : ℕ
  coeffs : List R
  delayCap : ℕ

/-- `num_taps`, rational_factor_resampler.c:110, resampler_q.cc:74. -/
def Cfg.taps {R : Type*} (c : Cfg R) : ℕ := 2 * c.radius + 1

/-- Variable members: `delayed_input` (its first `delayed_input_size` frames) and `phase`. -/
structure St (M : Type*) where
  delayed : List M
  phase : ℕ
deriving DecidableEq

universe u

variable {R M : Type u}

/-- The filter table: rational_factor_resampler.c:155-167, resampler_q.cc:83-94. Entry
`phase * num_taps + (radius - k)` is the kernel at `phase / factor_denominator + k`, for `k` from
`-radius` to `radius`; here `t = radius - k` runs over `0 .. num_taps - 1`. -/
def makeFilters (kernel : ℚ → R) (den radius : ℕ) : List R :=
  (List.range den).flatMap fun phase : ℕ =>
    (List.range (2 * radius + 1)).map fun t : ℕ =>
      kernel ((phase : ℚ) / (den : ℚ) + ((radius : ℚ) - (t : ℚ)))

/-- `RationalFactorResamplerMake` from the kernel and the factor on,
rational_factor_resampler.c:92-171. -/
def makeC (kernel : ℚ → R) (num den radius : ℕ) : Cfg R :=
  { num, den, radius, coeffs := makeFilters kernel den radius, delayCap := 2 * radius + 1 }

/-- `QResamplerFilters::Init` and `QResampler::Init`, resampler_q.cc:57-96, resampler_q.h:347. -/
def makeQ (kernel : ℚ → R) (num den radius : ℕ) : Cfg R :=
  { num, den, radius, coeffs := makeFilters kernel den radius, delayCap := 2 * radius }

/-- `Reset`: rational_factor_resampler.c:182-191, resampler_q.h:506-514. -/
def reset [Zero M] (c : Cfg R) : St M := ⟨List.replicate c.radius 0, 0⟩

/-- `ResetFullyPrimed`, resampler_q.h:494-499. -/
def resetFullyPrimed [Zero M] (c : Cfg R) : St M := ⟨List.replicate (c.taps - 1) 0, 0⟩

/-- `FlushSize`/`flush_frames`: rational_factor_resampler.c:212-225, resampler_q.h:823. -/
def flushFrames (c : Cfg R) : ℕ := c.taps - 1

/-- `NextOutputSize`/`NextNumOutputFrames`: rational_factor_resampler.c:227-237,
resampler_q.h:441-451. The subtraction is cut at 0, where the code returns 0 too. -/
def nextOutputSize (c : Cfg R) (s : St M) (inputSize : ℕ) : ℕ :=
  let minConsumed := 1 + inputSize + s.delayed.length - c.taps
  if minConsumed = 0 then 0
  else (minConsumed * c.den - s.phase + c.num - 1) / c.num

/-- `MaxOutputFrames`: resampler_q.h:826-831; also `max_output`, rational_factor_resampler.c:124-125. -/
def maxOutputFrames (c : Cfg R) (maxInput : ℕ) : ℕ := (maxInput * c.den + c.num - 1) / c.num

/-- `MaxInputFramesToProduce`: resampler_q.h:834-843. -/
def maxInputFramesToProduce (c : Cfg R) (m : ℕ) : ℕ :=
  if m = 0 then 0 else ((m - 1) * c.num + c.den - 1) / c.den + c.taps

/-- `NextNumInputFramesToProduce`: resampler_q.h:471-480. `delayed_input_frames_ < num_taps`, so that
the difference is not negative. -/
def nextNumInputFramesToProduce (c : Cfg R) (s : St M) (m : ℕ) : ℕ :=
  if m = 0 then 0 else ((m - 1) * c.num + s.phase) / c.den + c.taps - s.delayed.length

/-- The arithmetic of the dot products: `mac sum h v` is `sum + h * v` as the machine computes it. -/
class Mac (R M : Type u) where
  mac : M → R → M → M

export Mac (mac)

/-- Exact arithmetic. -/
instance Mac.exact [Semiring R] [AddCommMonoid M] [Module R M] : Mac R M := ⟨fun sum h v => sum + h • v⟩

section Loops

variable [Zero M] [Mac R M]

/-- `for (k = 0; k < n; ++k) sum += filter[f + k] * x[o + k];` rational_factor_resampler.c:309-314 and
350-353; resampler_q.h:727-729, 773-774. -/
def dotLoop (coeffs : List R) (x : List M) : ℕ → ℕ → ℕ → M → Option M
  | 0, _, _, sum => some sum
  | n + 1, f, o, sum => do
    let h ← coeffs[f]?
    let v ← x[o]?
    dotLoop coeffs x n (f + 1) (o + 1) (mac sum h v)

/-- The update of `i` and `phase`: rational_factor_resampler.c:318-323, resampler_q.h:732-737, with
`factor_floor = num / den` and `phase_step = num % den` (rational_factor_resampler.c:151-153). -/
def advance (c : Cfg R) (i phase : ℕ) : ℕ × ℕ :=
  let i := i + c.num / c.den
  let phase := phase + c.num % c.den
  if phase ≥ c.den then (i + 1, phase - c.den) else (i, phase)

/-- The first loop, rational_factor_resampler.c:299-324, resampler_q.h:718-738. `left` is
`output_size - output_samples`; when it is 0 in the loop, the assertion at line 300 (719) fails. -/
def straddleLoop (c : Cfg R) (delayed input : List M) (iEnd : ℕ) :
    ℕ → ℕ → ℕ → Option (List M × ℕ × ℕ × ℕ)
  | left, i, phase =>
    if i < delayed.length ∧ i < iEnd then
      match left with
      | 0 => none
      | left + 1 => do
        let numState := delayed.length - i
        let numInput := c.taps - numState
        let sum ← dotLoop c.coeffs delayed numState (phase * c.taps) i 0
        let sum ← dotLoop c.coeffs input numInput (phase * c.taps + numState) 0 sum
        let next := advance c i phase
        let (ys, r) ← straddleLoop c delayed input iEnd left next.1 next.2
        return (sum :: ys, r)
    else some ([], i, phase, left)

/-- The second loop, rational_factor_resampler.c:346-362, resampler_q.h:770-783. -/
def inputLoop (c : Cfg R) (input : List M) (iEnd : ℕ) :
    ℕ → ℕ → ℕ → Option (List M × ℕ × ℕ × ℕ)
  | left, i, phase =>
    if i < iEnd then
      match left with
      | 0 => none
      | left + 1 => do
        let sum ← dotLoop c.coeffs input c.taps (phase * c.taps) i 0
        let next := advance c i phase
        let (ys, r) ← inputLoop c input iEnd left next.1 next.2
        return (sum :: ys, r)
    else some ([], i, phase, left)

/-- `ProcessSamples`: rational_factor_resampler.c:261-371; `ProcessSamplesGeneric` with the output size
chosen by `ProcessSamplesCommon`: resampler_q.h:563, 667-792. `i_end - delayed_input_size` (line 345,
768) is cut at 0: a loop with `i < i_end` does not run for a nonpositive bound either. -/
def process (c : Cfg R) (s : St M) (input : List M) : Option (List M × St M) :=
  if ¬ (s.delayed.length < c.taps) then none                       -- assert, 244 / 684
  else if ¬ (s.phase < c.den) then none                            -- assert, 245 / 685
  else if s.delayed.length + input.length < c.taps then            -- 264-272 / 688-697
    if s.delayed.length + input.length ≤ c.delayCap then
      some ([], { s with delayed := s.delayed ++ input })
    else none
  else do
    let outputSize := nextOutputSize c s input.length
    let iEnd := s.delayed.length + input.length - c.taps + 1
    let (ys, i, phase, left) ← straddleLoop c s.delayed input iEnd outputSize 0 s.phase
    if i < s.delayed.length then                                   -- 326-339 / 740-763
      if left = 0 ∧ s.delayed.length - i + input.length ≤ c.delayCap ∧
          s.delayed.length - i + input.length < c.taps then
        return (ys, ⟨s.delayed.drop i ++ input, phase⟩)
      else none
    else
      let (zs, i, phase, left) ← inputLoop c input (iEnd - s.delayed.length) left
        (i - s.delayed.length) phase
      if left = 0 ∧ i ≤ input.length ∧ input.length - i ≤ c.delayCap then
        return (ys ++ zs, ⟨input.drop i, phase⟩)                   -- 364-370 / 785-791
      else none

/-- `RationalFactorResamplerProcessSamples` with `max_input_size`, rational_factor_resampler.c:239-371:
too long an input resets the resampler and loses its beginning (lines 251-259), and the output goes to a
buffer with room for `max_output` samples (lines 124-125, 141). -/
def processC (c : Cfg R) (maxInput : ℕ) (s : St M) (input : List M) : Option (List M × St M) := do
  let excess := input.length - maxInput
  let (s, input) := if excess > 0 then (reset c, input.drop excess) else (s, input)
  let (ys, s') ← process c s input
  if ys.length ≤ maxOutputFrames c maxInput then return (ys, s') else none

/-- Consecutive `ProcessSamples` calls. -/
def runBlocks (proc : St M → List M → Option (List M × St M)) :
    St M → List (List M) → Option (List (List M) × St M)
  | s, [] => some ([], s)
  | s, b :: bs => do
    let (ys, s) ← proc s b
    let (yss, s) ← runBlocks proc s bs
    return (ys :: yss, s)

/-- `Flush`: resampler_q.h:395-403. -/
def flushQ (c : Cfg R) (s : St M) : Option (List M × St M) := do
  let (ys, _) ← process c s (List.replicate (flushFrames c) 0)
  return (ys, reset c)

/-- `QResampleSignal`: resampler_q.h:276-305 on frames. The output is allocated for
`NextNumOutputFrames(n + flush_frames)` frames; `ProcessSamples` and `Flush` write to two subspans of it
and `CHECK` that these have the right size (lines 565-570). -/
def resampleSignal (c : Cfg R) (input : List M) : Option (List M) := do
  let s : St M := reset c
  let total := nextOutputSize c s (input.length + flushFrames c)
  let first := nextOutputSize c s input.length
  if first ≤ total then
    let (ys, s) ← process c s input
    if nextOutputSize c s (flushFrames c) = total - first then
      let (zs, _) ← flushQ c s
      return ys ++ zs
    else none
  else none

end Loops

end Verif.Resampler
