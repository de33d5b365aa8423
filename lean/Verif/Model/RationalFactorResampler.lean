import Verif.Model.Resampler
import Verif.Model.RationalApproximation
import Verif.Model.Bessel
import Mathlib.Algebra.Order.Archimedean.Real.Basic

/-!
# Model of audio/dsp/resampler_rational_factor.{h,cc} and audio/dsp/resampler.h

The deprecated `RationalFactorResampler`. A frame is an element of a module `M` over the coefficients
`R` (`M = ℂ`, `R = ℝ` for complex samples). The state is `Resampler.St`: `delayed_input_` and `phase_`.

Simplifications: arithmetic on samples is exact; `int` sizes are natural numbers without overflow; failed
`DCHECK`s and Eigen assertions, division by zero and output entries that no loop writes are the outcome
`none`.
-/

namespace Verif.RationalFactorResampler

open Verif.Resampler (St)

/-- Constant members, resampler_rational_factor.h:506-512. -/
structure Cfg (R : Type*) where
  num : ℕ
  den : ℕ
  radius : ℕ
  filters : List (List R)
deriving DecidableEq

/-- `num_taps_`, resampler_rational_factor.h:446. -/
def Cfg.taps {R : Type*} (c : Cfg R) : ℕ := 2 * c.radius + 1

universe u

variable {R M : Type u}

/-- `Init`, resampler_rational_factor.h:440-461, with `radius = ceil(kernel.radius())`: for each phase the
kernel at `phase / factor_denominator + k`, backwards; `t = radius - k`. -/
def init (kernel : ℚ → R) (num den radius : ℕ) : Cfg R :=
  { num, den, radius,
    filters := (List.range den).map fun phase : ℕ =>
      (List.range (2 * radius + 1)).map fun t : ℕ =>
        kernel ((phase : ℚ) / (den : ℚ) + ((radius : ℚ) - (t : ℚ))) }

/-- `ResetImpl`, resampler_rational_factor.h:281-289. -/
def reset [Zero M] (c : Cfg R) : St M := ⟨List.replicate c.radius 0, 0⟩

/-- `ResetFullyPrimed`, resampler_rational_factor.h:303-310. -/
def resetFullyPrimed [Zero M] (c : Cfg R) : St M := ⟨List.replicate (c.taps - 1) 0, 0⟩

/-- `ComputeOutputSizeFromCurrentState`, resampler_rational_factor.h:493-503. The code tests
`delayed_input_.size() + input_size - num_taps_ + 1 <= 0` on signed numbers. -/
def outputSize (c : Cfg R) (s : St M) (inputSize : ℕ) : Option ℕ :=
  let minConsumed := s.delayed.length + inputSize + 1 - c.taps
  if minConsumed = 0 then some 0
  else if c.num = 0 then none
  else some ((minConsumed * c.den - s.phase + c.num - 1) / c.num)

section Loops

variable [Semiring R] [AddCommMonoid M] [Module R M]

/-- Eigen's `dot`; it asserts that the sizes are equal. -/
def dot (f : List R) (x : List M) : Option M :=
  if f.length = x.length then some ((List.zipWith (· • ·) f x).sum) else none

/-- Eigen's `segment(i, n)`; it asserts that the segment is inside the vector. `head(n)` is
`segment(0, n)` and `tail(n)` is `segment(size - n, n)`. -/
def segment {α : Type*} (x : List α) (i n : ℕ) : Option (List α) :=
  if i + n ≤ x.length then some ((x.drop i).take n) else none

/-- The step of `i` and `phase_`, resampler_rational_factor.h:371-376 and 399-404, with `factor_floor_`
and `phase_step_` from lines 443 and 445. -/
def advance (c : Cfg R) (i phase : ℕ) : ℕ × ℕ :=
  let i := i + c.num / c.den
  let phase := phase + c.num % c.den
  if phase ≥ c.den then (i + 1, phase - c.den) else (i, phase)

/-- The first loop, resampler_rational_factor.h:362-377; `left` is the number of entries of `output` not
yet written. -/
def straddleLoop (c : Cfg R) (delayed input : List M) (iEnd : ℕ) :
    ℕ → ℕ → ℕ → Option (List M × ℕ × ℕ × ℕ)
  | left, i, phase =>
    if i < delayed.length ∧ i < iEnd then
      match left with
      | 0 => none                                                  -- DCHECK_LT, 366
      | left + 1 => do
        let numState := delayed.length - i
        let numInput := c.taps - numState
        let filter ← c.filters[phase]?
        let f1 ← segment filter 0 numState
        let x1 ← segment delayed (delayed.length - numState) numState
        let y1 ← dot f1 x1
        let f2 ← segment filter (filter.length - numInput) numInput
        let x2 ← segment input 0 numInput
        let y2 ← dot f2 x2
        let next := advance c i phase
        let (ys, r) ← straddleLoop c delayed input iEnd left next.1 next.2
        return ((y1 + y2) :: ys, r)
    else some ([], i, phase, left)

/-- The second loop, resampler_rational_factor.h:394-405. -/
def inputLoop (c : Cfg R) (input : List M) (iEnd : ℕ) :
    ℕ → ℕ → ℕ → Option (List M × ℕ × ℕ × ℕ)
  | left, i, phase =>
    if i < iEnd then
      match left with
      | 0 => none                                                  -- DCHECK_LT, 395
      | left + 1 => do
        let filter ← c.filters[phase]?
        let x ← segment input i c.taps
        let y ← dot filter x
        let next := advance c i phase
        let (ys, r) ← inputLoop c input iEnd left next.1 next.2
        return (y :: ys, r)
    else some ([], i, phase, left)

/-- `ProcessSamplesEigen`, resampler_rational_factor.h:329-412; `output` is the caller's vector before
the call. -/
def processEigen (c : Cfg R) (s : St M) (input output : List M) : Option (List M × St M) :=
  if ¬ (s.delayed.length < c.taps) then none                       -- DCHECK_LT, 331
  else if ¬ (s.phase < c.filters.length) then none                 -- DCHECK_LT, 332
  else if s.delayed.length + input.length < c.taps then            -- 338-347
    some (output, { s with delayed := s.delayed ++ input })
  else
    match outputSize c s input.length with
    | none => none
    | some size => do
    let iEnd := s.delayed.length + input.length - c.taps + 1
    let (ys, i, phase, left) ← straddleLoop c s.delayed input iEnd size 0 s.phase
    if i < s.delayed.length then                                   -- 379-388
      if left = 0 then return (ys, ⟨s.delayed.drop i ++ input, phase⟩) else none
    else
      let (zs, i, phase, left) ← inputLoop c input (iEnd - s.delayed.length) left
        (i - s.delayed.length) phase
      if left = 0 ∧ i ≤ input.length then                          -- DCHECK_LE, 407
        return (ys ++ zs, ⟨input.drop i, phase⟩)                   -- 408-411
      else none

/-- `Resampler::ProcessSamples` with `ProcessSamplesImpl`, resampler.h:54-67 and
resampler_rational_factor.h:316-324. -/
def process (c : Cfg R) (s : St M) (input : List M) : Option (List M × St M) :=
  if input = [] then some ([], s)
  else
    match outputSize c s input.length with
    | none => none
    | some size => processEigen c s input (List.replicate size 0)

/-- `Resampler::Flush` with `FlushImpl`, resampler.h:71-75 and resampler_rational_factor.h:414-422. -/
def flush (c : Cfg R) (s : St M) : Option (List M × St M) := do
  let (ys, _) ← process c s (List.replicate (c.taps - 1) 0)
  return (ys, reset c)

/-- `FlushEigen`, resampler_rational_factor.h:426-431. -/
def flushEigen (c : Cfg R) (s : St M) (output : List M) : Option (List M × St M) := do
  let (ys, _) ← processEigen c s (List.replicate (c.taps - 1) 0) output
  return (ys, reset c)

end Loops

/-! ## The kernel -/

/-- `kEpsilon`, resampler_rational_factor.cc:28. -/
noncomputable def kEpsilon : ℝ := 1 / 10 ^ 12

/-- `Sinc`, resampler_rational_factor.cc:29-31. -/
noncomputable def sinc (x : ℝ) : ℝ := if |x| > kEpsilon then Real.sin x / x else 1

/-- Members of a valid `DefaultResamplingKernel`, resampler_rational_factor.h:97-99 and 170-174. -/
structure Kernel where
  inputRate : ℝ
  outputRate : ℝ
  radius : ℝ
  normalization : ℝ
  radiansPerSample : ℝ
  beta : ℝ
  denominator : ℝ

/-- The constructor with all parameters and `DefaultResamplingKernel::Init`,
resampler_rational_factor.cc:57-79; `none` is `Valid() == false`. -/
noncomputable def kernelInit (inputRate outputRate radius cutoff beta : ℝ) : Option Kernel :=
  if inputRate ≤ 0 ∨ outputRate ≤ 0 ∨ radius ≤ 0 ∨ cutoff ≤ 0 ∨ cutoff > 1 / 2 * inputRate ∨ beta ≤ 0 then
    none
  else
    let proportion := 2 * cutoff / inputRate
    some { inputRate, outputRate, radius, normalization := proportion,
           radiansPerSample := Real.pi * proportion, beta, denominator := Bessel.besselI0 beta }

/-- The constructor with the default parameters, resampler_rational_factor.cc:40-55. A quotient by zero
is infinite there, and `Init` rejects the output rate 0. -/
noncomputable def kernelDefault (inputRate outputRate : ℝ) : Option Kernel :=
  kernelInit inputRate outputRate
    (if inputRate ≤ outputRate then 5 else 5 * (inputRate / outputRate))
    (45 / 100 * min inputRate outputRate) 6

/-- `KaiserWindow`, resampler_rational_factor.cc:85-98. -/
noncomputable def kaiserWindow (k : Kernel) (x : ℝ) : ℝ :=
  let y := |x| / k.radius
  if y < kEpsilon then 1
  else if y > 1 + kEpsilon then 0
  else Bessel.besselI0 (k.beta * √(max 0 (1 - y * y))) / k.denominator

/-- `Eval`, resampler_rational_factor.cc:81-83. -/
noncomputable def Kernel.eval (k : Kernel) (x : ℝ) : ℝ :=
  k.normalization * sinc (k.radiansPerSample * x) * kaiserWindow k x

/-- The constructor that takes the factor from the kernel, resampler_rational_factor.h:227-236; `none` is
`Valid() == false`, or undefined behaviour in `RationalApproximation`. -/
noncomputable def construct (k : Option Kernel) (maxDen : ℤ) : Option (Cfg ℝ) :=
  match k with
  | none => none
  | some k =>
    if maxDen ≤ 0 then none
    else do
      let (a, b) ← RationalApproximation.rationalApproximationDefault (k.inputRate / k.outputRate) maxDen
      return init (fun q => k.eval (q : ℝ)) a.toNat b.toNat ⌈k.radius⌉₊

/-- The constructor with an explicit factor, resampler_rational_factor.h:241-260. -/
noncomputable def constructFactor (k : Option Kernel) (num den : ℤ) : Option (Cfg ℝ) :=
  match k with
  | none => none
  | some k =>
    if num ≤ 0 ∨ den ≤ 0 then none
    else
      let g := NumberUtil.gcdLoop num den
      some (init (fun q => k.eval (q : ℝ)) (num / g).toNat (den / g).toNat ⌈k.radius⌉₊)

end Verif.RationalFactorResampler
