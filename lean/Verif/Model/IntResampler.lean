import Verif.Model.Resampler

/-!
# Model of the `int` arithmetic of audio/dsp/portable/rational_factor_resampler.c

`Verif/Model/Resampler.lean` computes with natural numbers. Here every sum and product of `int`s is checked: one that is not
representable in 32 bits is undefined behaviour, and the result is `none`. A conversion of `int64_t` to `int` keeps the lowest
32 bits, as gcc and clang do. `int` has 32 bits, `float` 4 bytes and `size_t` 64 bits. The assertions are enabled, as in
`Verif/Model/Resampler.lean`.
-/

namespace Verif.IntResampler
open Verif.Resampler

universe u

variable {R M : Type u}

/-- A result of `int` arithmetic that is not negative and that is representable. -/
abbrev Fits (x : ℕ) : Prop := x < 2 ^ 31

/-- The conversion `(int) x` of an `int64_t`. -/
def toInt (x : ℤ) : ℤ := (x + 2 ^ 31) % 2 ^ 32 - 2 ^ 31

/-- The conversion of an `int` to `size_t`. -/
def toSize (x : ℤ) : ℕ := (x % 2 ^ 64).toNat

/-- `RationalFactorResamplerNextOutputSize`, rational_factor_resampler.c:227-237. The operations of lines 234-236 are on
`int64_t`. The differences are not smaller than `-num_taps`. -/
def nextOutputSize (c : Cfg R) (s : St M) (inputSize : ℕ) : Option ℤ :=
  if ¬ Fits (1 + inputSize) then none
  else if ¬ Fits (1 + inputSize + s.delayed.length) then none
  else
    let minConsumed : ℤ := 1 + inputSize + s.delayed.length - c.taps
    if minConsumed ≤ 0 then some 0
    else if ¬ (minConsumed * c.den + c.num < 2 ^ 63) then none
    else some (toInt ((minConsumed * c.den - s.phase + c.num - 1) / c.num))

section Loops

variable [Zero M] [Mac R M]

/-- The update of `i` and `phase`, rational_factor_resampler.c:318-323 and 356-361. -/
def advance (c : Cfg R) (i phase : ℕ) : Option (ℕ × ℕ) :=
  if ¬ Fits (i + c.num / c.den) then none
  else if ¬ Fits (phase + c.num % c.den) then none
  else if phase + c.num % c.den ≥ c.den then
    if ¬ Fits (i + c.num / c.den + 1) then none
    else some (i + c.num / c.den + 1, phase + c.num % c.den - c.den)
  else some (i + c.num / c.den, phase + c.num % c.den)

/-- The first loop, rational_factor_resampler.c:299-324. `left` is `output_size - output_samples`. The indices `i + k` and
`num_state + k` are smaller than the sizes of the arrays, which are `int`s. -/
def straddleLoop (c : Cfg R) (delayed input : List M) (iEnd : ℕ) :
    ℕ → ℕ → ℕ → Option (List M × ℕ × ℕ × ℕ)
  | left, i, phase =>
    if i < delayed.length ∧ i < iEnd then
      match left with
      | 0 => none
      | left + 1 =>
        if ¬ Fits (phase * c.taps) then none
        else do
          let numState := delayed.length - i
          let numInput := c.taps - numState
          let sum ← dotLoop c.coeffs delayed numState (phase * c.taps) i 0
          let sum ← dotLoop c.coeffs input numInput (phase * c.taps + numState) 0 sum
          match advance c i phase with
          | none => none
          | some next => do
            let (ys, r) ← straddleLoop c delayed input iEnd left next.1 next.2
            return (sum :: ys, r)
    else some ([], i, phase, left)

/-- The second loop, rational_factor_resampler.c:346-362. -/
def inputLoop (c : Cfg R) (input : List M) (iEnd : ℕ) :
    ℕ → ℕ → ℕ → Option (List M × ℕ × ℕ × ℕ)
  | left, i, phase =>
    if i < iEnd then
      match left with
      | 0 => none
      | left + 1 =>
        if ¬ Fits (phase * c.taps) then none
        else do
          let sum ← dotLoop c.coeffs input c.taps (phase * c.taps) i 0
          match advance c i phase with
          | none => none
          | some next => do
            let (ys, r) ← inputLoop c input iEnd left next.1 next.2
            return (sum :: ys, r)
    else some ([], i, phase, left)

/-- `ProcessSamples` after the cut of the input, rational_factor_resampler.c:261-371. A negative `output_size` fails the first
assertion in the loops, as 0 does. -/
def process (c : Cfg R) (s : St M) (input : List M) : Option (List M × St M) :=
  if ¬ (s.delayed.length < c.taps) then none                       -- assert, 244
  else if ¬ (s.phase < c.den) then none                            -- assert, 245
  else if ¬ Fits (s.delayed.length + input.length) then none       -- 264
  else if s.delayed.length + input.length < c.taps then
    if s.delayed.length + input.length ≤ c.delayCap then
      some ([], { s with delayed := s.delayed ++ input })
    else none
  else
    match nextOutputSize c s input.length with
    | none => none
    | some outputSize => do
      let iEnd := s.delayed.length + input.length - c.taps + 1
      let (ys, i, phase, left) ← straddleLoop c s.delayed input iEnd outputSize.toNat 0 s.phase
      if i < s.delayed.length then
        if left = 0 ∧ s.delayed.length - i + input.length ≤ c.delayCap ∧
            s.delayed.length - i + input.length < c.taps then
          return (ys, ⟨s.delayed.drop i ++ input, phase⟩)
        else none
      else
        let (zs, i, phase, left) ← inputLoop c input (iEnd - s.delayed.length) left
          (i - s.delayed.length) phase
        if left = 0 ∧ i ≤ input.length ∧ input.length - i ≤ c.delayCap then
          return (ys ++ zs, ⟨input.drop i, phase⟩)
        else none

end Loops

/-- A resampler object: the configuration, `max_input_size` and the number of floats in the output buffer. -/
structure Obj (R : Type u) where
  cfg : Cfg R
  maxInput : ℕ
  capacity : ℕ

/-- What `RationalFactorResamplerMake` does. -/
inductive Made (R : Type u)
  /-- undefined behaviour -/
  | undefined
  /-- it returns `NULL` -/
  | null
  | object (o : Obj R)

/-- `RationalFactorResamplerMake` for the factor `num / den` and the radius `radius` of the kernel, lines 110-153.
`alloc` says for which numbers of bytes `malloc` succeeds (the struct of line 127, of constant size, is not modelled). Line 163
writes `den * (2 * radius + 1)` coefficients to the filters, line 186 `radius` zeros to the delayed input. -/
def make (alloc : ℕ → Bool) (kernel : ℚ → R) (num den radius maxInputSize : ℕ) : Made R :=
  if ¬ Fits (2 * radius + 1) then .undefined
  else
    let taps := 2 * radius + 1
    let maxInput := if taps - 1 > maxInputSize then taps - 1 else maxInputSize
    let maxOutput := toInt (((maxInput : ℤ) * den + num - 1) / num)
    let bytes := (4 * toSize maxOutput) % 2 ^ 64
    if alloc ((4 * den * taps) % 2 ^ 64) = false then .null
    else if alloc (4 * taps) = false then .null
    else if alloc bytes = false then .null
    else if (4 * den * taps) % 2 ^ 64 < 4 * (den * taps) then .undefined
    else .object ⟨makeC kernel num den radius, maxInput, bytes / 4⟩

/-- `RationalFactorResamplerProcessSamples`, rational_factor_resampler.c:239-371: too long an input resets the resampler and
loses its beginning (lines 251-259), and the output goes to a buffer with `capacity` elements. -/
def processC [Zero M] [Mac R M] (o : Obj R) (s : St M) (input : List M) : Option (List M × St M) := do
  let excess := input.length - o.maxInput
  let (s, input) := if excess > 0 then (reset o.cfg, input.drop excess) else (s, input)
  let (ys, s') ← process o.cfg s input
  if ys.length ≤ o.capacity then return (ys, s') else none

end Verif.IntResampler
