import Verif.Model.Resampler
import Verif.Model.Rounding
import Mathlib.Algebra.BigOperators.Group.List.Basic

/-!
# Model of the resamplers with the arithmetic of the machine

The C resampler is `Verif.Resampler.processC` with the `Mac` of the machine. This file models `QResampler`
(audio/dsp/resampler_q.h:667-792) statement by statement with an arithmetic that need not be exact: its dot products are
products of Eigen matrices, which Eigen evaluates in an order of its choice that may depend on the size and the alignment
of the operands. The model leaves this open: the result of the `k`-th product of a call is `dot k`, any function of its
operands.
-/

namespace Verif.FloatResampler

open Verif.Resampler (Cfg St advance nextOutputSize)

universe u

variable {R M : Type u}

/-- The arithmetic of one call of `ProcessSamples`: `dot k h v` is what the `k`-th product of a matrix with the columns
`v` and the coefficients `h` evaluates to, and `add` is the addition of two columns. -/
structure Arith (R M : Type u) where
  dot : ℕ → List R → List M → M
  add : M → M → M

/-- Exact arithmetic. -/
def Arith.exact [Semiring R] [AddCommMonoid M] [Module R M] : Arith R M where
  dot _ h v := (List.zipWith (fun a b => a • b) h v).sum
  add := (· + ·)

/-- `x.middleCols(i, n)`, `x.leftCols(n)`, `filter.head(n)` and `filter.tail(n)`, with the check of the range. -/
def segment {α : Type*} (x : List α) (i n : ℕ) : Option (List α) :=
  if i + n ≤ x.length then some ((x.drop i).take n) else none

/-- The first loop, resampler_q.h:718-738, where the filter straddles `delayed_input` and `input`; `i_straddle_end` is
the minimum of the two bounds. `left` is `num_output_frames - num_written`; when it is 0 in the loop, the check at line 719
fails. -/
def straddleLoop (A : Arith R M) (c : Cfg R) (delayed input : List M) (iEnd : ℕ) :
    ℕ → ℕ → ℕ → Option (List M × ℕ × ℕ × ℕ)
  | left, i, phase =>
    if i < delayed.length ∧ i < iEnd then
      match left with
      | 0 => none
      | left + 1 => do
        let numState := delayed.length - i
        let numInput := c.taps - numState
        let filter ← segment c.coeffs (phase * c.taps) c.taps                -- filters_data[phase]
        let head ← segment filter 0 numState
        let tail ← segment filter (c.taps - numInput) numInput
        let x ← segment delayed i numState
        let y ← segment input 0 numInput
        let out := A.add (A.dot (2 * left) head x) (A.dot (2 * left + 1) tail y)   -- 727-729
        let next := advance c i phase
        let (ys, r) ← straddleLoop A c delayed input iEnd left next.1 next.2
        return (out :: ys, r)
    else some ([], i, phase, left)

/-- The second loop, resampler_q.h:770-783. -/
def inputLoop (A : Arith R M) (c : Cfg R) (input : List M) (iEnd : ℕ) :
    ℕ → ℕ → ℕ → Option (List M × ℕ × ℕ × ℕ)
  | left, i, phase =>
    if i < iEnd then
      match left with
      | 0 => none
      | left + 1 => do
        let filter ← segment c.coeffs (phase * c.taps) c.taps
        let x ← segment input i c.taps
        let out := A.dot (2 * left) filter x                                  -- 773-774
        let next := advance c i phase
        let (ys, r) ← inputLoop A c input iEnd left next.1 next.2
        return (out :: ys, r)
    else some ([], i, phase, left)

/-- `ProcessSamplesGeneric` with the output size chosen by `ProcessSamplesCommon`: resampler_q.h:563, 667-792. -/
def process (A : Arith R M) (c : Cfg R) (s : St M) (input : List M) : Option (List M × St M) :=
  if ¬ (s.delayed.length < c.taps) then none                       -- DCHECK, 684
  else if ¬ (s.phase < c.den) then none                            -- DCHECK, 685
  else if s.delayed.length + input.length < c.taps then            -- 688-697
    if s.delayed.length + input.length ≤ c.delayCap then
      some ([], { s with delayed := s.delayed ++ input })
    else none
  else do
    let outputSize := nextOutputSize c s input.length
    let iEnd := s.delayed.length + input.length - c.taps + 1
    let (ys, i, phase, left) ← straddleLoop A c s.delayed input iEnd outputSize 0 s.phase
    if i < s.delayed.length then                                   -- 740-763
      if left = 0 ∧ s.delayed.length - i + input.length ≤ c.delayCap ∧
          s.delayed.length - i + input.length < c.taps then
        return (ys, ⟨s.delayed.drop i ++ input, phase⟩)
      else none
    else
      let (zs, i, phase, left) ← inputLoop A c input (iEnd - s.delayed.length) left
        (i - s.delayed.length) phase
      if left = 0 ∧ i ≤ input.length ∧ input.length - i ≤ c.delayCap then
        return (ys ++ zs, ⟨input.drop i, phase⟩)                   -- 785-791
      else none

/-- Consecutive `ProcessSamples` calls, each with its arithmetic. -/
def runCalls (c : Cfg R) : St M → List (Arith R M × List M) → Option (List (List M) × St M)
  | s, [] => some ([], s)
  | s, (A, b) :: bs => do
    let (ys, s) ← process A c s b
    let (yss, s) ← runCalls c s bs
    return (ys :: yss, s)

/-! ### Rounding -/

open Verif.Rounding

/-- `IsDot rnd d n l r`: the machine may compute the sum of the products `l` as `r`, in some order, with or without
fused multiply-add, with at most `d` roundings between any product and the result and with `n` roundings in all. -/
inductive IsDot (rnd : ℝ → ℝ) : ℕ → ℕ → List (ℝ × ℝ) → ℝ → Prop
  | zero : IsDot rnd 0 0 [] 0
  | mul (h v : ℝ) : IsDot rnd 1 1 [(h, v)] (rnd (h * v))
  | fma {d n : ℕ} {l : List (ℝ × ℝ)} {s : ℝ} (h v : ℝ) : IsDot rnd d n l s →
      IsDot rnd (d + 1) (n + 1) ((h, v) :: l) (rnd (h * v + s))
  | add {d d' n n' : ℕ} {l l' : List (ℝ × ℝ)} {s s' : ℝ} : IsDot rnd d n l s → IsDot rnd d' n' l' s' →
      IsDot rnd (max d d' + 1) (n + n' + 1) (l ++ l') (rnd (s + s'))
  | perm {d n : ℕ} {l l' : List (ℝ × ℝ)} {s : ℝ} : l.Perm l' → IsDot rnd d n l s → IsDot rnd d n l' s

/-- A dot product as any reasonable machine code computes it: no more roundings than a loop that adds one product after
another to a sum that starts at zero. -/
def MachineDot (rnd : ℝ → ℝ) (l : List (ℝ × ℝ)) (r : ℝ) : Prop :=
  ∃ d n, d ≤ l.length + 1 ∧ n ≤ 2 * l.length ∧ IsDot rnd d n l r

/-- The arithmetic of a machine that rounds with `rnd`; a frame has one number for each channel. -/
def Arith.Rounds {ι : Type} (rnd : ℝ → ℝ) (A : Arith ℝ (ι → ℝ)) : Prop :=
  (∀ k h v, h.length = v.length → ∀ i, MachineDot rnd (h.zip (v.map (· i))) (A.dot k h v i)) ∧
    ∀ x y i, A.add x y i = rnd (x i + y i)

end Verif.FloatResampler
