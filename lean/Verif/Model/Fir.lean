import Verif.Model.Stream
import Verif.Model.FixedDelayLine
import Mathlib.Algebra.Ring.Basic

/-!
# Model of the FIR filters

* `FIRFilter`, `audio/dsp/signal_vector_util.h:801-882`
* `FirFilter`, `audio/linear_filters/fir_filter.{h,cc}`
* `TwoTapFirFilter`, `audio/linear_filters/two_tap_fir_filter.h`
* `FactorTwoDecimator`, `audio/linear_filters/filterbanks/factor_two_decimator.h`
* `TeagerEnergyFilter`, `audio/dsp/teager_energy_filter.h`

Samples are elements of an arbitrary commutative ring `R`. With `R = Fin C → ℝ` (pointwise
operations) an element of `R` is a column of a `C`-channel block, so the multichannel filters are
covered. `FIRFilter`, `FirFilter` and `TwoTapFirFilter` take any type with an addition and a multiplication, so
that C101 speaks about the arithmetic of the machine too.
-/

namespace Verif.Fir
open Verif.Stream

section Filters

variable {R : Type} [Zero R] [Add R] [Mul R]

/-! ## `FIRFilter` (signal_vector_util.h) -/

/-- Constructor and `Reset`, signal_vector_util.h:806-810, 824-826: `impulse_response.size() - 1`
zeros; `none` is the failed `CHECK(!impulse_response_.empty())`. -/
def firInit (h : List R) : Option (List R) :=
  if h.isEmpty then none else some (List.replicate (h.length - 1) 0)

/-- The loop at signal_vector_util.h:867-869: `state[k-1] = sample * h[k] + state[k]` for
`k = 1 .. state.size()-1`, in place and in this order. -/
def firShift (h : List R) (x : R) (st : List R) : List R :=
  (List.range' 1 (st.length - 1)).foldl
    (fun s k => s.set (k - 1) (x * h.getD k 0 + s.getD k 0)) st

/-- One iteration of `Filter`, signal_vector_util.h:864-871 and the order-zero special case
873-875. -/
def firStep (h : List R) (st : List R) (x : R) : List R × R :=
  if h.length > 1 then
    let y := x * h.getD 0 0 + st.getD 0 0
    let st1 := firShift h x st
    (st1.set (st1.length - 1) (x * h.getD (h.length - 1) 0), y)
  else (st, x * h.getD 0 0)

/-! ## `FirFilter` (linear_filters) -/

/-- Abnormal outcomes. -/
abbrev Err := FixedDelayLine.Err

/-- `buf.middleCols(dst, n) += xs` with Eigen's range requirement. -/
def addCols (buf : List R) (dst : Nat) (xs : List R) : Except Err (List R) :=
  if dst + xs.length ≤ buf.length then
    .ok (buf.take dst ++ List.zipWith (· + ·) ((buf.drop dst).take xs.length) xs
      ++ buf.drop (dst + xs.length))
  else .error .outOfBounds

/-- The accumulation loop fir_filter.h:78-93: remaining input columns `xs`, `i` already done,
`cols` the block size. Returns output and state. -/
def accumulate (kernel : List R) (cols : Nat) :
    Nat → List R → List R → List R → Except Err (List R × List R)
  | _, [], out, st => .ok (out, st)
  | i, x :: xs, out, st => do
    let workspace := kernel.map (· * x)
    let availableInOutput := cols - i
    let toAccum := min availableInOutput kernel.length
    let out' ← addCols out i (workspace.take toAccum)
    -- `leftover_frames = kernel_frames_ - available_frames_in_output`, only used if positive
    let leftover := kernel.length - availableInOutput
    let st' ← if 0 < leftover
      then addCols st 0 (workspace.drop (kernel.length - leftover)) else .ok st
    accumulate kernel cols (i + 1) xs out' st'

/-- `FirFilter::ProcessBlock`, fir_filter.h:50-94. The shift loop 66-75 has the same shape as the one
in fixed_delay_line.h (with `kernel_frames_` as the number of columns). -/
def firProcessBlock (kernel : List R) (st : List R) (input : List R) :
    Except Err (List R × List R) := do
  if input.length = 0 then return (st, [])
  let out0 := List.replicate input.length (0 : R)
  let flush := min input.length st.length
  let out1 ← FixedDelayLine.setCols out0 0 (st.take flush)
  let st1 ← FixedDelayLine.shiftLoop kernel.length flush st 0
  -- `state_.rightCols(flush).setZero()`
  if st1.length < flush then .error .outOfBounds
  else
    let st2 := st1.take (st1.length - flush) ++ List.replicate flush 0
    let (out, st3) ← accumulate kernel input.length 0 input out1 st2
    return (st3, out)

/-- `FirFilter::Init`/`Reset`, fir_filter.cc:27-40. -/
def firFilterInit (kernel : List R) : List R := List.replicate kernel.length 0

/-- Successive `ProcessBlock` calls. -/
def firRun (kernel : List R) : List R → List (List R) → Except Err (List R × List (List R))
  | st, [] => .ok (st, [])
  | st, x :: xs => do
    let (st', y) ← firProcessBlock kernel st x
    let (st'', ys) ← firRun kernel st' xs
    return (st'', y :: ys)

/-! ## `TwoTapFirFilter` -/

/-- Gains, two_tap_fir_filter.h:36-39: `gains.first` is the gain of the previous sample. -/
structure TwoTap (R : Type) where
  gainNow : R
  gainPrev : R

/-- Constructor, two_tap_fir_filter.h:36-39. -/
def TwoTap.make (first second : R) : TwoTap R := ⟨second, first⟩

/-- `ProcessBlock`, two_tap_fir_filter.h:55-73. -/
def twoTapBlock (g : TwoTap R) (state : R) (input : List R) : R × List R :=
  match input with
  | [] => (state, [])
  | x0 :: rest =>
    -- rightCols(cols-1) and leftCols(cols-1) of the input
    let right := rest
    let left := input.dropLast
    let tail := List.zipWith (fun now prev => g.gainNow * now + g.gainPrev * prev) right left
    (input.getLastD 0, (g.gainNow * x0 + g.gainPrev * state) :: tail)

end Filters

variable {R : Type} [CommRing R]

/-- `FirstDifferenceFilter`, two_tap_fir_filter.h:84-87. -/
def firstDifference : TwoTap R := TwoTap.make (-1) 1

/-! ## `FactorTwoDecimator` -/

/-- Columns `first, first+2, first+4, ...` (`count` of them) of `input`, the strided map of
factor_two_decimator.h:55-58; `none` when a column is outside of the input. -/
def strided {α : Type} (input : List α) : Nat → Nat → Option (List α)
  | _, 0 => some []
  | first, count + 1 => do
    let x ← input[first]?
    let xs ← strided input (first + 2) count
    return x :: xs

/-- `Decimate`, factor_two_decimator.h:51-63. -/
def decimate {α : Type} (skip : Bool) (input : List α) : Option (Bool × List α) := do
  let out ← strided input (if skip then 1 else 0) ((input.length + (if skip then 0 else 1)) / 2)
  return (if input.length % 2 = 1 then !skip else skip, out)

/-- Successive `Decimate` calls. -/
def decimateRun {α : Type} : Bool → List (List α) → Option (Bool × List (List α))
  | skip, [] => some (skip, [])
  | skip, x :: xs => do
    let (skip', y) ← decimate skip x
    let (skip'', ys) ← decimateRun skip' xs
    return (skip'', y :: ys)

/-! ## `TeagerEnergyFilter` -/

/-- One iteration of `ProcessBlock`, teager_energy_filter.h:127-132. State: the last two samples
`(delayed_input_[0], delayed_input_[1])`. -/
def teagerStep (normalize : R) (d : R × R) (x : R) : (R × R) × R :=
  ((d.2, x), (d.2 * d.2 - d.1 * x) * normalize)

end Verif.Fir
