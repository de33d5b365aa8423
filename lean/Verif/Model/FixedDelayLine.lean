/-!
# Model of `audio/dsp/fixed_delay_line.h`

A column of the multichannel buffer is an element of an arbitrary type `α` with a zero column, so
the model covers every channel count. C `int`s are unbounded `Nat`s. `CHECK_GE(delay_samples_, 0)`
holds by construction. `DCHECK`s are not modelled.
-/

namespace Verif.FixedDelayLine

/-- Abnormal outcomes. -/
inductive Err where
  /-- a column range outside the buffer -/
  | outOfBounds
  /-- source and destination of an Eigen block assignment overlap -/
  | aliasing
deriving DecidableEq, Repr

/-- Data members, fixed_delay_line.h:99-105 (without the channel count). -/
structure State (α : Type) where
  delay : Nat
  lastFrame : Nat
  lastRequest : Nat
  buffer : List α
deriving Repr

variable {α : Type}

/-- `Init` followed by `Reset`, fixed_delay_line.h:40-54. -/
def init (zero : α) (delay blockSize : Nat) : State α :=
  { delay := delay, lastRequest := 0, lastFrame := delay,
    buffer := List.replicate (delay + blockSize) zero }

/-- `Reset`, fixed_delay_line.h:48-54. -/
def reset (zero : α) (s : State α) : State α :=
  { s with lastRequest := 0, lastFrame := s.delay,
           buffer := List.replicate s.buffer.length zero }

/-- Eigen's `buffer_.middleCols(dst, n) = xs`. -/
def setCols (buf : List α) (dst : Nat) (xs : List α) : Except Err (List α) :=
  if dst + xs.length ≤ buf.length then
    .ok (buf.take dst ++ xs ++ buf.drop (dst + xs.length))
  else .error .outOfBounds

/-- One assignment `buffer_.middleCols(dst, n) = buffer_.middleCols(src, n)` with `dst ≤ src`,
fixed_delay_line.h:85-86. -/
def copyCols (buf : List α) (dst src n : Nat) : Except Err (List α) :=
  if src < dst + n then .error .aliasing
  else if src + n ≤ buf.length then setCols buf dst ((buf.drop src).take n)
  else .error .outOfBounds

/-- The shift loop, fixed_delay_line.h:77-88. `needed - (start + shift)` is a possibly negative
`int` in the code; here the truncated difference is 0 in that case, and both lead to `break`. -/
def shiftLoop (needed shift : Nat) (buf : List α) (start : Nat) : Except Err (List α) :=
  if h : min shift (needed - (start + shift)) = 0 then .ok buf
  else
    match copyCols buf start (start + shift) (min shift (needed - (start + shift))) with
    | .error e => .error e
    | .ok buf' => shiftLoop needed shift buf' (start + shift)
termination_by needed - start
decreasing_by omega

/-- `ProcessBlock`, fixed_delay_line.h:65-97. `junk` supplies the contents of the columns that
`conservativeResize` appends uninitialised. -/
def processBlock (junk : Nat → α) (s : State α) (input : List α) :
    Except Err (State α × List α) := do
  let needed := s.lastFrame + input.length
  let buf0 := if s.buffer.length < needed
    then s.buffer ++ (List.range (needed - s.buffer.length)).map junk else s.buffer
  let buf1 ← shiftLoop needed s.lastRequest buf0 0
  if s.lastFrame < s.lastRequest then .error .outOfBounds
  else
    let buf2 ← setCols buf1 (s.lastFrame - s.lastRequest) input
    return ({ s with
      buffer := buf2
      lastFrame := s.lastFrame + input.length - s.lastRequest
      lastRequest := input.length }, buf2.take input.length)

/-- A sequence of `ProcessBlock` calls (each with its own uninitialised memory contents) and the
returned blocks. -/
def run : State α → List ((Nat → α) × List α) → Except Err (State α × List (List α))
  | s, [] => .ok (s, [])
  | s, (junk, x) :: xs => do
    let (s', y) ← processBlock junk s x
    let (s'', ys) ← run s' xs
    return (s'', y :: ys)

end Verif.FixedDelayLine
