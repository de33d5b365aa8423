import Mathlib.Data.Int.Notation
import Mathlib.Tactic.Linarith

/-!
# Model of the integer helpers and index iterators

`audio/dsp/number_util.{h,cc}`, `audio/dsp/portable/number_util.c`.

A 32-bit `int` computation is carried out in `ℤ`; every intermediate result is checked to be
representable, and signed overflow (undefined behaviour) is the outcome `none`. `unsigned` values are
`BitVec 32` or natural numbers below `2^32`.
-/

namespace Verif.NumberUtil

def intMin : ℤ := -2 ^ 31
def intMax : ℤ := 2 ^ 31 - 1

/-- Result of a signed operation; `none` is overflow. -/
def ck (x : ℤ) : Option ℤ := if intMin ≤ x ∧ x ≤ intMax then some x else none

/-- `Modulo`, number_util.cc:30-37 (`%` truncates: `Int.tmod`). -/
def modulo (value modulus : ℤ) : Option ℤ :=
  if value < 0 then do
    let neg ← ck (-value)
    let neg1 ← ck (neg - 1)
    let m1 ← ck (modulus - 1)
    ck (m1 - neg1.tmod modulus)
  else some (value.tmod modulus)

/-- `RoundDownToMultiple`, number_util.cc:39-46. -/
def roundDown (value factor : ℤ) : Option ℤ :=
  if value < 0 then do
    let a ← ck (value - factor)
    let b ← ck (a + 1)
    let neg ← ck (-value)
    let neg1 ← ck (neg - 1)
    ck (b + neg1.tmod factor)
  else ck (value - value.tmod factor)

/-- `RoundUpToMultiple`, number_util.cc:48-55 and portable/number_util.c:11-29. -/
def roundUp (value factor : ℤ) : Option ℤ :=
  if value < 1 then do
    let neg ← ck (-value)
    ck (value + neg.tmod factor)
  else do
    let a ← ck (value + factor)
    let b ← ck (a - 1)
    let c ← ck (value - 1)
    ck (b - c.tmod factor)

/-- `GreatestCommonDivisor`, number_util.cc:57-66 and portable/number_util.c:31-38: the loop. -/
def gcdLoop (a b : ℤ) : ℤ :=
  if h : b = 0 then a else gcdLoop b (a.tmod b)
termination_by b.natAbs
decreasing_by
  have := Int.natAbs_tmod a b
  rw [this]
  exact Nat.mod_lt _ (by omega)

/-- `GreatestCommonDivisor(vector)`, number_util.cc:68-75; `none`: the vector is empty (`a[0]` out of
range). -/
def gcdVector : List ℤ → Option ℤ
  | [] => none
  | a :: as => some (as.foldl gcdLoop a)

/-- `IsPowerOfTwoOrZero`, number_util.h:56-58 (unsigned wrap-around of `value - 1`). -/
def isPowerOfTwoOrZero (value : BitVec 32) : Bool := value &&& (value - 1) == 0

/-- Loop of `Log2Floor`, number_util.cc:81-86. -/
def log2Loop (value : ℕ) (result : ℤ) : ℤ :=
  if value > 1 then log2Loop (value >>> 1) (result + 1) else result
termination_by value
decreasing_by rw [Nat.shiftRight_eq_div_pow]; omega

/-- `Log2Floor`, number_util.cc:77-87. -/
def log2Floor (value : BitVec 32) : ℤ := if value = 0 then -1 else log2Loop value.toNat 0

/-- `Log2Ceiling`, number_util.cc:89-95. -/
def log2Ceiling (value : BitVec 32) : ℤ :=
  if isPowerOfTwoOrZero value then log2Floor value else log2Floor value + 1

/-- `NextPowerOfTwo`, number_util.cc:97-101; `none`: the shift count is negative or not less than the
width (undefined behaviour; `DCHECK_LT` reports the latter in debug builds). `1 << 31` converted to
`unsigned` is `2^31`. -/
def nextPowerOfTwo (value : BitVec 32) : Option (BitVec 32) :=
  let e := log2Ceiling value
  if 0 ≤ e ∧ e < 32 then some (1#32 <<< e.toNat) else none

/-! ## `CombinationsIterator` -/

/-- State of `CombinationsIterator`. Indices are nonnegative. -/
structure Comb where
  n : ℕ
  k : ℕ
  indices : List ℕ
  done : Bool

/-- Constructor, number_util.cc:259-264. -/
def Comb.init (n k : ℕ) : Comb := ⟨n, k, List.range k, decide (k > n)⟩

/-- First loop of `Next`, number_util.cc:272-278, for `i - 1, …, 0`: the indices and the position at
which the loop breaks (`none`: ran through). -/
def incLoop (n k : ℕ) : ℕ → List ℕ → List ℕ × Option ℕ
  | 0, idx => (idx, none)
  | i + 1, idx =>
    let idx' := idx.set i (idx.getD i 0 + 1)
    if (idx'.getD i 0 : ℤ) ≤ n - k + i then (idx', some i) else incLoop n k i idx'

/-- Second loop of `Next`, number_util.cc:284-286, from position `i` on; `m` iterations remain. -/
def rollLoop : ℕ → ℕ → List ℕ → List ℕ
  | 0, _, idx => idx
  | m + 1, i, idx => rollLoop m (i + 1) (idx.set i (idx.getD (i - 1) 0 + 1))

/-- `Next`, number_util.cc:266-287. -/
def Comb.next (s : Comb) : Comb :=
  if s.done then s
  else
    match incLoop s.n s.k s.k s.indices with
    | (idx, none) => { s with indices := idx, done := true }
    | (idx, some i) => { s with indices := rollLoop (s.k - (i + 1)) (i + 1) idx }

/-- The state after `t` calls of `Next`. -/
def Comb.after (n k : ℕ) : ℕ → Comb
  | 0 => Comb.init n k
  | t + 1 => (Comb.after n k t).next

/-! ## `CrossProductRange` -/

/-- State of `CrossProductRange::Iterator`. -/
structure Cross where
  shape : List ℤ
  indices : List ℤ
  isEnd : Bool
deriving DecidableEq

/-- `CrossProductRange::empty`, number_util.cc:292-299. -/
def crossEmpty (shape : List ℤ) : Bool := shape.any (· ≤ 0) || shape.isEmpty

/-- `begin()`, number_util.cc:301-304. -/
def Cross.begin (shape : List ℤ) : Cross :=
  ⟨shape, List.replicate shape.length 0, crossEmpty shape⟩

/-- Loop of `operator++`, number_util.cc:321-328: the new indices and whether the loop ran through.
(`++indices_[i]` cannot overflow because `indices_[i] < shape_[i]`.) -/
def crossInc : List ℤ → List ℤ → List ℤ × Bool
  | s :: shape, i :: idx =>
    if i + 1 ≥ s then
      let r := crossInc shape idx
      (0 :: r.1, r.2)
    else ((i + 1) :: idx, false)
  | _, idx => (idx, true)

/-- `operator++`, number_util.cc:319-332. -/
def Cross.next (c : Cross) : Cross :=
  if c.isEnd then c
  else
    let r := crossInc c.shape c.indices
    { c with indices := r.1, isEnd := r.2 }

/-- `begin()` incremented `t` times. -/
def Cross.after (shape : List ℤ) : ℕ → Cross
  | 0 => Cross.begin shape
  | t + 1 => (Cross.after shape t).next

/-- Conversion of an `int64` to `int` (`static_cast<int>`, or the implicit one at
number_util.cc:311): reduction to two's complement. -/
def toInt32 (x : ℤ) : ℤ := x.bmod (2 ^ 32)

/-- Loop of the flat-index constructor, number_util.cc:310-314: all dimensions but the last take a
remainder (`int64 % int`, truncating). -/
def flatLoop : List ℤ → ℤ → List ℤ
  | [], _ => []
  | [_], flat => [toInt32 flat]
  | s :: t :: shape, flat => toInt32 (flat.tmod s) :: flatLoop (t :: shape) (flat.tdiv s)

/-- `FlatIndex`, number_util.cc:306-317. -/
def Cross.flatIndex (shape : List ℤ) (flat : ℤ) : Cross :=
  let c := Cross.begin shape
  if c.isEnd then c
  else
    let idx := flatLoop shape flat
    { c with indices := idx, isEnd := decide (idx.getLastD 0 ≥ shape.getLastD 0) }

end Verif.NumberUtil
