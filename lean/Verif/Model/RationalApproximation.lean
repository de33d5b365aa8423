import Verif.Model.NumberUtil
import Mathlib.Algebra.Order.Floor.Ring
import Mathlib.Algebra.Order.Field.Basic

/-!
# Model of `RationalApproximation` (audio/dsp/portable/number_util.c:40-200)

`double` is an ordered field with floor (rounding and NaN are not modelled); the `int` computations are
checked for overflow (`none`). The C++ wrapper (audio/dsp/number_util.cc:377-382) passes the default
options.
-/

namespace Verif.RationalApproximation

open Verif.NumberUtil (ck intMin intMax)

variable {α : Type*} [Field α] [LinearOrder α] [FloorRing α]

/-- `Fraction`, portable/number_util.c:40-43. -/
structure Frac where
  a : ℤ
  b : ℤ
deriving DecidableEq

/-- `AppendContinuedFractionTerm`, portable/number_util.c:56-62. -/
def append (c p : Frac) (term : ℤ) : Option Frac := do
  let x ← ck (term * c.a)
  let a ← ck (x + p.a)
  let y ← ck (term * c.b)
  let b ← ck (y + p.b)
  return ⟨a, b⟩

/-- `FractionToDouble`, portable/number_util.c:45-47. -/
def Frac.val (f : Frac) : α := (f.a : α) / (f.b : α)

/-- How the loop is left. -/
inductive Exit
  /-- `return` at line 147. -/
  | converged (c : Frac)
  /-- `break` at line 162, with the values of `n`, `continued_fraction_term` and the two
  convergents. -/
  | truncated (n term : ℤ) (p c : Frac)

/-- Upper bound `n` of the next term, portable/number_util.c:154-159. -/
def bound (maxDen : ℤ) (p c : Frac) : Option ℤ := do
  let d ← ck (maxDen - p.b)
  let n ← ck (d.tdiv c.b)
  if c.a > 0 then
    let m ← ck (intMax - p.a)
    let u ← ck (m.tdiv c.a)
    return if n > u then u else n
  else return n

/-- The loop, portable/number_util.c:142-169; `left = max_terms - term`, at least 0. -/
def loop (tol : α) (maxDen : ℤ) : ℕ → α → ℤ → Frac → Frac → Option Exit
  | left, recip, term, p, c =>
    let residual := recip - (term : α)
    if |residual| ≤ tol then some (.converged c)
    else do
      let recip' := 1 / residual
      let term' := ⌊recip'⌋
      let n ← bound maxDen p c
      match left with
      | 0 => return .truncated n term' p c
      | left + 1 =>
        if term' ≥ n then return .truncated n term' p c
        else do
          let c' ← append c p term'
          loop tol maxDen left recip' term' c c'

/-- After the loop, portable/number_util.c:171-196. -/
def finish (value : α) (n term : ℤ) (p c : Frac) : Option Frac :=
  let lower : α := (term : α) / 2
  if (n : α) ≥ lower then do
    let n' ← if n > term then ck term else some n
    let s ← append c p n'
    return if (n' : α) > lower ∨ |value - s.val| < |value - c.val| then s else c
  else some c

/-- `RationalApproximation`, portable/number_util.c:64-200. -/
def rationalApproximation (tol : α) (maxTerms : ℤ) (value : α) (maxDen : ℤ) : Option (ℤ × ℤ) :=
  if maxDen ≤ 0 then some (0, 0)
  else if value > (intMax : α) - 1 / 2 then some (intMax, 1)
  else if value < (intMin : α) + 1 / 2 then some (intMin, 1)
  else do
    let sign : ℤ := if value < 0 then -1 else 1
    let v := |value|
    let t := ⌊v⌋
    let a ← ck t
    match ← loop tol maxDen (maxTerms - 2).toNat v t ⟨1, 0⟩ ⟨a, 1⟩ with
    | .converged c =>
      let a ← ck (sign * c.a)
      return (a, c.b)
    | .truncated n term p c =>
      let r ← finish v n term p c
      let a ← ck (sign * r.a)
      return (a, r.b)

/-- The default options, portable/number_util.c:6-9: `max_terms = 47`, `convergence_tolerance = 1e-9`. -/
def rationalApproximationDefault (value : α) (maxDen : ℤ) : Option (ℤ × ℤ) :=
  rationalApproximation (1 / 10 ^ 9) 47 value maxDen

end Verif.RationalApproximation
