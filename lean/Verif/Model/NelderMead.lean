import Mathlib.Algebra.Order.Field.Basic
import Mathlib.Algebra.BigOperators.Fin
import Mathlib.Data.Fintype.Basic
import Mathlib.Data.List.FinRange
import Mathlib.Order.WithBot
import Mathlib.Order.Bounds.Basic

/-!
# Model of `NelderMeadSearcher` (audio/dsp/nelder_mead_searcher.h)

Scalars are an ordered field `K` (rounding is not modelled); objective values are elements of `K` or
plus infinity (`⊤`); NaN is not modelled as an objective value. The vertices are functions on `Fin (d + 1)`.
The object keeps, beyond the members of the class, the list of points at which the objective was
evaluated since the last reset of the counter.
-/

namespace Verif.NelderMead

variable {d : ℕ} {K : Type} [Field K] [LinearOrder K]

/-- A point. -/
abbrev Point (d : ℕ) (K : Type) := Fin d → K

/-- What the code leaves open: `narrow` is the conversion of `const float second_highest` and `const float
highest` (nelder_mead_searcher.h:292, 300), the identity for `Scalar = float`; `amin`, `amax` are the
indices chosen by Eigen's `minCoeff` and `maxCoeff`. -/
structure Env (d : ℕ) (K : Type) where
  narrow : WithTop K → WithTop K
  amin : (Fin (d + 1) → WithTop K) → Fin (d + 1)
  amax : (Fin (d + 1) → WithTop K) → Fin (d + 1)

/-- Data members, nelder_mead_searcher.h:175-190, without the constants; `trace` are the evaluated
points, latest first. Absent bounds (size 0) are `none`; a bound may be infinite. -/
structure State (d : ℕ) (K : Type) where
  objective : Option (Point d K → WithTop K)
  simplex : Fin (d + 1) → Point d K
  values : Fin (d + 1) → WithTop K
  lower : Option (Fin d → WithBot K)
  upper : Option (Fin d → WithTop K)
  argmin : Option (Fin (d + 1))
  argmax : Fin (d + 1)
  evals : ℕ
  trace : List (Point d K)

/-- Constructor, nelder_mead_searcher.h:198-212, for `dimensions = d > 0`; the arrays are uninitialised:
arbitrary `simplex` and `values`. -/
def State.init (simplex : Fin (d + 1) → Point d K) (values : Fin (d + 1) → WithTop K) (argmax : Fin (d + 1)) :
    State d K := ⟨none, simplex, values, none, none, none, argmax, 0, []⟩

/-- `IsFeasible`, nelder_mead_searcher.h:486-496. -/
def State.feasible (s : State d K) (p : Point d K) : Bool :=
  (match s.upper with
    | none => true
    | some u => decide (∀ i, (p i : WithTop K) ≤ u i)) &&
  (match s.lower with
    | none => true
    | some l => decide (∀ i, l i ≤ (p i : WithBot K)))

/-- `SetSimplexFromStartingGuess`, nelder_mead_searcher.h:214-225; `none`: `CHECK` fails. -/
def State.setGuess (s : State d K) (guess : Point d K) (offset : K) : Option (State d K) :=
  if s.feasible guess then
    some { s with simplex := fun j => fun i => if j.val = i.val + 1 then guess i + offset else guess i }
  else none

/-- `SetSimplex`, nelder_mead_searcher.h:356-361. -/
def State.setSimplex (s : State d K) (simplex : Fin (d + 1) → Point d K) : State d K := { s with simplex }

/-- `SetObjectiveFunction`, nelder_mead_searcher.h:235-239. -/
def State.setObjective (s : State d K) (f : Point d K → WithTop K) : State d K := { s with objective := some f }

/-- The test `(upper_bounds_ >= lower_bounds_).all()`, where both are set. -/
def boundsOk (l : Option (Fin d → WithBot K)) (u : Option (Fin d → WithTop K)) : Prop :=
  match l, u with
  | some l, some u => ∀ i, ∀ a : K, l i = (a : WithBot K) → (a : WithTop K) ≤ u i
  | _, _ => True

open Classical in
/-- `SetLowerBounds`, nelder_mead_searcher.h:369-379; `none`: `CHECK` fails. -/
noncomputable def State.setLower (s : State d K) (l : Fin d → WithBot K) : Option (State d K) :=
  if boundsOk (some l) s.upper then some { s with lower := some l } else none

open Classical in
/-- `SetUpperBounds`, nelder_mead_searcher.h:381-391. -/
noncomputable def State.setUpper (s : State d K) (u : Fin d → WithTop K) : Option (State d K) :=
  if boundsOk s.lower (some u) then some { s with upper := some u } else none

/-- `ClearBounds`, nelder_mead_searcher.h:393-397. -/
def State.clearBounds (s : State d K) : State d K := { s with lower := none, upper := none }

/-- `EvaluateObjective`, nelder_mead_searcher.h:399-409: value and new state. -/
def State.evaluate (s : State d K) (f : Point d K → WithTop K) (p : Point d K) : WithTop K × State d K :=
  if s.feasible p then (f p, { s with evals := s.evals + 1, trace := p :: s.trace }) else (⊤, s)

/-- Larger of a coordinate and a lower bound. -/
def clampLow (x : K) : WithBot K → K
  | none => x
  | some l => max x l

/-- Smaller of a coordinate and an upper bound. -/
def clampHigh (x : K) : WithTop K → K
  | none => x
  | some u => min x u

/-- A point moved into the bounds, nelder_mead_searcher.h:435-440. -/
def State.clamp (s : State d K) (p : Point d K) : Point d K :=
  let p := match s.lower with
    | none => p
    | some l => fun i => clampLow (p i) (l i)
  match s.upper with
  | none => p
  | some u => fun i => clampHigh (p i) (u i)

/-- `EnforceBoundsOnAllPoints`, nelder_mead_searcher.h:429-442. -/
def State.enforce (s : State d K) : State d K := { s with simplex := fun i => s.clamp (s.simplex i) }

/-- The last two lines of `EvaluateObjectiveAtAllPoints`, `ReplaceArgMax` and `ShrinkSimplex`. -/
def State.updateArgs (e : Env d K) (s : State d K) : State d K :=
  { s with argmin := some (e.amin s.values), argmax := e.amax s.values }

/-- One iteration of the loop of `EvaluateObjectiveAtAllPoints`, nelder_mead_searcher.h:413-415. -/
def State.evaluateVertex (f : Point d K → WithTop K) (s : State d K) (i : Fin (d + 1)) : State d K :=
  let r := s.evaluate f (s.simplex i)
  { r.2 with values := Function.update r.2.values i r.1 }

/-- `EvaluateObjectiveAtAllPoints`, nelder_mead_searcher.h:411-418. -/
def State.evaluateAll (e : Env d K) (f : Point d K → WithTop K) (s : State d K) : State d K :=
  ((List.finRange (d + 1)).foldl (State.evaluateVertex f) s).updateArgs e

/-- `ReplaceArgMax`, nelder_mead_searcher.h:420-427. -/
def State.replaceArgMax (e : Env d K) (s : State d K) (p : Point d K) (v : WithTop K) : State d K :=
  State.updateArgs e { s with
    simplex := Function.update s.simplex s.argmax p
    values := Function.update s.values s.argmax v }

/-- `Centroid`, nelder_mead_searcher.h:444-448. -/
def State.centroid (s : State d K) : Point d K :=
  fun i => (∑ j, s.simplex j i - s.simplex s.argmax i) / d

/-- `GetSecondHighest`, nelder_mead_searcher.h:462-471: only the first `dimensions_` vertices; `none` is
minus infinity. -/
def State.secondHighest (s : State d K) : Option (WithTop K) :=
  ((List.finRange (d + 1)).filter fun i => decide (i.val < d ∧ i ≠ s.argmax)).foldl
    (fun acc i => match acc with
      | none => some (s.values i)
      | some a => if s.values i > a then some (s.values i) else some a) none

/-- One iteration of the loop of `ShrinkSimplex`, nelder_mead_searcher.h:475-481. -/
def State.shrinkVertex (f : Point d K → WithTop K) (m : Fin (d + 1)) (s : State d K) (i : Fin (d + 1)) :
    State d K :=
  if i = m then s
  else
    let s : State d K := { s with
      simplex := Function.update s.simplex i fun k => (1 / 2) * (s.simplex i k + s.simplex m k) }
    s.evaluateVertex f i

/-- `ShrinkSimplex`, nelder_mead_searcher.h:473-484, with `argmin_index_ = m`. -/
def State.shrink (e : Env d K) (f : Point d K → WithTop K) (s : State d K) (m : Fin (d + 1)) : State d K :=
  ((List.finRange (d + 1)).foldl (State.shrinkVertex f m) s).updateArgs e

/-- The body of the loop of `MinimizeObjective`, nelder_mead_searcher.h:265-330, with
`argmin_index_ = m`. -/
def State.iteration (e : Env d K) (f : Point d K → WithTop K) (s : State d K) (m : Fin (d + 1)) : State d K :=
  let c := s.centroid
  let refl : Point d K := fun i => (1 + 1) * c i - 1 * s.simplex s.argmax i
  let (rv, s1) := s.evaluate f refl
  if rv < s.values m then
    let exp : Point d K := fun i => 2 * refl i + (1 - 2) * c i
    let (ev, s2) := s1.evaluate f exp
    if ev < rv then s2.replaceArgMax e exp ev else s2.replaceArgMax e refl rv
  else if (match s.secondHighest with | none => false | some h => decide (rv < e.narrow h)) then
    s1.replaceArgMax e refl rv
  else
    let highest := e.narrow (s.values s.argmax)
    if rv < highest then
      let con : Point d K := fun i => c i + 1 / 2 * (refl i - c i)
      let (cv, s2) := s1.evaluate f con
      if cv ≤ rv then s2.replaceArgMax e con cv else s2.shrink e f m
    else
      let con : Point d K := fun i => c i + 1 / 2 * (s.simplex s.argmax i - c i)
      let (cv, s2) := s1.evaluate f con
      if cv < highest then s2.replaceArgMax e con cv else s2.shrink e f m

/-- The values as finite numbers, if they are finite. -/
def finiteValues (v : Fin (d + 1) → WithTop K) : Option (Fin (d + 1) → K) :=
  if ∀ i, v i ≠ ⊤ then some fun i => (v i).untopD 0 else none

/-- `StandardDeviation() > tol`, nelder_mead_searcher.h:348-354 (the square root of the sum of squared
deviations, not divided by their number): `sqrt x > tol` means `tol < 0` or `tol^2 < x`. With an infinite
value the deviation is not a number and the comparison is false. -/
def deviationAbove (v : Fin (d + 1) → WithTop K) (tol : K) : Bool :=
  match finiteValues v with
  | none => false
  | some x =>
    let mean := (∑ i, x i) / (d + 1)
    decide (tol < 0 ∨ tol ^ 2 < ∑ i, (x i - mean) ^ 2)

/-- Condition of the loop, nelder_mead_searcher.h:263-264; an objective goal of minus infinity is
`none`. -/
def State.continues (s : State d K) (m : Fin (d + 1)) (maxEvals : ℤ) (tol : K) (goal : Option K) : Bool :=
  decide ((s.evals : ℤ) < maxEvals) &&
  (match goal with
    | none => true
    | some g => decide (s.values m > (g : WithTop K))) &&
  deviationAbove s.values tol

/-- The loop of `MinimizeObjective`, nelder_mead_searcher.h:263-331; `none`: it has not ended after `fuel`
tests of the condition, or `GetMin` fails its `CHECK`. -/
def State.loop (e : Env d K) (f : Point d K → WithTop K) (maxEvals : ℤ) (tol : K) (goal : Option K) :
    ℕ → State d K → Option (State d K)
  | 0, _ => none
  | fuel + 1, s =>
    match s.argmin with
    | none => none
    | some m =>
      if s.continues m maxEvals tol goal then State.loop e f maxEvals tol goal fuel (s.iteration e f m)
      else some s

/-- `MinimizeObjective`, nelder_mead_searcher.h:241-332; `none`: no objective function is set (`CHECK`), or
the loop does not end after `fuel` tests. The list of evaluated points starts empty like the counter. -/
def State.minimize (e : Env d K) (s : State d K) (maxEvals : ℤ) (tol : K) (goal : Option K) (fuel : ℕ) :
    Option (State d K) :=
  match s.objective with
  | none => none
  | some f =>
    State.loop e f maxEvals tol goal fuel
      (({ s with evals := 0, trace := [] } : State d K).enforce.evaluateAll e f)

/-- `GetMin`, nelder_mead_searcher.h:341-346. -/
def State.getMin (s : State d K) : Option (WithTop K) := s.argmin.map s.values

/-- `GetArgMin`, nelder_mead_searcher.h:334-339. -/
def State.getArgMin (s : State d K) : Option (Point d K) := s.argmin.map s.simplex

/-- The states of a searcher: any history of successful calls. -/
inductive Reach (e : Env d K) : State d K → Prop
  | init (x v a) : Reach e (State.init x v a)
  | setGuess {s s'} (g o) : Reach e s → s.setGuess g o = some s' → Reach e s'
  | setSimplex {s} (x) : Reach e s → Reach e (s.setSimplex x)
  | setObjective {s} (f) : Reach e s → Reach e (s.setObjective f)
  | setLower {s s'} (l) : Reach e s → s.setLower l = some s' → Reach e s'
  | setUpper {s s'} (u) : Reach e s → s.setUpper u = some s' → Reach e s'
  | clearBounds {s} : Reach e s → Reach e s.clearBounds
  | minimize {s s'} (n t g k) : Reach e s → s.minimize e n t g k = some s' → Reach e s'

end Verif.NelderMead
