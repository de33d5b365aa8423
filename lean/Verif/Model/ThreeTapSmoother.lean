import Mathlib.Algebra.Order.Field.Basic

/-!
# Model of audio/dsp/signal_eigen_util.h

Arrays are lists over a field; rounding is not modelled.
-/

namespace Verif.ThreeTap

/-- `SmootherBoundaryBehavior`, signal_eigen_util.h:87-91. -/
inductive Boundary
  | circular
  | reflect
  | zeroPad
deriving DecidableEq

variable {K : Type} [Field K] [LinearOrder K]

/-- The constructor, signal_eigen_util.h:45-51; `none` is the failed `CHECK`. -/
def make (numPoints : ℤ) : Option ℤ := if numPoints > 1 then some numPoints else none

/-- `HandleEndpoints`, signal_eigen_util.h:110-127: the first and the last element of `temp_`. -/
def endpoints (b : Boundary) (x : List K) : K × K :=
  let n := x.length
  match b with
  | .circular => (x.getD (n - 1) 0 + x.getD 1 0, x.getD (n - 2) 0 + x.getD 0 0)
  | .reflect => (x.getD 1 0 + x.getD 1 0, x.getD (n - 2) 0 + x.getD (n - 2) 0)
  | .zeroPad => (x.getD 1 0, x.getD (n - 2) 0)

/-- The double `1 / 3.0`. -/
def oneThird : K := 6004799503160661 / 2 ^ 54

/-- `SmoothInternal`, signal_eigen_util.h:93-108. `none` is a failed `CHECK`. Every element of `temp_` is
overwritten, so its previous content is not modelled. `numPoints` is what the constructor stored. -/
def smooth (numPoints : ℤ) (b : Boundary) (s : K) (x : List K) : Option (List K) :=
  if ¬ (x.length : ℤ) = numPoints then none
  else if ¬ s > 0 then none
  else if ¬ s ≤ oneThird then none
  else
    let interior := List.zipWith (· + ·) (x.take (x.length - 2)) ((x.drop 2).take (x.length - 2))
    let e := endpoints b x
    let temp := e.1 :: (interior ++ [e.2])
    some (List.zipWith (fun v t => v + s * (t - 2 * v)) x temp)

end Verif.ThreeTap
