import Mathlib.Algebra.Order.Field.Basic
import Mathlib.Data.List.Basic
import Verif.Model.Biquad

/-!
# Model of the cascade coefficient algebra

`audio/linear_filters/biquad_filter_coefficients.{h,cc}`. Coefficients are elements of a linearly
ordered field (rounding and NaN are not modelled). `none` stands for undefined behaviour (reading
`result[-1]` in `Convolve`).
-/

namespace Verif.BiquadCascade

variable {K : Type} [Field K] [LinearOrder K]

/-- One stage: the vectors `b` and `a` of `BiquadFilterCoefficients`
(biquad_filter_coefficients.h:151-152). -/
structure Stage (K : Type) where
  b : List K
  a : List K
deriving DecidableEq, Repr

/-- The six coefficients of a stage, as `BiquadFilter::Init` reads them, biquad_filter-inl.h:25-42. -/
def Stage.coeffs (s : Stage K) : Biquad.Coeffs K :=
  ⟨s.b.getD 0 0, s.b.getD 1 0, s.b.getD 2 0, s.a.getD 0 0, s.a.getD 1 0, s.a.getD 2 0⟩

/-- The double loop of `Convolve`, biquad_filter_coefficients.cc:87-92. -/
def convolveRaw (x y : List K) : List K :=
  (List.range x.length).foldl (fun r i =>
    (List.range y.length).foldl (fun r j =>
      r.set (i + j) (r.getD (i + j) 0 + x.getD i 0 * y.getD j 0)) r)
    (List.replicate (x.length + y.length - 1) 0)

/-- The loop `while (abs(result[order - 1]) == 0) --order;`, biquad_filter_coefficients.cc:95-98.
At `order = 0` it reads `result[-1]`: undefined behaviour. -/
def trimOrder (r : List K) : ℕ → Option ℕ
  | 0 => none
  | n + 1 => if |r.getD n 0| = 0 then trimOrder r n else some (n + 1)

/-- `Convolve`, biquad_filter_coefficients.cc:85-101. -/
def convolve (x y : List K) : Option (List K) :=
  let r := convolveRaw x y
  (trimOrder r r.length).map (fun order => r.take order)

/-- One of the two loops of `AsPolynomialRatio`, biquad_filter_coefficients.cc:440-443, 444-447. -/
def multiplyOut (polys : List (List K)) : Option (List K) :=
  polys.foldlM (fun acc p => convolve p acc) [1]

/-- `AsPolynomialRatio`, biquad_filter_coefficients.cc:438-448. -/
def asPolynomialRatio (cs : List (Stage K)) : Option (List K × List K) := do
  let b ← multiplyOut (cs.map (·.b))
  let a ← multiplyOut (cs.map (·.a))
  return (b, a)

/-- `IsFirstOrder`, biquad_filter_coefficients.cc:31-33. The threshold `1e-10` is the parameter
`ε`. -/
def isFirstOrder (ε : K) (p : List K) : Bool := |p.getD 2 0| ≤ ε ∧ ε < |p.getD 1 0|

/-- `IsZeroOrder`, biquad_filter_coefficients.cc:35-37. -/
def isZeroOrder (ε : K) (p : List K) : Bool := |p.getD 1 0| ≤ ε ∧ |p.getD 2 0| ≤ ε

/-- `FindPairOfFirstOrderBiquads`, biquad_filter_coefficients.cc:62-82, on the list of numerators or
denominators. -/
def findPair (ε : K) (polys : List (List K)) : Option (ℕ × ℕ) :=
  match polys.findIdx? (isFirstOrder ε) with
  | none => none
  | some i =>
    match (polys.drop (i + 1)).findIdx? (isFirstOrder ε) with
    | none => none
    | some j => some (i, i + 1 + j)

/-- `v.resize(3)`. -/
def resize3 (p : List K) : List K := [p.getD 0 0, p.getD 1 0, p.getD 2 0]

/-- The loops biquad_filter_coefficients.cc:411-416 (numerators) and 417-422 (denominators), which
only touch the numerators or only the denominators. The first argument bounds the number of
iterations; `mergeFirstOrder_done` shows that the number of stages is enough. -/
def mergeFirstOrder (ε : K) : ℕ → List (List K) → Option (List (List K))
  | 0, polys => some polys
  | n + 1, polys =>
    match findPair ε polys with
    | none => some polys
    | some (i, j) => do
      let c ← convolve (polys.getD i []) (polys.getD j [])
      mergeFirstOrder ε n ((polys.set i (resize3 c)).set j [1, 0, 0])

/-- `BiquadFilterCascadeCoefficients::AdjustGain`, biquad_filter_coefficients.h:268-270. -/
def adjustGain (g : K) : List (Stage K) → List (Stage K)
  | [] => []
  | s :: rest => { s with b := s.b.map (· * g) } :: rest

/-- `FindZeroOrderPoly`, biquad_filter_coefficients.cc:40-59: the indices `a_index`, `b_index`. -/
def findZeroOrder (ε : K) (cs : List (Stage K)) : Option (ℕ × ℕ) :=
  match cs.findIdx? (fun s => isZeroOrder ε s.a) with
  | none => none
  | some ia =>
    match cs.findIdx? (fun s => isZeroOrder ε s.b) with
    | none => none
    | some ib => some (ia, ib)

/-- Body of the loop biquad_filter_coefficients.cc:426-435. -/
def dropZeroOrder (cs : List (Stage K)) (ia ib : ℕ) : List (Stage K) :=
  let sa := cs.getD ia ⟨[], []⟩
  let sb := cs.getD ib ⟨[], []⟩
  let gain := sb.b.getD 0 0 / sa.a.getD 0 0
  let cs1 := if ia ≠ ib then cs.set ib { sb with b := sa.b } else cs
  let cs2 := cs1.eraseIdx ia
  if gain ≠ 1 then adjustGain gain cs2 else cs2

/-- The loop biquad_filter_coefficients.cc:426-435; the first argument bounds the number of
iterations (each one erases a stage). -/
def mergeZeroOrder (ε : K) : ℕ → List (Stage K) → List (Stage K)
  | 0, cs => cs
  | n + 1, cs =>
    if cs.length > 1 then
      match findZeroOrder ε cs with
      | none => cs
      | some (ia, ib) => mergeZeroOrder ε n (dropZeroOrder cs ia ib)
    else cs

/-- `Simplify`, biquad_filter_coefficients.cc:407-436, with threshold `ε` (`1e-10` in the code). -/
def simplify (ε : K) (cs : List (Stage K)) : Option (List (Stage K)) := do
  let bs ← mergeFirstOrder ε cs.length (cs.map (·.b))
  let as ← mergeFirstOrder ε cs.length (cs.map (·.a))
  return mergeZeroOrder ε cs.length (List.zipWith Stage.mk bs as)

/-- `AppendBiquad`, biquad_filter_coefficients.h:180-183. -/
def appendBiquad (ε : K) (cs : List (Stage K)) (s : Stage K) : Option (List (Stage K)) :=
  simplify ε (cs ++ [s])

/-- `BiquadFilterCoefficients::EvalTransferFunction`, biquad_filter_coefficients.h:92-95, at a point
`z` of a field `L` into which the coefficients are embedded by `φ` (in the code: real coefficients,
complex points). -/
def evalStage {L : Type} [Field L] (φ : K →+* L) (s : Stage K) (z : L) : L :=
  ((φ (s.b.getD 0 0) * z + φ (s.b.getD 1 0)) * z + φ (s.b.getD 2 0)) /
    ((φ (s.a.getD 0 0) * z + φ (s.a.getD 1 0)) * z + φ (s.a.getD 2 0))

/-- `BiquadFilterCascadeCoefficients::EvalTransferFunction`, biquad_filter_coefficients.cc:451-458. -/
def evalCascade {L : Type} [Field L] (φ : K →+* L) (cs : List (Stage K)) (z : L) : L :=
  cs.foldl (fun t s => t * evalStage φ s z) 1

end Verif.BiquadCascade
