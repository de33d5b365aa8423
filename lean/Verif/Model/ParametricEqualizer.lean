import Verif.Model.FilterDesign
import Verif.Model.Decibels
import Verif.Model.NelderMead
import Mathlib.LinearAlgebra.Matrix.NonsingularInverse

/-!
# Model of the parametric equalizer (audio/linear_filters/parametric_equalizer.{h,cc})

Numbers are real (rounding to `float` is not modelled). `LOG` and `ToString` are not modelled.
-/

namespace Verif.ParametricEqualizer
open Verif.BiquadCascade Verif.FilterDesign Verif.NelderMead

/-- `EqualizerFilterParams::Type`, equalizer_filter_params.h:31-37. -/
inductive Kind
  | lowpass | lowShelf | peak | highShelf | highpass
deriving DecidableEq

/-- `EqualizerFilterParams`, equalizer_filter_params.h:30-87. -/
structure Band where
  kind : Kind
  frequency : ℝ
  quality : ℝ
  gain : ℝ

/-- Data of `ParametricEqualizerParams`, parametric_equalizer.h:92-96. -/
structure Params where
  gain : ℝ
  stages : List Band
  enabled : List Bool

/-- How a call can fail: a `CHECK` that aborts; undefined behaviour (an index outside a vector); a value that is
not a finite number (the logarithm of zero, `0 / 0`), after which nothing is modelled. -/
inductive Failure
  | check | undefined | notFinite

/-- `ParametricEqualizerParams()`, parametric_equalizer.h:53-54. -/
def Params.new : Params := ⟨0, [], []⟩

/-- `AddStage`, parametric_equalizer.cc:221-224 and 226-231. -/
def Params.addStage (p : Params) (s : Band) : Params :=
  { p with
    stages := p.stages ++ [s]
    enabled := p.enabled ++ [true] }

/-- `SetStageEnabled`, parametric_equalizer.cc:206-209; an index out of range is undefined. -/
def Params.setEnabled (p : Params) (i : ℕ) (on : Bool) : Except Failure Params :=
  if i < p.enabled.length then .ok { p with enabled := p.enabled.set i on } else .error .undefined

/-- An assignment through `MutableStageParams`, parametric_equalizer.cc:215-219. -/
def Params.setStage (p : Params) (i : ℕ) (s : Band) : Except Failure Params :=
  if i < p.stages.length then .ok { p with stages := p.stages.set i s } else .error .undefined

/-- `SetGainDb`, parametric_equalizer.cc:200. -/
def Params.setGain (p : Params) (g : ℝ) : Params := { p with gain := g }

/-- `GetTotalNumStages`, parametric_equalizer.cc:251-253. -/
def Params.total (p : Params) : ℕ := p.stages.length

/-- `GetNumEnabledStages`, parametric_equalizer.cc:244-250. -/
def Params.numEnabled (p : Params) : ℕ := p.enabled.foldl (fun n on => n + if on = true then 1 else 0) 0

/-- `ClearAllGains`, parametric_equalizer.cc:233-242: the loop, on both vectors at once. -/
def clearLoop : List Band → List Bool → List Band × List Bool
  | s :: ss, on :: os =>
    let r := clearLoop ss os
    ({ s with gain := 0 } :: r.1,
      (if s.kind = Kind.lowpass ∨ s.kind = Kind.highpass then false else on) :: r.2)
  | ss, os => (ss, os)

/-- `ClearAllGains`, parametric_equalizer.cc:233-242. -/
def Params.clearAllGains (p : Params) : Params :=
  ⟨0, (clearLoop p.stages p.enabled).1, (clearLoop p.stages p.enabled).2⟩

/-- `DbToLinear`, parametric_equalizer.cc:155-157. -/
noncomputable def dbToLinear (g : ℝ) : ℝ := (10 : ℝ) ^ (g / 20)

/-- The designs of the `switch`, parametric_equalizer.cc:163-189; `none`: a `CHECK` of the design fails. -/
noncomputable def design (rate : ℝ) (s : Band) : Option (Stage ℝ) :=
  match s.kind with
  | .lowpass => lowpass rate s.frequency s.quality
  | .lowShelf => lowShelf rate s.frequency s.quality (dbToLinear s.gain)
  | .peak => parametricPeakSymmetric rate s.frequency s.quality (dbToLinear s.gain)
  | .highShelf => highShelf rate s.frequency s.quality (dbToLinear s.gain)
  | .highpass => highpass rate s.frequency s.quality

/-- `BiquadFilterCoefficients()`, biquad_filter_coefficients.h:61-62. -/
def identityStage : Stage ℝ := ⟨[1, 0, 0], [1, 0, 0]⟩

/-- The threshold of `Simplify`, biquad_filter_coefficients.cc:31-37. -/
noncomputable def threshold : ℝ := 1 / 10 ^ 10

/-- What one iteration of the loop appends, parametric_equalizer.cc:161-192. -/
noncomputable def stageFor (rate : ℝ) (s : Band) (on : Bool) : Except Failure (Stage ℝ) :=
  if on = true then
    match design rate s with
    | none => .error .check
    | some c => .ok c
  else .ok identityStage

/-- The loop of `GetCoefficients`, parametric_equalizer.cc:160-193. -/
noncomputable def coefficientLoop (rate : ℝ) : List Band → List Bool → List (Stage ℝ) →
    Except Failure (List (Stage ℝ))
  | s :: ss, on :: os, cs =>
    match stageFor rate s on with
    | .error e => .error e
    | .ok c =>
      match appendBiquad threshold cs c with
      | none => .error .undefined
      | some cs' => coefficientLoop rate ss os cs'
  | _, _, cs => .ok cs

open Classical in
/-- `GetCoefficients`, parametric_equalizer.cc:151-197; `AdjustGain` of an empty cascade is an access outside the
vector (biquad_filter_coefficients.h:268-270). -/
noncomputable def getCoefficients (p : Params) (rate : ℝ) : Except Failure (List (Stage ℝ)) :=
  if 0 < rate then
    match coefficientLoop rate p.stages p.enabled [] with
    | .error e => .error e
    | .ok [] => .error .undefined
    | .ok (c :: cs) => .ok (adjustGain (dbToLinear p.gain) (c :: cs))
  else .error .check

/-- The body of the loop of `ParametricEqualizerGainMagnitudeAtFrequencies`, parametric_equalizer.cc:364-371. -/
noncomputable def combinedGain (cs : List (Stage ℝ)) (rate f : ℝ) : ℝ :=
  cs.foldl (fun g c => g * ‖response c (2 * Real.pi * f / rate)‖) 1

/-- `ParametricEqualizerGainMagnitudeAtFrequencies`, parametric_equalizer.cc:355-373. -/
noncomputable def gainMagnitudes (p : Params) (rate : ℝ) (fs : List ℝ) : Except Failure (List ℝ) :=
  match getCoefficients p rate with
  | .error e => .error e
  | .ok cs => .ok (fs.map fun f => combinedGain cs rate f)

/-! ## Fit of the gains -/

/-- `SetGainsFromArray`, parametric_equalizer.cc:51-61. -/
noncomputable def setGainsFromArray {n : ℕ} (gains : Fin n → ℝ) (p : Params) : Except Failure Params :=
  if n = p.total + 1 then
    .ok { p with
      stages := List.zipWith (fun s g => { s with gain := g }) p.stages (List.ofFn gains)
      gain := (List.ofFn gains).getD (n - 1) 0 }
  else .error .check

open Classical in
/-- One element of `stage_magnitudes_db`, parametric_equalizer.cc:314-316. -/
noncomputable def stageDb (cs : List (Stage ℝ)) (rate : ℝ) (k : ℕ) (f : ℝ) : Except Failure ℝ :=
  match cs[k]? with
  | none => .error .undefined
  | some c =>
    let m := ‖response c (2 * Real.pi * f / rate)‖
    if m = 0 then .error .notFinite else .ok (Decibels.amplitudeToDbScalar m)

/-- One column of `stage_magnitudes_db`, parametric_equalizer.cc:313-317. -/
noncomputable def column (cs : List (Stage ℝ)) (rate : ℝ) (fs : List ℝ) (k : ℕ) : Except Failure (List ℝ) :=
  fs.mapM (stageDb cs rate k)

/-- All columns but the last, parametric_equalizer.cc:312-318. -/
noncomputable def columns (cs : List (Stage ℝ)) (rate : ℝ) (fs : List ℝ) (n : ℕ) : Except Failure (List (List ℝ)) :=
  (List.range n).mapM (column cs rate fs)

/-- `stage_magnitudes_db` with its last column, parametric_equalizer.cc:319-320. -/
def magnitudeMatrix {n : ℕ} (cols : List (List ℝ)) (gains : Fin (n + 1) → ℝ) (m : ℕ) :
    Matrix (Fin m) (Fin (n + 1)) ℝ :=
  fun i k => if k.val < n then (cols.getD k.val []).getD i.val 0 else gains (Fin.last n)

/-- The Gramian with its diagonal term and the solution of the system, parametric_equalizer.cc:327-332. The matrix
is positive definite, so that `ldlt().solve` returns the product with the inverse. -/
noncomputable def solve {m n : ℕ} (A : Matrix (Fin m) (Fin n) ℝ) (t : Fin m → ℝ) : Fin n → ℝ :=
  (A.transpose * A + (1 / 10 ^ 4 : ℝ) • (1 : Matrix (Fin n) (Fin n) ℝ))⁻¹.mulVec (A.transpose.mulVec t)

open Classical in
/-- The loop of `SetParametricEqualizerGainsToMatchMagnitudeResponse`, parametric_equalizer.cc:304-343, with the
number of iterations left. `maxCoeff() < x` is written as: every element is less than `x` (there is at least
one). -/
noncomputable def matchLoop {n : ℕ} (fs target : List ℝ) (rate threshold : ℝ) :
    ℕ → (Fin (n + 1) → ℝ) → Params → Except Failure Params
  | 0, _, p => .ok p
  | left + 1, gains, p =>
    match getCoefficients (p.setGain 0) rate with
    | .error e => .error e
    | .ok cs =>
      match columns cs rate fs n with
      | .error e => .error e
      | .ok cols =>
        let w := solve (magnitudeMatrix cols gains fs.length) fun i => target.getD i.val 0
        let gains' : Fin (n + 1) → ℝ := fun k => w k * gains k
        match setGainsFromArray gains' (p.setGain 0) with
        | .error e => .error e
        | .ok p' =>
          if ∀ k, |gains' k - gains k| < threshold then .ok p'
          else matchLoop fs target rate threshold left gains' p'

/-- `SetParametricEqualizerGainsToMatchMagnitudeResponse`, parametric_equalizer.cc:270-344, for
`ConvergenceParams` with `max_iterations = iterations` (a negative number is like 0) and
`convergence_threshold_db = threshold`. -/
noncomputable def matchGains (fs target : List ℝ) (iterations : ℕ) (threshold rate : ℝ) (p : Params) :
    Except Failure Params :=
  if fs.length = target.length then
    match setGainsFromArray (n := p.numEnabled + 1) (fun _ => 6) p with
    | .error e => .error e
    | .ok p' => matchLoop (n := p.numEnabled) fs target rate threshold iterations (fun _ => 6) p'
  else .error .check

/-- The variant with the default `ConvergenceParams`, parametric_equalizer.cc:346-353, .h:101-102. -/
noncomputable def matchGainsDefault (fs target : List ℝ) (rate : ℝ) (p : Params) : Except Failure Params :=
  matchGains fs target 2 (1 / 5) rate p

/-! ## Fit of all parameters -/

/-- `NelderMeadFitParams`, parametric_equalizer.h:113-146. -/
structure FitParams where
  minFrequency : ℝ
  maxFrequency : ℝ
  minQuality : ℝ
  maxQuality : ℝ
  maxIterations : ℤ
  rmsTol : ℝ
  stddevTol : ℝ
  innerIterations : ℕ
  innerThreshold : ℝ

/-- Its default values, parametric_equalizer.h:114-125. -/
noncomputable def FitParams.default : FitParams := ⟨1, 24000, 1 / 10, 5, 1500, 1 / 10, 0, 3, 0⟩

/-- `SetFrequenciesAndQualityFactorsFromArray`, parametric_equalizer.cc:86-95 (with 63-84). -/
noncomputable def setShape (p : Params) (x : Point (2 * p.total) ℝ) : Params :=
  { p with
    stages := List.ofFn fun i : Fin p.total =>
      { p.stages[i.val]'i.2 with
        frequency := Real.exp (x ⟨i.val, by omega⟩)
        quality := x ⟨p.total + i.val, by omega⟩ } }

open Classical in
/-- Decibels of every element, `AmplitudeRatioToDecibels`, parametric_equalizer.cc:435-438; the logarithm of zero
is not finite. -/
noncomputable def allDb (gs : List ℝ) : Except Failure (List ℝ) :=
  if ∃ g ∈ gs, g = 0 then .error .notFinite else .ok (gs.map Decibels.amplitudeToDbScalar)

/-- Steps 3 and 4 of the objective, parametric_equalizer.cc:434-446. -/
noncomputable def rmsError (fs target : List ℝ) (rate : ℝ) (p : Params) : Except Failure ℝ :=
  match gainMagnitudes p rate fs with
  | .error e => .error e
  | .ok gs =>
    match allDb gs with
    | .error e => .error e
    | .ok db =>
      if fs.length = 0 then .error .notFinite
      else .ok (√((List.zipWith (fun d t => (d - t) ^ 2) db target).sum / fs.length))

/-- `magnitude_db_rms_error`, parametric_equalizer.cc:423-447: the value returned and the parameters it leaves. -/
noncomputable def objective (fs target : List ℝ) (rate : ℝ) (fit : FitParams) (p : Params)
    (x : Point (2 * p.total) ℝ) : Except Failure (ℝ × Params) :=
  match matchGains fs target fit.innerIterations fit.innerThreshold rate (setShape p x) with
  | .error e => .error e
  | .ok p' =>
    match rmsError fs target rate p' with
    | .error e => .error e
    | .ok r => .ok (r, p')

/-- The value of the objective that the searcher sees. After an evaluation that fails the value does not matter:
`fit` below fails. -/
noncomputable def objectiveValue (fs target : List ℝ) (rate : ℝ) (fit : FitParams) (p : Params)
    (x : Point (2 * p.total) ℝ) : WithTop ℝ :=
  match objective fs target rate fit p x with
  | .error _ => ⊤
  | .ok r => (r.1 : WithTop ℝ)

/-- `GetLogFrequenciesAndQualityFactors`, parametric_equalizer.cc:136-147 (with 100-133). -/
noncomputable def shapeOf (p : Params) : Point (2 * p.total) ℝ := fun i =>
  if h : i.val < p.total then Real.log (p.stages[i.val]'h).frequency
  else (p.stages[i.val - p.total]'(by have := i.2; unfold Params.total at *; omega)).quality

/-- Bounds of the search, parametric_equalizer.cc:405-409 and 411-414. -/
noncomputable def boundOf (p : Params) (frequency quality : ℝ) : Point (2 * p.total) ℝ := fun i =>
  if i.val < p.total then Real.log frequency else quality

/-- The searcher before `MinimizeObjective`, parametric_equalizer.cc:386-415 and 448; `x`, `v`, `a` are the
uninitialised members. -/
noncomputable def searcher (fs target : List ℝ) (rate : ℝ) (fit : FitParams) (p : Params)
    (x : Fin (2 * p.total + 1) → Point (2 * p.total) ℝ) (v : Fin (2 * p.total + 1) → WithTop ℝ)
    (a : Fin (2 * p.total + 1)) : Option (State (2 * p.total) ℝ) := do
  let s ← (State.init x v a).setGuess (shapeOf p) (1 / 10)
  let s ← s.setLower fun i => ((boundOf p fit.minFrequency fit.minQuality i : ℝ) : WithBot ℝ)
  let s ← s.setUpper fun i => ((boundOf p fit.maxFrequency fit.maxQuality i : ℝ) : WithTop ℝ)
  return s.setObjective (objectiveValue fs target rate fit p)

/-- The first failure among the evaluations, in their order (`trace` has the latest first). -/
noncomputable def firstFailure (fs target : List ℝ) (rate : ℝ) (fit : FitParams) (p : Params) :
    List (Point (2 * p.total) ℝ) → Option Failure
  | [] => none
  | x :: earlier =>
    match firstFailure fs target rate fit p earlier with
    | some e => some e
    | none =>
      match objective fs target rate fit p x with
      | .error e => some e
      | .ok _ => none

open Classical in
/-- `FitParametricEqualizer`, parametric_equalizer.cc:375-457. The checks come before the search (their order does
not matter: all abort). The logarithm of a frequency that is not positive is not finite. The objective function
is called on the parameters that the previous call left; `C82_no_memory` shows that its result does not
depend on them, so the model calls it on `p`. -/
noncomputable def fit (p : Params) (e : Env (2 * p.total) ℝ) (fs target : List ℝ) (rate : ℝ) (f : FitParams)
    (x : Fin (2 * p.total + 1) → Point (2 * p.total) ℝ) (v : Fin (2 * p.total + 1) → WithTop ℝ)
    (a : Fin (2 * p.total + 1)) : Except Failure (ℝ × Params) :=
  if p.total = 0 then .error .check
  else if ∃ s ∈ p.stages, s.frequency ≤ 0 then .error .notFinite
  else if 0 < f.minFrequency ∧ 0 < f.maxFrequency ∧ f.minFrequency < f.maxFrequency then
    match searcher fs target rate f p x v a with
    | none => .error .check
    | some s =>
      match s.minimize e f.maxIterations f.stddevTol (some f.rmsTol) (f.maxIterations.toNat + 1) with
      | none => .error .check
      | some t =>
        match firstFailure fs target rate f p t.trace with
        | some e => .error e
        | none =>
          match t.getArgMin with
          | none => .error .check
          | some y => objective fs target rate f p y
  else .error .check

end Verif.ParametricEqualizer
