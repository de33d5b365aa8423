import Verif.Model.Biquad
import Mathlib.Analysis.SpecialFunctions.Sqrt
import Mathlib.Algebra.BigOperators.Intervals

/-!
# Model of the ladder filter

`audio/linear_filters/ladder_filter.h`, `ladder_filter-inl.h` and
`MakeLadderCoefficientsFromTransferFunction` of `biquad_filter_coefficients.cc`.

Numbers are real (rounding, overflow and NaN are not modelled). Arrays are functions `ℕ → ℝ`
together with the filter order `M`: coefficient arrays `k`, `c` use the indices `0..M-1`, tap gains
`v` and the state `0..M`; entries beyond are never read. One channel is modelled: the channels run
the same loop on their own row of the state with shared coefficients.
-/

namespace Verif.Ladder
open Finset

/-- Assignment to one array element. -/
def put (f : ℕ → ℝ) (i : ℕ) (x : ℝ) : ℕ → ℝ := fun j => if j = i then x else f j

/-! ## From a transfer function to ladder coefficients -/

/-- The loop biquad_filter_coefficients.cc:141-164 for the remaining values `m, m-1, …, 1`; `A` and
`P` are the arrays being updated in place, `k` and `v` the results. -/
noncomputable def makeLoop : ℕ → (A P k v : ℕ → ℝ) → (ℕ → ℝ) × (ℕ → ℝ)
  | 0, _, P, k, v => (k, put v 0 (P 0))
  | m + 1, A, P, k, v =>
    let zB := fun j => A (m + 1 - j)
    let km := A (m + 1)
    let inv := 1 / (1 - km * km)
    let vm := P (m + 1)
    let A' := fun j => if j < m + 1 then (A j - km * zB j) * inv else A j
    let P' := fun j => if j < m + 1 then P j - zB j * vm else P j
    makeLoop m A' P' (put k m km) (put v (m + 1) vm)

/-- `MakeLadderCoefficientsFromTransferFunction`, biquad_filter_coefficients.cc:107-165:
`(order, k, v)`; `none` is a failed CHECK. The `resize` calls pad with zeros. -/
noncomputable def makeLadder (b a : List ℝ) : Option (ℕ × (ℕ → ℝ) × (ℕ → ℝ)) :=
  open Classical in
  if b = [] ∨ a = [] ∨ a.getD 0 0 = 0 then none
  else
    let M := max b.length a.length - 1
    let A := fun j => a.getD j 0 / a.getD 0 0
    let P := fun j => b.getD j 0 / a.getD 0 0
    let r := makeLoop M A P (fun _ => 0) (fun _ => 0)
    some (M, r.1, r.2)

/-- `BiquadFilterCoefficients::IsStable`, biquad_filter_coefficients.cc:167-177. -/
noncomputable def isStable (b a : List ℝ) : Option Prop :=
  (makeLadder b a).map (fun r => ∀ i, i < r.1 → ¬ |r.2.1 i| ≥ 1)

/-! ## Coefficient preparation -/

/-- Body of `ForceStability`, ladder_filter-inl.h:41-51, for one element; `η` is
`10 * numeric_limits<Scalar>::epsilon()`. -/
noncomputable def force (η x : ℝ) : ℝ :=
  open Classical in
  if |x| < 1 then x else if x > 0 then 1 - η else -1 + η

/-- `GetScatteringCoefficients`, ladder_filter-inl.h:92-100. -/
noncomputable def scattering (η : ℝ) (k : ℕ → ℝ) : ℕ → ℝ :=
  fun m => force η (Real.sqrt (1 - k m * k m))

/-- `ConvertTapGains`, ladder_filter-inl.h:75-89: the loop for the remaining values `m, …, 0`. -/
noncomputable def convertTapGains (k : ℕ → ℝ) : ℕ → ℝ → (ℕ → ℝ) → (ℕ → ℝ)
  | 0, pi, v => put v 0 (v 0 / pi)
  | m + 1, pi, v =>
    convertTapGains k m (pi * Real.sqrt (1 - k m * k m)) (put v (m + 1) (v (m + 1) / pi))

/-! ## Processing -/

/-- The stage loop ladder_filter-inl.h:263-269 for `i = m-1, …, 0`, then `state[0] = stage_input`. -/
def stageLoop (k c : ℕ → ℝ) : ℕ → (ℕ → ℝ) → ℝ → (ℕ → ℝ)
  | 0, st, inp => put st 0 inp
  | i + 1, st, inp =>
    stageLoop k c i (put st (i + 1) (k i * inp + c i * st i)) (c i * inp - k i * st i)

/-- Output taps, ladder_filter-inl.h:310-311. -/
def taps (M : ℕ) (v st : ℕ → ℝ) : ℝ := ∑ m ∈ range (M + 1), st m * v m

/-- `ProcessSample` with fixed coefficients, ladder_filter-inl.h:262-269, 310-311. -/
def step (M : ℕ) (k c v : ℕ → ℝ) (st : ℕ → ℝ) (x : ℝ) : (ℕ → ℝ) × ℝ :=
  let st' := stageLoop k c M st x
  (st', taps M v st')

/-! ## The filter object -/

/-- Members of `LadderFilter` after initialisation. `kS`, `vS` are the states of
`reflection_smoother_` and `tap_gains_smoother_` (one biquad per array element). -/
structure Filter where
  order : ℕ
  k : ℕ → ℝ
  c : ℕ → ℝ
  v : ℕ → ℝ
  kTarget : ℕ → ℝ
  vTarget : ℕ → ℝ
  kS : ℕ → ℝ × ℝ
  vS : ℕ → ℝ × ℝ
  smoothing : ℕ
  state : ℕ → ℝ

/-- Constants of the object: `eta = 10 epsilon`, the smoother's coefficients and
`smoothing_samples_max_` (ladder_filter-inl.h:156-164). -/
structure Config where
  eta : ℝ
  smoother : Biquad.Filter ℝ
  maxSamples : ℕ

/-- `Reset`, ladder_filter-inl.h:192-201. -/
noncomputable def reset (cfg : Config) (f : Filter) : Filter :=
  { f with
    state := fun _ => 0
    kS := fun i => Biquad.steadyState cfg.smoother (f.kTarget i)
    vS := fun i => Biquad.steadyState cfg.smoother (f.vTarget i)
    smoothing := 0 }

/-- `InitFromLadderCoeffs` on a fresh object, ladder_filter-inl.h:105-119, 137-165; `none` is the
failed `CHECK(!coeffs_k.empty())` (`CHECK_EQ(coeffs_v.size(), coeffs_k.size() + 1)` holds because
both arrays share `M`). -/
noncomputable def init (cfg : Config) (M : ℕ) (k v : ℕ → ℝ) : Option Filter :=
  if M = 0 then none
  else
    let kf := fun i => force cfg.eta (k i)
    let vf := convertTapGains kf M 1 v
    some (reset cfg
      { order := M, k := kf, c := scattering cfg.eta kf, v := vf, kTarget := kf, vTarget := vf,
        kS := fun _ => (0, 0), vS := fun _ => (0, 0), smoothing := 0, state := fun _ => 0 })

/-- `InitFromTransferFunction`, ladder_filter-inl.h:169-178. -/
noncomputable def initFromTransferFunction (cfg : Config) (b a : List ℝ) : Option Filter := do
  let (M, k, v) ← makeLadder b a
  init cfg M k v

/-- `ChangeLadderCoeffs` on an initialised filter, ladder_filter-inl.h:127-135. -/
noncomputable def change (cfg : Config) (f : Filter) (k v : ℕ → ℝ) : Filter :=
  let kf := fun i => force cfg.eta (k i)
  { f with kTarget := kf, vTarget := convertTapGains kf f.order 1 v, smoothing := cfg.maxSamples }

/-- The smoothing part of `ProcessSample`, ladder_filter-inl.h:224-243. -/
noncomputable def smooth (cfg : Config) (f : Filter) : Filter :=
  if f.smoothing > 0 then
    let n := f.smoothing - 1
    let f1 :=
      if n > 0 then
        { f with
          smoothing := n
          kS := fun i => (Biquad.step cfg.smoother (f.kS i) (f.kTarget i)).1
          k := fun i => force cfg.eta (Biquad.step cfg.smoother (f.kS i) (f.kTarget i)).2
          vS := fun i => (Biquad.step cfg.smoother (f.vS i) (f.vTarget i)).1
          v := fun i => (Biquad.step cfg.smoother (f.vS i) (f.vTarget i)).2 }
      else
        -- the code assigns the target from the current gains, not the other way round
        { f with smoothing := n, k := f.kTarget, vTarget := f.v }
    { f1 with c := scattering cfg.eta f1.k }
  else f

/-- `ProcessSample`, ladder_filter-inl.h:205-312. -/
noncomputable def processSample (cfg : Config) (f : Filter) (x : ℝ) : Filter × ℝ :=
  let f1 := smooth cfg f
  let r := step f1.order f1.k f1.c f1.v f1.state x
  ({ f1 with state := r.1 }, r.2)

/-- A client's calls after initialisation. -/
inductive Op
  | sample (x : ℝ)
  | changeCoeffs (k v : ℕ → ℝ)
  | reset

/-- Effect of a call; samples produce an output. -/
noncomputable def apply (cfg : Config) (f : Filter) : Op → Filter × Option ℝ
  | .sample x => let r := processSample cfg f x; (r.1, some r.2)
  | .changeCoeffs k v => (change cfg f k v, none)
  | .reset => (reset cfg f, none)

/-- The filter after a history of calls. -/
noncomputable def after (cfg : Config) (f : Filter) (ops : List Op) : Filter :=
  ops.foldl (fun f o => (apply cfg f o).1) f

end Verif.Ladder
