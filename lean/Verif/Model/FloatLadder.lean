import Verif.Model.Ladder
import Verif.Model.FloatResampler
import Verif.Model.FloatEnvelope

/-!
# Model of the ladder filter in floating point

`LadderFilter::ProcessSample` of `Verif.Model.Ladder` with the rounding `rnd` of every operation. Compilers may contract
multiplications and additions, so the operations are relations. First, the reflection coefficients and tap gains in effect
at every sample are given, and the scattering coefficients are computed from them (`Response`). Then, the object with the
smoothing of its reflection coefficients (`Filter`, `Call`).
-/

namespace Verif.FloatLadder
open Verif.Rounding Verif.FloatResampler

/-- One scattering coefficient, `GetScatteringCoefficients` and `ForceStability`, ladder_filter-inl.h:97, 99, 41-51;
`eps` is `numeric_limits<ScalarType>::epsilon()`. -/
def IsScattering (rnd : ℝ → ℝ) (eps k c : ℝ) : Prop :=
  ∃ t, IsMulAdd rnd (-k) k 1 t ∧ c = Ladder.force (10 * eps) (rnd √t)

/-- The body of the loop over the stages, ladder_filter-inl.h:264-267 (and 280-283, 302-305): `s` and `f` are
`state_(channel, i)` and `stage_input` before, `s'` and `f'` are `state_(channel, i + 1)` and `stage_input` after. Negation
is exact. -/
def Stage (rnd : ℝ → ℝ) (k c s f s' f' : ℝ) : Prop :=
  IsSumOfProducts rnd k f c s s' ∧ IsSumOfProducts rnd c f (-k) s f'

/-- The state update for one sample, ladder_filter-inl.h:262-269 (and 278-285, 297-307). `f (i + 1)` is `stage_input` at
the start of the body for `i`, which reads `state_(channel, i)` before it is overwritten. -/
def Update (rnd : ℝ → ℝ) (M : ℕ) (k c st : ℕ → ℝ) (x : ℝ) (st' : ℕ → ℝ) : Prop :=
  ∃ f : ℕ → ℝ, f M = x ∧ (∀ i, i < M → Stage rnd (k i) (c i) (st i) (f (i + 1)) (st' (i + 1)) (f i)) ∧ st' 0 = f 0

/-- The state after every number of samples, from the state after `Reset` (ladder_filter-inl.h:192-201), and the output;
`k n` and `v n` are the reflection coefficients and tap gains in effect at sample `n`. The output, lines 310-311, is a
product of Eigen matrices. -/
structure Response (rnd : ℝ → ℝ) (eps : ℝ) (M : ℕ) (k v : ℕ → ℕ → ℝ) (x : ℕ → ℝ) (s : ℕ → ℕ → ℝ) (y : ℕ → ℝ) : Prop where
  start : ∀ i, s 0 i = 0
  update : ∀ n, ∃ c : ℕ → ℝ, (∀ i, i < M → IsScattering rnd eps (k n i) (c i)) ∧
    Update rnd M (k n) c (s n) (x n) (s (n + 1))
  output : ∀ n, MachineDot rnd ((List.range (M + 1)).map fun m => (s (n + 1) m, v n m)) (y n)

/-! ## The object -/

/-- Members of `LadderFilter` on which the state depends, cf. `Verif.Ladder.Filter`. The scattering coefficients are a
function of `k` (up to contraction), and the tap gains do not act on the state. -/
structure Filter where
  k : ℕ → ℝ
  target : ℕ → ℝ
  kS : ℕ → ℝ × ℝ
  smoothing : ℕ
  state : ℕ → ℝ

/-- Constants of the object: `numeric_limits<ScalarType>::epsilon()`, the order, the coefficients that
`reflection_smoother_` stores and `smoothing_samples_max_`. -/
structure Config where
  eps : ℝ
  order : ℕ
  smoother : Biquad.Filter ℝ
  maxSamples : ℕ

/-- `reflection_smoother_`, ladder_filter-inl.h:156-158, 163: the design is computed in `double`, with relative error at
most `δ`, and stored in `float`. -/
def IsSmoother (rnd : ℝ → ℝ) (δ : ℝ) (g : Biquad.Filter ℝ) : Prop :=
  ∃ f, Envelope.lowpassFilter 1 (5 / 1000) FloatEnvelope.overdamped = some f ∧ FloatEnvelope.StoredFilter rnd δ f g

/-- `SetLadderCoefficientsWithStabilityCheck` for one reflection coefficient, ladder_filter-inl.h:68, 70. -/
noncomputable def setCoefficient (rnd : ℝ → ℝ) (eps k : ℝ) : ℝ := Ladder.force (10 * eps) (rnd k)

/-- `Reset`, ladder_filter-inl.h:192-201. -/
def Reset (rnd : ℝ → ℝ) (cfg : Config) (f f' : Filter) : Prop :=
  f'.k = f.k ∧ f'.target = f.target ∧ f'.smoothing = 0 ∧ (∀ i, f'.state i = 0) ∧
    ∀ i, i < cfg.order → FloatEnvelope.Steady rnd cfg.smoother (f.target i) (f'.kS i)

/-- `InitFromLadderCoeffs` on a fresh object, ladder_filter-inl.h:105-119, 137-165. -/
def Init (rnd : ℝ → ℝ) (cfg : Config) (k : ℕ → ℝ) (f' : Filter) : Prop :=
  ∃ f : Filter, f.k = (fun i => setCoefficient rnd cfg.eps (k i)) ∧ f.target = f.k ∧ Reset rnd cfg f f'

/-- The smoothing, ladder_filter-inl.h:224-238. -/
def Smooth (rnd : ℝ → ℝ) (cfg : Config) (f f' : Filter) : Prop :=
  if f.smoothing = 0 then f' = f
  else if f.smoothing = 1 then f' = { f with smoothing := 0, k := f.target }
  else f'.smoothing = f.smoothing - 1 ∧ f'.target = f.target ∧ f'.state = f.state ∧
    ∀ i, i < cfg.order → ∃ y, FloatBiquad.Step rnd cfg.smoother (f.kS i) (f.target i) (f'.kS i) y ∧
      f'.k i = Ladder.force (10 * cfg.eps) y

/-- A client's calls. -/
inductive Op
  | sample (x : ℝ)
  | changeCoeffs (k : ℕ → ℝ)
  | reset

/-- One call: `ProcessSample`, ladder_filter-inl.h:205-307; `ChangeLadderCoeffs`, 127-135; `Reset`. -/
def Call (rnd : ℝ → ℝ) (cfg : Config) (f : Filter) : Op → Filter → Prop
  | .sample x, f' => ∃ f1 c st, Smooth rnd cfg f f1 ∧
      (∀ i, i < cfg.order → IsScattering rnd cfg.eps (f1.k i) (c i)) ∧
      Update rnd cfg.order f1.k c f1.state x st ∧ f' = { f1 with state := st }
  | .changeCoeffs k, f' =>
      f' = { f with target := fun i => setCoefficient rnd cfg.eps (k i), smoothing := cfg.maxSamples }
  | .reset, f' => Reset rnd cfg f f'

/-- A history of calls. -/
inductive Calls (rnd : ℝ → ℝ) (cfg : Config) (f : Filter) : List Op → Filter → Prop
  | nil : Calls rnd cfg f [] f
  | snoc {ops : List Op} {f' f'' : Filter} {o : Op} : Calls rnd cfg f ops f' → Call rnd cfg f' o f'' →
      Calls rnd cfg f (ops ++ [o]) f''

end Verif.FloatLadder
