import Verif.Model.MultiCrossover
import Verif.Spec.FilterDesign
import Mathlib.Analysis.SpecialFunctions.Trigonometric.Basic

/-! # Specification vocabulary for the crossover filterbank -/

namespace Verif.MultiCrossover.Spec
open Verif.BiquadCascade Verif.FilterDesign

/-- Frequency response of band `b` of a bank of `n` bands at the angular frequency `θ`: the product of the responses
of the highpass filters of the stages below `b`, of the lowpass filter of stage `b` (except for the highest band) and
of the allpass filters of the band. -/
noncomputable def bandResponse (c : Coeffs) (n b : ℕ) (θ : ℝ) : ℂ :=
  (∏ i ∈ Finset.range b, ((c.high.getD i []).map fun s => response s θ).prod) *
  (if b < n - 1 then ((c.low.getD b []).map fun s => response s θ).prod else 1) *
  (if b < n - 2 then ((c.ap.getD b []).map fun s => response s θ).prod else 1)

/-- A crossover frequency at which no coefficient of a Linkwitz-Riley crossover of order `2 N` falls under the
thresholds of `Simplify` (see `C47_sum_flat_partial`). -/
structure Regular (N : ℕ) (rate hz : ℝ) : Prop where
  pos : 0 < hz
  nyquist : hz < rate / 2
  low : 1 / 10 ^ 10 < (Real.tan (Real.pi * hz / rate) / (1 + Real.tan (Real.pi * hz / rate))) ^ N
  high : 1 / 10 ^ 10 < (1 / (1 + Real.tan (Real.pi * hz / rate))) ^ N
  odd : N % 2 = 1 → Real.tan (Real.pi * hz / rate) = 1 ∨
    1 / 10 ^ 5 < |(1 - Real.tan (Real.pi * hz / rate)) / (1 + Real.tan (Real.pi * hz / rate))|
  one : N = 1 → 1 / 10 ^ 5 < Real.tan (Real.pi * hz / rate) / (1 + Real.tan (Real.pi * hz / rate)) ∧
    1 / 10 ^ 5 < 1 / (1 + Real.tan (Real.pi * hz / rate))

/-- One filter after the other on the same samples: their states afterwards and the output of the last one. -/
noncomputable def cascade (cfg : Ladder.Config) : List Ladder.Filter → List ℝ → List Ladder.Filter × List ℝ
  | [], xs => ([], xs)
  | f :: fs, xs =>
    let r := Stream.runSamples (Ladder.processSample cfg) f xs
    let rs := cascade cfg fs r.2
    (r.1 :: rs.1, rs.2)

/-- A stage that a `LadderFilter` realises exactly (see `C25_transfer_function`): its reflection coefficients are
inside `(-1, 1)`, and none is zero unless the stability margin `eta` is zero. -/
def Exact (cfg : Ladder.Config) (s : Stage ℝ) : Prop :=
  ∃ M k v, Ladder.makeLadder s.b s.a = some (M, k, v) ∧ (∀ i, i < M → |k i| < 1) ∧ (cfg.eta = 0 ∨ ∀ i, i < M → k i ≠ 0)

/-- The filters of band `b` of a bank of `n` bands, in the order of the signal path: the highpass filters of the
stages below `b`, the lowpass filters of stage `b` (except for the highest band) and the allpass filters of the band
(except for the two highest bands). -/
def path (n : ℕ) (L H A : ℕ → List Ladder.Filter) (b : ℕ) : List Ladder.Filter :=
  ((List.range b).flatMap H ++ (if b < n - 1 then L b else [])) ++ (if b < n - 2 then A b else [])

/-- The bank has `n` bands and all its filters are initialised: `L i`, `H i` are the lowpass and highpass filters of
stage `i` (at least one each), `A i` the allpass filters of band `i`. -/
structure Holds (b : Bank) (n : ℕ) (L H A : ℕ → List Ladder.Filter) : Prop where
  two : 2 ≤ n
  bands : b.n = n
  lowLen : b.low.length = n - 1
  highLen : b.high.length = n - 1
  apLen : b.ap.length = n - 2
  outLen : b.out.length = n
  low : ∀ i, i < n - 1 → b.low.getD i [] = (L i).map some ∧ L i ≠ []
  high : ∀ i, i < n - 1 → b.high.getD i [] = (H i).map some ∧ H i ≠ []
  ap : ∀ i, i < n - 2 → b.ap.getD i [] = (A i).map some

/-- The banks of `n` bands with Linkwitz-Riley crossovers of order `2 N` that a program can obtain by a constructor
call followed by `Init` and any sequence of `ProcessBlock`, `SetCrossoverFrequencies` and `Reset`, all with
frequencies inside the regular range. -/
inductive Reachable (cfg : Ladder.Config) (N n : ℕ) (rate : ℝ) : Bank → Prop
  | init {b0 b : Bank} {freqs : List ℝ} (made : make n = some b0) (regular : ∀ hz ∈ freqs, Regular N rate hz)
      (done : b0.init cfg (1 / 10 ^ 10) .linkwitzRiley (2 * N) rate freqs = some b) : Reachable cfg N n rate b
  | process {b b' : Bank} {x : List ℝ} (before : Reachable cfg N n rate b) (done : b.processBlock cfg x = some b') :
      Reachable cfg N n rate b'
  | retune {b b' : Bank} {freqs : List ℝ} (before : Reachable cfg N n rate b) (regular : ∀ hz ∈ freqs, Regular N rate hz)
      (done : b.setFrequencies cfg (1 / 10 ^ 10) .linkwitzRiley (2 * N) rate freqs = some b') : Reachable cfg N n rate b'
  | reset {b b' : Bank} (before : Reachable cfg N n rate b) (done : b.reset cfg = some b') : Reachable cfg N n rate b'

end Verif.MultiCrossover.Spec
