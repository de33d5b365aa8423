import Verif.Model.BiquadAnalysis
import Verif.Model.Fir
import Mathlib.Algebra.BigOperators.Group.List.Basic
import Mathlib.Algebra.Ring.Pi
import Mathlib.Algebra.Order.Floor.Semiring

/-!
# Model of the auditory cascade filterbank

`audio/linear_filters/filterbanks/auditory_cascade_filterbank.{h,cc}` and the defaults of
`auditory_cascade_filterbank_params.proto`, over the reals (rounding and the `float` storage of frequencies are not
modelled). The number of microphones is the type parameter `C`. `DCHECK`s are not modelled; an access outside of a vector is
the outcome `outOfBounds`.
-/

namespace Verif.AuditoryFilterbank
open Verif.BiquadCascade Verif.FilterDesign Verif.BiquadAnalysis Verif.Biquad

/-- Abnormal outcomes: a failed `CHECK`, an access outside of a vector (or `Convolve` without non-zero coefficients). -/
inductive Err where
  | check
  | outOfBounds
deriving DecidableEq, Repr

/-- `ChannelSelectionOptions`, auditory_cascade_filterbank_params.proto:21-37. -/
structure Selection where
  useAll : Bool := true
  first : ℤ := 0
  skip : ℤ := 2
  maxChannels : ℤ := 40

/-- `AuditoryCascadeFilterbankParams`, auditory_cascade_filterbank_params.proto:40-67. -/
structure Params where
  highest : ℝ
  fraction : ℝ
  stepErbs : ℝ
  maxSamplesPerCycle : ℝ
  minRate : ℝ
  zeta : ℝ
  minPole : ℝ
  selection : Selection := {}

/-- The default values, auditory_cascade_filterbank_params.proto:46-66. -/
noncomputable def Params.default : Params :=
  { highest := 16000
    fraction := 0.85
    stepErbs := 0.5
    maxSamplesPerCycle := 12
    minRate := 600
    zeta := 0.15
    minPole := 30 }

/-- `CheckParameterValues` and the check of the rate, auditory_cascade_filterbank.cc:57-77, 205. -/
def Params.Ok (p : Params) (allow : Bool) (rate : ℝ) : Prop :=
  0 < rate ∧ 0 < p.highest ∧ 0 ≤ p.fraction ∧ p.fraction ≤ 1 ∧ 0 < p.stepErbs ∧ p.stepErbs < 2 ∧ 0 < p.zeta ∧
    p.zeta < 1 / 2 ∧ 0 < p.minPole ∧
    (p.selection.useAll = false → 0 ≤ p.selection.first ∧ 0 < p.selection.skip ∧ 0 < p.selection.maxChannels) ∧
    (allow = true → 6 < p.maxSamplesPerCycle ∧ 0 < p.minRate)

/-- `kBreakFrequencyHz`, auditory_cascade_filterbank.cc:116. -/
noncomputable def breakHz : ℝ := 1000 / 4.37

/-- `kEarQualityFactor`, auditory_cascade_filterbank.cc:117. -/
noncomputable def earQ : ℝ := breakHz / 24.7

/-- `auditory_bandwidth_hz`, auditory_cascade_filterbank.cc:125-126. -/
noncomputable def bandwidth (hz : ℝ) : ℝ := (breakHz + hz) / earQ

open Classical in
/-- The loop of `ComputeFilterbankCentersAndBandwidths`, auditory_cascade_filterbank.cc:123-129: pole frequencies and
bandwidths. The first argument bounds the number of iterations. -/
noncomputable def poleLoop (p : Params) : ℕ → ℝ → List (ℝ × ℝ)
  | 0, _ => []
  | n + 1, hz =>
    if p.minPole < hz then (hz, bandwidth hz) :: poleLoop p n (hz - p.stepErbs * bandwidth hz) else []

/-- The initial value, auditory_cascade_filterbank.cc:119-121. -/
noncomputable def firstPole (p : Params) (rate : ℝ) : ℝ := min p.highest (p.fraction * rate / 2)

/-- `ComputeFilterbankCentersAndBandwidths`, auditory_cascade_filterbank.cc:108-130. The number of iterations is enough
(`poleLoop_fuel`): every iteration subtracts more than `step_erbs * 24.7` Hz. -/
noncomputable def centers (p : Params) (rate : ℝ) : List (ℝ × ℝ) :=
  poleLoop p (⌈firstPole p rate / (p.stepErbs * 24.7)⌉₊ + 1) (firstPole p rate)

/-- `LaplaceCoeffsFromNaturalFrequencyAndDampings`, auditory_cascade_filterbank.cc:34-38. -/
noncomputable def laplace (hz zeta : ℝ) : List ℝ :=
  [1 / ((2 * Real.pi * hz) * (2 * Real.pi * hz)), 2 * zeta / (2 * Real.pi * hz), 1]

/-- `DesignDiscretizedResonator`, auditory_cascade_filterbank.cc:42-55. -/
noncomputable def resonator (p : Params) (rate pole : ℝ) : Option (Stage ℝ) :=
  bilinearTransform (laplace (pole * √2) (p.zeta / √2)) (laplace pole p.zeta) rate pole

/-- Members of `AuditoryCascadeFilterbank`, auditory_cascade_filterbank.h:123-160. A filter carries its state (per
microphone), a difference filter is its state, a decimator its `skip_next_sample_`. -/
structure Bank (C : ℕ) where
  params : Params
  allow : Bool
  peaks : List ℝ
  bandwidths : List ℝ
  coeffs : List (Stage ℝ)
  filters : List (Biquad.Filter ℝ × (Fin C → ℝ × ℝ))
  rates : List ℝ
  outputs : List (List (Fin C → ℝ))
  diffs : List (Fin C → ℝ)
  decimators : List Bool
  exposed : List ℕ

variable {C : ℕ}

/-- The constructor, auditory_cascade_filterbank.h:44-50. -/
def Bank.new (p : Params) (allow : Bool) : Bank C := ⟨p, allow, [], [], [], [], [], [], [], [], []⟩

/-- The response at a frequency of the stages in order, each at its own rate, auditory_cascade_filterbank.cc:245-250. -/
noncomputable def responses (cs : List (Stage ℝ)) (rates : List ℝ) (hz : ℝ) : ℂ :=
  (List.zipWith (fun c r => response c (2 * Real.pi * hz / r)) cs rates).foldl (· * ·) 1

/-- `FilterbankGainMagnitude`, auditory_cascade_filterbank.cc:244-255; the last rate is that of the difference filter. -/
noncomputable def gainMagnitude (cs : List (Stage ℝ)) (rates : List ℝ) (hz : ℝ) : ℝ :=
  ‖responses cs rates hz‖ * ‖(1 : ℂ) - Complex.exp ((2 * Real.pi * (hz / rates.getLastD 0) : ℝ) * Complex.I)‖

open Classical in
/-- Lines 257-263 of auditory_cascade_filterbank.cc. -/
noncomputable def decimateFirst (p : Params) (allow : Bool) (stage : ℕ) (rate pole : ℝ) : Bool :=
  0 < stage ∧ p.maxSamplesPerCycle < rate / pole ∧ 2 * p.minRate ≤ rate ∧ allow = true

/-- `biquad_coefficients_[size - 1].AdjustGain(g)`, auditory_cascade_filterbank.cc:284-285. -/
noncomputable def adjustLast (cs : List (Stage ℝ)) (g : ℝ) : List (Stage ℝ) :=
  cs.dropLast ++ (cs.getLast?.map (adjustStage · g)).toList

/-- `DesignFilterbankStage`, auditory_cascade_filterbank.cc:240-292. The gain function is evaluated, and reads
`sample_rates_[j]` for every stage `j` of the coefficients (`biquad_coefficients_`). -/
noncomputable def Bank.designStage (s : Bank C) (stage : ℕ) (rate pole : ℝ) : Except Err (Bank C × ℝ) :=
  let d := decimateFirst s.params s.allow stage rate pole
  let rate' := if d then rate / 2 else rate
  let rates := s.rates ++ [rate']
  match resonator s.params rate' pole with
  | none => .error .check
  | some r =>
    match appendBiquad (1 / 10 ^ 10) s.coeffs r with
    | none => .error .outOfBounds
    | some cs =>
      if rates.length < cs.length then .error .outOfBounds
      else
        match bisection (gainMagnitude cs rates) 0 (rate' / 2) with
        | none => .error .check
        | some (peak, gain) =>
          let cs' := adjustLast cs (1 / gain)
          match cs'.getLast? with
          | none => .error .outOfBounds
          | some c =>
            match Biquad.init c.coeffs with
            | none => .error .check
            | some f =>
              .ok ({ s with
                peaks := s.peaks ++ [peak]
                coeffs := cs'
                filters := s.filters ++ [(f, fun _ => resetState)]
                rates := rates
                diffs := s.diffs ++ [0]
                decimators := if d then s.decimators ++ [false] else s.decimators }, rate')

/-- The loop auditory_cascade_filterbank.cc:225-233. -/
noncomputable def Bank.designLoop : Bank C → ℕ → ℝ → List ℝ → Except Err (Bank C)
  | s, _, _, [] => .ok s
  | s, stage, rate, pole :: poles =>
    match s.designStage stage rate pole with
    | .error e => .error e
    | .ok (s', rate') => s'.designLoop (stage + 1) rate' poles

/-- The loop auditory_cascade_filterbank.cc:91-96: `i`, with `left` channels still allowed; the first argument bounds the
number of iterations. -/
def selectLoop (skip n : ℕ) : ℕ → ℕ → ℕ → List ℕ
  | 0, _, _ => []
  | _ + 1, _, 0 => []
  | fuel + 1, i, left + 1 => if i < n then i :: selectLoop skip n fuel (i + skip) left else []

/-- `HandleChannelSelection`, auditory_cascade_filterbank.cc:79-106 (the options have been checked before). -/
def select (o : Selection) (n : ℕ) : Except Err (List ℕ) :=
  if o.useAll then .ok (List.range n)
  else
    let l := selectLoop o.skip.toNat n (n + 1) o.first.toNat o.maxChannels.toNat
    if 0 < l.length then .ok l else .error .check

open Classical in
/-- `Init` with `DesignFilterbank`, auditory_cascade_filterbank.cc:134-143, 204-238. `biquad_coefficients_` is not among the
vectors cleared at lines 210-216. -/
noncomputable def Bank.init (s : Bank C) (rate : ℝ) : Except Err (Bank C) :=
  if s.params.Ok s.allow rate then
    let cleared : Bank C := { s with
      peaks := []
      bandwidths := (centers s.params rate).map (·.2)
      filters := []
      rates := []
      diffs := []
      decimators := []
      exposed := [] }
    match cleared.designLoop 0 rate ((centers s.params rate).map (·.1)) with
    | .error e => .error e
    | .ok b =>
      match select s.params.selection (centers s.params rate).length with
      | .error e => .error e
      | .ok l => .ok { b with
          exposed := l
          outputs := List.replicate b.filters.length [] }
  else .error .check

/-- `Reset`, auditory_cascade_filterbank.cc:145-155. -/
noncomputable def Bank.reset (s : Bank C) : Bank C :=
  { s with
    filters := s.filters.map fun f => (f.1, fun _ => resetState)
    decimators := s.decimators.map fun _ => false
    diffs := s.diffs.map fun _ => 0 }

open Classical in
/-- The loop auditory_cascade_filterbank.cc:168-184 from one stage on; `last` is the rate and `prev` the output of the stage
before. Returns the filters, the decimators and the outputs. -/
noncomputable def stageLoop : ℝ → List (Fin C → ℝ) → List (Biquad.Filter ℝ × (Fin C → ℝ × ℝ)) → List ℝ → List Bool →
    Except Err (List (Biquad.Filter ℝ × (Fin C → ℝ × ℝ)) × List Bool × List (List (Fin C → ℝ)))
  | _, _, [], _, ds => .ok ([], ds, [])
  | _, _, _ :: _, [], _ => .error .outOfBounds
  | last, prev, f :: fs, r :: rs, ds =>
    if r ≠ last then
      match ds with
      | [] => .error .outOfBounds
      | d :: ds =>
        match Fir.decimate d prev with
        | none => .error .outOfBounds
        | some (d', x) =>
          let y := processBlock f.1 f.2 x
          match stageLoop r y.2 fs rs ds with
          | .error e => .error e
          | .ok (fs', ds', ys) => .ok ((f.1, y.1) :: fs', d' :: ds', y.2 :: ys)
    else
      let y := processBlock f.1 f.2 prev
      match stageLoop r y.2 fs rs ds with
      | .error e => .error e
      | .ok (fs', ds', ys) => .ok ((f.1, y.1) :: fs', ds', y.2 :: ys)

/-- The loop auditory_cascade_filterbank.cc:185-188. -/
noncomputable def diffLoop : List (Fin C → ℝ) → List (List (Fin C → ℝ)) →
    Except Err (List (Fin C → ℝ) × List (List (Fin C → ℝ)))
  | ds, [] => .ok (ds, [])
  | [], _ :: _ => .error .outOfBounds
  | d :: ds, x :: xs =>
    let y := Fir.twoTapBlock Fir.firstDifference d x
    match diffLoop ds xs with
    | .error e => .error e
    | .ok (ds', ys) => .ok (y.1 :: ds', y.2 :: ys)

/-- `ProcessBlock`, auditory_cascade_filterbank.cc:161-189. -/
noncomputable def Bank.process (s : Bank C) (x : List (Fin C → ℝ)) : Except Err (Bank C) :=
  match s.filters, s.rates with
  | f :: fs, r :: rs =>
    let y := processBlock f.1 f.2 x
    match stageLoop r y.2 fs rs s.decimators with
    | .error e => .error e
    | .ok (fs', ds', ys) =>
      match diffLoop s.diffs (y.2 :: ys) with
      | .error e => .error e
      | .ok (diffs', outs) => .ok { s with
          filters := (f.1, y.1) :: fs'
          decimators := ds'
          diffs := diffs'
          outputs := outs }
  | _, _ => .error .outOfBounds

/-- `GetFilterbankSize`, auditory_cascade_filterbank.h:82-85. -/
def Bank.size (s : Bank C) : ℕ := s.exposed.length

/-- `FilteredOutput`, auditory_cascade_filterbank.h:70-75. -/
def Bank.output (s : Bank C) (channel : ℕ) : Option (List (Fin C → ℝ)) :=
  s.exposed[channel]?.bind (s.outputs[·]?)

/-- `GetSampleRate`, auditory_cascade_filterbank.h:94-98. -/
def Bank.rate (s : Bank C) (channel : ℕ) : Option ℝ := s.exposed[channel]?.bind (s.rates[·]?)

/-- `PeakFrequencyHz`, auditory_cascade_filterbank.h:105-108. -/
def Bank.peak (s : Bank C) (channel : ℕ) : Option ℝ := s.exposed[channel]?.bind (s.peaks[·]?)

/-- `BandwidthHz`, auditory_cascade_filterbank.h:110-113. -/
def Bank.bandwidth (s : Bank C) (channel : ℕ) : Option ℝ := s.exposed[channel]?.bind (s.bandwidths[·]?)

/-- Successive calls of `ProcessBlock`, each followed by `FilteredOutput` of one channel. -/
noncomputable def Bank.run (channel : ℕ) : Bank C → List (List (Fin C → ℝ)) →
    Except Err (Bank C × List (List (Fin C → ℝ)))
  | s, [] => .ok (s, [])
  | s, x :: xs =>
    match s.process x with
    | .error e => .error e
    | .ok s' =>
      match s'.output channel with
      | none => .error .outOfBounds
      | some y =>
        match s'.run channel xs with
        | .error e => .error e
        | .ok (s'', ys) => .ok (s'', y :: ys)

end Verif.AuditoryFilterbank
