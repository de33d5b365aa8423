import Verif.Model.AuditoryFilterbank
import Verif.Model.Rounding

/-!
# The pole frequencies of the auditory filterbank in floating point

`ComputeFilterbankCentersAndBandwidths`, audio/linear_filters/filterbanks/auditory_cascade_filterbank.cc:108-130, with every
operation on `float` and `double` rounded. The parameters and the sampling rate are floats. Overflow is not modelled.
-/

namespace Verif.FloatAuditory
open Verif.Rounding Verif.AuditoryFilterbank

/-- `kBreakFrequencyHz`, auditory_cascade_filterbank.cc:116: a quotient of floats. -/
noncomputable def breakHz : ℝ := binary32 (1000 / binary32 4.37)

/-- `kEarQualityFactor`, auditory_cascade_filterbank.cc:117: a double divided by a float. -/
noncomputable def earQ : ℝ := binary64 (breakHz / binary32 24.7)

/-- `frequency_hz` before the loop, auditory_cascade_filterbank.cc:119-121: in floats, converted to double. -/
noncomputable def start (p : Params) (rate : ℝ) : ℝ := min p.highest (binary32 (binary32 (p.fraction * rate) / 2))

/-- `auditory_bandwidth_hz`, auditory_cascade_filterbank.cc:125-126. -/
noncomputable def bandwidth (f : ℝ) : ℝ := binary64 (binary64 (breakHz + f) / earQ)

/-- `frequency_hz -= step_erbs * auditory_bandwidth_hz`, auditory_cascade_filterbank.cc:128, with or without contraction to a
fused multiply-add. -/
def Next (p : Params) (f f' : ℝ) : Prop :=
  f' = binary64 (f - binary64 (p.stepErbs * bandwidth f)) ∨ f' = binary64 (f - p.stepErbs * bandwidth f)

/-- The values of `frequency_hz` before the first, second, ... evaluation of the condition of the loop
auditory_cascade_filterbank.cc:123-129, if it went on for ever. -/
def Values (p : Params) (rate : ℝ) (f : ℕ → ℝ) : Prop := f 0 = start p rate ∧ ∀ n, Next p (f n) (f (n + 1))

/-- The loop ends after `N` iterations, auditory_cascade_filterbank.cc:123. -/
def Ends (p : Params) (f : ℕ → ℝ) (N : ℕ) : Prop := (∀ n < N, f n > p.minPole) ∧ ¬ f N > p.minPole

/-- `pole_frequencies` (floats) after `N` iterations, auditory_cascade_filterbank.cc:124. -/
noncomputable def poles (f : ℕ → ℝ) (N : ℕ) : List ℝ := (List.range N).map fun n => binary32 (f n)

/-- `bandwidths` (floats) after `N` iterations, auditory_cascade_filterbank.cc:127. -/
noncomputable def bandwidths (f : ℕ → ℝ) (N : ℕ) : List ℝ := (List.range N).map fun n => binary32 (bandwidth (f n))

end Verif.FloatAuditory
