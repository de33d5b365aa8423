import Verif.Model.Stream
import Mathlib.Algebra.Field.Basic
import Mathlib.Algebra.Order.Ring.Abs

/-!
# Model of the biquad filters

`audio/linear_filters/biquad_filter-inl.h`, `audio/linear_filters/filter_traits.h`,
`audio/dsp/portable/biquad_filter.h`. Numbers are elements of an arbitrary field (rounding is not
modelled); the filters themselves take any type with three operations, so that C101 speaks about the
arithmetic of the machine too.
-/

namespace Verif.Biquad
open Verif.Stream

variable {K : Type} [Field K]

/-- `BiquadFilterCoefficients`, biquad_filter_coefficients.h:58-153 (the constructor checks that
both vectors have size 3). -/
structure Coeffs (K : Type) where
  b0 : K
  b1 : K
  b2 : K
  a0 : K
  a1 : K
  a2 : K
deriving DecidableEq, Repr

/-- Normalised coefficients kept by `BiquadFilter` (members `feedforward0_`, `feedforward12_`,
`feedback12_`). -/
structure Filter (K : Type) where
  ff0 : K
  ff1 : K
  ff2 : K
  fb1 : K
  fb2 : K

/-- `BiquadFilter::Init`, biquad_filter-inl.h:25-42; `none` is the failed `CHECK_NE(a0, 0)`. -/
def init [DecidableEq K] (c : Coeffs K) : Option (Filter K) :=
  if c.a0 = 0 then none
  else
    let scale := 1 / c.a0
    some ⟨scale * c.b0, scale * c.b1, scale * c.b2, scale * c.a1, scale * c.a2⟩

section Filters

variable {K : Type} [Zero K] [Add K] [Sub K] [Mul K]

/-- One channel of `BiquadFilter::ProcessSample`, biquad_filter-inl.h:112-120 (and the identical
single-channel 129-137 and vectorised 159-168 variants). The state is
`(s[n-1], s[n-2])`. -/
def step (f : Filter K) (s : K × K) (x : K) : (K × K) × K :=
  let next := x - (s.1 * f.fb1 + s.2 * f.fb2)
  let y := next * f.ff0 + (s.1 * f.ff1 + s.2 * f.ff2)
  ((next, s.1), y)

/-- `Reset`, biquad_filter-inl.h:64-67, for one channel. -/
def resetState : K × K := (0, 0)

/-- The loop over channels of `ProcessSample`, biquad_filter-inl.h:111-121. -/
def stepMulti {C : ℕ} (f : Filter K) (s : Fin C → K × K) (x : Fin C → K) :
    (Fin C → K × K) × (Fin C → K) :=
  (fun ch => (step f (s ch) (x ch)).1, fun ch => (step f (s ch) (x ch)).2)

/-- `ProcessBlock`, filter_traits.h:224-255 (loop over the columns of the block). -/
def processBlock {C : ℕ} (f : Filter K) (s : Fin C → K × K) (x : List (Fin C → K)) :
    (Fin C → K × K) × List (Fin C → K) :=
  runSamples (stepMulti f) s x

/-- `BiquadFilterCascade::ProcessSample`, biquad_filter-inl.h:206-214, one channel: the sample goes
through all stages in order. -/
def cascadeStep : List (Filter K × (K × K)) → K → List (Filter K × (K × K)) × K
  | [], x => ([], x)
  | (f, s) :: rest, x =>
    let r := step f s x
    let rs := cascadeStep rest r.2
    ((f, r.1) :: rs.1, rs.2)

/-- `BiquadFilterCascade::ProcessBlock`, biquad_filter-inl.h:194-202, one channel: the whole block
goes through each stage in turn (in place). -/
def cascadeBlock : List (Filter K × (K × K)) → List K → List (Filter K × (K × K)) × List K
  | [], xs => ([], xs)
  | (f, s) :: rest, xs =>
    let r := runSamples (step f) s xs
    let rs := cascadeBlock rest r.2
    ((f, r.1) :: rs.1, rs.2)

/-! ## C variant: `audio/dsp/portable/biquad_filter.h` -/

/-- `BiquadFilterProcessOneSample`, portable/biquad_filter.h:57-69. -/
def portableStep (f : Filter K) (z : K × K) (x : K) : (K × K) × K :=
  let next := x - f.fb1 * z.1 - f.fb2 * z.2
  let out := f.ff0 * next + f.ff1 * z.1 + f.ff2 * z.2
  ((next, z.1), out)

end Filters

/-- `SetSteadyStateCondition`, biquad_filter-inl.h:46-61, for one channel. -/
def steadyState (f : Filter K) (v : K) : K × K :=
  let initial := v / (f.fb1 + f.fb2 + 1)
  (initial, initial)

/-- `BiquadFilterCascade::Init`, biquad_filter-inl.h:174-183. -/
def cascadeInit [DecidableEq K] (cs : List (Coeffs K)) : Option (List (Filter K × (K × K))) :=
  cs.mapM (fun c => (init c).map (fun f => (f, resetState)))

end Verif.Biquad
