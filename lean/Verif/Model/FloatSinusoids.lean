import Verif.Model.Rounding
import Mathlib.Analysis.SpecialFunctions.Trigonometric.Basic

/-!
# Model of the oscillators of audio/dsp/signal_vector_util.h and signal_generator.h in floating point

Every operation is followed by a rounding; a multiplication and an addition may be contracted, so the loops are relations.
`d` rounds to `double`, `element` converts to the type of the elements of the container (of each part, if that is complex);
`cosine` and `sine` are the functions of the C library, of which only the accuracy is assumed.
-/

namespace Verif.FloatSinusoids
open Verif.Rounding

/-- The arithmetic of the machine. -/
structure Machine where
  d : ℝ → ℝ
  element : ℝ → ℝ
  cosine : ℝ → ℝ
  sine : ℝ → ℝ

/-- `phasor *= rotator`, the multiplication of `std::complex<double>` (its test for NaN has no effect on numbers). -/
def Product (d : ℝ → ℝ) (p w q : ℂ) : Prop :=
  IsSumOfProducts d p.re w.re (-p.im) w.im q.re ∧ IsSumOfProducts d p.re w.im p.im w.re q.im

/-- `std::polar(r, θ)`; `std::exp` of the imaginary number `i θ` is `std::polar(1, θ)`. -/
noncomputable def Machine.polar (m : Machine) (r θ : ℝ) : ℂ := ⟨m.d (r * m.cosine θ), m.d (r * m.sine θ)⟩

/-- `phasor` of the loops below before the iterations 0, 1, 2, ... -/
def Machine.Phasors (m : Machine) (start rotator : ℂ) (phasor : ℕ → ℂ) : Prop :=
  phasor 0 = start ∧ ∀ k, Product m.d (phasor k) rotator (phasor (k + 1))

/-- `ComputePhasorVector`, signal_vector_util.h:659-673. -/
def Machine.PhasorVector (m : Machine) (step : ℝ) (n : ℕ) (signal : List ℂ) : Prop :=
  ∃ phasor, m.Phasors 1 (m.polar 1 step) phasor ∧
    signal = (List.range n).map fun k => ⟨m.element (phasor k).re, m.element (phasor k).im⟩

/-- `phase_step`, signal_vector_util.h:685, and `kPhaseShiftPerSample`, signal_generator.h:43. -/
noncomputable def Machine.step (m : Machine) (frequency rate : ℝ) : ℝ :=
  m.d (m.d (m.d (2 * m.d Real.pi) * frequency) / rate)

/-- `ComputeSineWaveVector`, signal_vector_util.h:677-697, for a nonzero sample rate. -/
def Machine.SineWaveVector (m : Machine) (frequency rate phase : ℝ) (n : ℕ) (signal : List ℝ) : Prop :=
  ∃ phasor, m.Phasors (m.polar 1 phase) (m.polar 1 (m.step frequency rate)) phasor ∧
    signal = (List.range n).map fun k => m.element (phasor k).im

/-- `GenerateSine`, signal_generator.h:36-57. `std::polar` is undefined for a negative amplitude. -/
def Machine.GenerateSine (m : Machine) (n : ℕ) (rate frequency amplitude phase : ℝ) (signal : List ℝ) : Prop :=
  ∃ phasor, m.Phasors (m.polar amplitude phase) (m.polar 1 (m.step frequency rate)) phasor ∧
    signal = (List.range n).map fun k => m.element (phasor k).im

/-- `kRadiansPerSample`, signal_generator.cc:25: computed in `double`, stored in a `float`; `f` rounds to `float`. -/
noncomputable def radiansPerSample (f d : ℝ → ℝ) (frequency rate : ℝ) : ℝ :=
  f (d (d (d (2 * d Real.pi) * frequency) / rate))

/-- `GenerateSineEigen`, signal_generator.cc:23-33; `sine` is the function of Eigen for `float`. `LinSpaced` of the step 1 gives
the numbers 0, 1, 2, ... as `float`. -/
def SineEigen (f d sine : ℝ → ℝ) (n : ℕ) (rate frequency amplitude phase : ℝ) (signal : List ℝ) : Prop :=
  signal.length = n ∧ ∀ k (hk : k < signal.length), ∃ a, IsMulAdd f (f k) (radiansPerSample f d frequency rate) (-phase) a ∧
    signal[k] = f (f (sine a) * amplitude)

end Verif.FloatSinusoids
