import Mathlib.Analysis.SpecialFunctions.Trigonometric.Basic
import Mathlib.Analysis.SpecialFunctions.Complex.Circle

/-!
# Model of `audio/dsp/portable/phasor_rotator.{h,c}` and of the phasor generators of
`audio/dsp/signal_vector_util.h`

Over the reals (rounding is not modelled).
-/

namespace Verif.Phasor

/-- `PhasorRotator`, phasor_rotator.h:38-42. -/
structure Rotator where
  rotator0 : ℝ
  rotator1 : ℝ
  phasor0 : ℝ
  phasor1 : ℝ
  counter : ℕ

/-- `PhasorRotatorInit`, phasor_rotator.c:7-15. -/
noncomputable def init (frequency rate : ℝ) : Rotator :=
  let radians := 2 * Real.pi * frequency / rate
  { rotator0 := Real.cos radians, rotator1 := Real.sin radians, phasor0 := 1, phasor1 := 0,
    counter := 0 }

/-- `PhasorRotatorRenormalize`, phasor_rotator.c:17-27. -/
noncomputable def renormalize (o : Rotator) : Rotator :=
  let normalization := 1 / √(o.phasor0 * o.phasor0 + o.phasor1 * o.phasor1)
  { o with phasor0 := o.phasor0 * normalization, phasor1 := o.phasor1 * normalization, counter := 0 }

/-- `PhasorRotatorNext`, phasor_rotator.h:66-84. -/
noncomputable def next (o : Rotator) : Rotator :=
  let nextState := o.rotator0 * o.phasor0 - o.rotator1 * o.phasor1
  let o := { o with phasor1 := o.rotator1 * o.phasor0 + o.rotator0 * o.phasor1 }
  let o := { o with phasor0 := nextState }
  let o := { o with counter := o.counter + 1 }
  if 1000 ≤ o.counter then renormalize o else o

/-- `PhasorRotatorCos`, phasor_rotator.h:49-51. -/
def cos (o : Rotator) : ℝ := o.phasor0

/-- `PhasorRotatorSin`, phasor_rotator.h:54-56. -/
def sin (o : Rotator) : ℝ := o.phasor1

/-- The loop of `ComputePhasorVector` from a given phasor, signal_vector_util.h:669-672. -/
noncomputable def phasorLoop (rotator : ℂ) : ℕ → ℂ → List ℂ
  | 0, _ => []
  | n + 1, phasor => phasor :: phasorLoop rotator n (phasor * rotator)

/-- `ComputePhasorVector`, signal_vector_util.h:659-673. -/
noncomputable def phasorVector (phaseStep : ℝ) (n : ℕ) : List ℂ :=
  phasorLoop (Complex.exp ⟨0, phaseStep⟩) n 1

/-- The loop of `ComputeSineWaveVector`, signal_vector_util.h:693-696. -/
noncomputable def sineLoop (rotator : ℂ) : ℕ → ℂ → List ℝ
  | 0, _ => []
  | n + 1, phasor => phasor.im :: sineLoop rotator n (phasor * rotator)

/-- `ComputeSineWaveVector`, signal_vector_util.h:677-697. -/
noncomputable def sineWave (frequency rate phase : ℝ) (n : ℕ) : List ℝ :=
  let phaseStep := 2 * Real.pi * frequency / rate
  sineLoop (Complex.exp ⟨0, phaseStep⟩) n (Complex.exp ⟨0, phase⟩)

end Verif.Phasor
