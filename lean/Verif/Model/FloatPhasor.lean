import Verif.Model.Phasor
import Verif.Model.Rounding

/-!
# Model of `audio/dsp/portable/phasor_rotator.{h,c}` in floating point

The functions of `Verif.Model.Phasor` with the rounding of every operation. `f` rounds to `float`, `d` to `double`;
`cosine` and `sine` are the functions of the C library, of which only the accuracy is assumed. Compilers may contract
a multiplication and an addition to a fused multiply-add, so a step is a relation between the state before and after.
-/

namespace Verif.FloatPhasor
open Verif.Rounding Verif.Phasor

/-- The arithmetic of the machine. -/
structure Machine where
  f : ℝ → ℝ
  d : ℝ → ℝ
  cosine : ℝ → ℝ
  sine : ℝ → ℝ

/-- `radians_per_sample`, phasor_rotator.c:9: computed in `double`, stored in a `float`. -/
noncomputable def Machine.radians (m : Machine) (frequency rate : ℝ) : ℝ :=
  m.f (m.d (m.d (m.d (2 * m.d Real.pi) * frequency) / rate))

/-- `PhasorRotatorInit`, phasor_rotator.c:7-15; `none`: division by zero. -/
noncomputable def Machine.init (m : Machine) (frequency rate : ℝ) : Option Rotator :=
  if rate = 0 then none
  else
    some {
      rotator0 := m.f (m.cosine (m.radians frequency rate))
      rotator1 := m.f (m.sine (m.radians frequency rate))
      phasor0 := 1
      phasor1 := 0
      counter := 0 }

/-- `PhasorRotatorRenormalize`, phasor_rotator.c:17-27: the sum of the squares is a `float`, its root and the quotient are
`double`, `normalization` is a `float`. -/
def Machine.Renormalize (m : Machine) (o o' : Rotator) : Prop :=
  ∃ s, IsSumOfProducts m.f o.phasor0 o.phasor0 o.phasor1 o.phasor1 s ∧
    o' = { o with
      phasor0 := m.f (o.phasor0 * m.f (m.d (1 / m.d √s)))
      phasor1 := m.f (o.phasor1 * m.f (m.d (1 / m.d √s)))
      counter := 0 }

/-- `PhasorRotatorNext`, phasor_rotator.h:66-84. -/
def Machine.Next (m : Machine) (o o' : Rotator) : Prop :=
  ∃ p0 p1, IsSumOfProducts m.f o.rotator0 o.phasor0 (-o.rotator1) o.phasor1 p0 ∧
    IsSumOfProducts m.f o.rotator1 o.phasor0 o.rotator0 o.phasor1 p1 ∧
    if 1000 ≤ o.counter + 1 then m.Renormalize { o with phasor0 := p0, phasor1 := p1, counter := o.counter + 1 } o'
    else o' = { o with phasor0 := p0, phasor1 := p1, counter := o.counter + 1 }

/-- `n` calls of `PhasorRotatorNext`. -/
def Machine.Run (m : Machine) (o : Rotator) : ℕ → Rotator → Prop
  | 0, o' => o' = o
  | n + 1, o' => ∃ o'', m.Run o n o'' ∧ m.Next o'' o'

end Verif.FloatPhasor
