import Verif.Model.Envelope
import Verif.Model.FloatBiquad

/-!
# `AttackReleaseEnvelope` with the arithmetic of the machine

The state of `Verif.Envelope` with `float` fields, rounded with `rnd`. The time constants and the design of the smoother
are computed in `double` and then stored in `float`: the result is the rounding of a number with a relative error of at
most `δ`. Calls are relations between the states before and after, because compilers may contract multiplications and
additions.
-/

namespace Verif.FloatEnvelope
open Verif.Rounding Verif.Biquad Verif.Envelope

/-- `v` is what a variable holds after an assignment of the number `c`, computed with relative error at most `δ`. -/
def Stored (rnd : ℝ → ℝ) (δ c v : ℝ) : Prop := ∃ d, |d - c| ≤ δ * |c| ∧ v = rnd d

/-- The coefficients that `BiquadFilter::Init` stores, biquad_filter-inl.h:35-38. -/
structure StoredFilter (rnd : ℝ → ℝ) (δ : ℝ) (f g : Biquad.Filter ℝ) : Prop where
  ff0 : Stored rnd δ f.ff0 g.ff0
  ff1 : Stored rnd δ f.ff1 g.ff1
  ff2 : Stored rnd δ f.ff2 g.ff2
  fb1 : Stored rnd δ f.fb1 g.fb1
  fb2 : Stored rnd δ f.fb2 g.fb2

/-- `feedback12_.sum() + 1`, biquad_filter-inl.h:57. -/
noncomputable def denominator (rnd : ℝ → ℝ) (f : Biquad.Filter ℝ) : ℝ := rnd (rnd (f.fb1 + f.fb2) + 1)

/-- `SetSteadyStateCondition`, biquad_filter-inl.h:46-61. No result if it divides by zero. -/
def Steady (rnd : ℝ → ℝ) (f : Biquad.Filter ℝ) (v : ℝ) (s : ℝ × ℝ) : Prop :=
  denominator rnd f ≠ 0 ∧ s = (rnd (v / denominator rnd f), rnd (v / denominator rnd f))

/-- `Reset`, attack_release_envelope.h:69-73. -/
def Reset (rnd : ℝ → ℝ) (s s' : AttackRelease) : Prop :=
  ∃ a r, Steady rnd s.smoother s.attack a ∧ Steady rnd s.smoother s.release r ∧
    s' = { s with envelope := 0, attackState := a, releaseState := r }

/-- `constexpr float kOverdamped = 0.49`, attack_release_envelope.cc:38: the nearest `float` (`overdamped_eq`). -/
noncomputable def overdamped : ℝ := 2055209 / 4194304

/-- The constructor, attack_release_envelope.cc:30-47. -/
def Make (rnd : ℝ → ℝ) (δ attack_s release_s interpolation_hz rate : ℝ) (s' : AttackRelease) : Prop :=
  ∃ f s, lowpassFilter rate interpolation_hz overdamped = some f ∧ StoredFilter rnd δ f s.smoother ∧
    Stored rnd δ (firstOrderCoefficient attack_s rate) s.attack ∧
    Stored rnd δ (firstOrderCoefficient release_s rate) s.release ∧ s.rate = rate ∧ Reset rnd s s'

/-- `Output`, attack_release_envelope.cc:57-71. -/
def Output (rnd : ℝ → ℝ) (s : AttackRelease) (input : ℝ) (s' : AttackRelease) : Prop :=
  ∃ a r as rs e, FloatBiquad.Step rnd s.smoother s.attackState s.attack as a ∧
    FloatBiquad.Step rnd s.smoother s.releaseState s.release rs r ∧
    IsMulAdd rnd (if |input| > s.envelope then a else r) (rnd (|input| - s.envelope)) s.envelope e ∧
    s' = { s with envelope := e, attackState := as, releaseState := rs }

/-- One call: `Output`; `SetAttackTimeSeconds`, attack_release_envelope.cc:49-51; `SetReleaseTimeSeconds`, 53-55;
`Reset`. -/
def Call (rnd : ℝ → ℝ) (δ : ℝ) (s : AttackRelease) : Op → AttackRelease → Prop
  | .output x, s' => Output rnd s x s'
  | .setAttack t, s' => ∃ v, Stored rnd δ (firstOrderCoefficient t s.rate) v ∧ s' = { s with attack := v }
  | .setRelease t, s' => ∃ v, Stored rnd δ (firstOrderCoefficient t s.rate) v ∧ s' = { s with release := v }
  | .reset, s' => Reset rnd s s'

/-- A history of calls. -/
inductive Calls (rnd : ℝ → ℝ) (δ : ℝ) (s : AttackRelease) : List Op → AttackRelease → Prop
  | nil : Calls rnd δ s [] s
  | snoc {ops : List Op} {s' s'' : AttackRelease} {o : Op} : Calls rnd δ s ops s' → Call rnd δ s' o s'' →
      Calls rnd δ s (ops ++ [o]) s''

end Verif.FloatEnvelope
