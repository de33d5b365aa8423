import Verif.Spec.PoleZero

/-!
# What the C++ pole-zero designs promise
-/

namespace Verif.PoleZero.Spec
open Verif.BiquadCascade

/-- All poles of the stages `(b0 + b1 z⁻¹ + b2 z⁻²) / (a0 + a1 z⁻¹ + a2 z⁻²)` lie inside the unit circle. -/
def Stable (cs : List (Stage ℝ)) : Prop :=
  ∀ s ∈ cs, ∀ z : ℂ, (s.a.getD 0 0 : ℂ) * z ^ 2 + (s.a.getD 1 0 : ℂ) * z + (s.a.getD 2 0 : ℂ) = 0 → ‖z‖ < 1

/-- What a successful design promises: `n` stages, all stable, and the gain `power θ` (as power) at every frequency
`θ` of `S` (radians per sample). -/
structure Designed (cs : List (Stage ℝ)) (n : ℕ) (S : Set ℝ) (power : ℝ → ℝ) : Prop where
  count : cs.length = n
  stable : Stable cs
  power : ∀ θ ∈ S, ‖cascadeResponse cs θ‖ ^ 2 = power θ

/-- Equal ripple in the passband: there the gain stays between `-ripple` dB and 0 dB, and everywhere else below. -/
def PassRipple (cs : List (Stage ℝ)) (ripple : ℝ) (S : Set ℝ) (pass : ℝ → Prop) : Prop :=
  ∀ θ ∈ S, (pass θ → (10 : ℝ) ^ (-ripple / 10) ≤ ‖cascadeResponse cs θ‖ ^ 2 ∧ ‖cascadeResponse cs θ‖ ^ 2 ≤ 1) ∧
    (¬ pass θ → ‖cascadeResponse cs θ‖ ^ 2 < (10 : ℝ) ^ (-ripple / 10))

/-- Equal ripple in the stopband: there the gain stays at or below `-ripple` dB, and everywhere else above. -/
def StopRipple (cs : List (Stage ℝ)) (ripple : ℝ) (S : Set ℝ) (pass : ℝ → Prop) : Prop :=
  ∀ θ ∈ S, (pass θ → (10 : ℝ) ^ (-ripple / 10) < ‖cascadeResponse cs θ‖ ^ 2 ∧ ‖cascadeResponse cs θ‖ ^ 2 ≤ 1) ∧
    (¬ pass θ → ‖cascadeResponse cs θ‖ ^ 2 ≤ (10 : ℝ) ^ (-ripple / 10))

/-- The real pole of a prototype of odd order: the pair of poles of the band design that it gives is complex (the
design is wrong otherwise, `C60_bandpass_violation`), and the digital poles do not come close to 0. `t1` and `t2` are
the tangents of the band edges, `β` is `t2 - t1` times the pole (bandpass) or divided by it (bandstop). -/
def BandClear (t1 t2 β : ℝ) : Prop :=
  (β / 2) ^ 2 ≤ t2 * t1 ∧ 1 / 10 ^ 10 < (1 + t2 * t1 + β) / (1 + t2 * t1 - β)

end Verif.PoleZero.Spec
