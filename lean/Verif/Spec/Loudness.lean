import Verif.Spec.LinearFilter
import Verif.Model.BiquadCascade
import Mathlib.Analysis.SpecialFunctions.Exp

/-!
# What momentary loudness is

ITU-R BS.1771 as described in streaming_loudness_1771.h:17-32, 51-60, 146-158: every channel is filtered by the
weighting filter, squared and weighted; the weighted sum is smoothed by the averaging filter. Nothing of the model of
the meter is used.
-/

namespace Verif.Loudness.Spec
open Verif.LinearFilter.Spec Verif.BiquadCascade

/-- `ys` is the response of the filters `cs` in series to `xs` (all histories zero). -/
def Series : List (Stage ℝ) → List ℝ → List ℝ → Prop
  | [], xs, ys => ys = xs
  | s :: cs, xs, ys => ∃ us, DiffEq s.b s.a xs us ∧ Series cs us ys

/-- `p` is the averaged weighted power of the frames `x`: channel `c` filtered by the series `cs` is `y c`, and `p`
is the response of the averaging filter `b`, `a` to `Σ_c w_c y_c²`. -/
def Power {C : ℕ} (cs : List (Stage ℝ)) (b a : List ℝ) (w : Fin C → ℝ) (x : List (Fin C → ℝ)) (p : List ℝ) : Prop :=
  ∃ y : Fin C → List ℝ, (∀ c, Series cs (x.map (· c)) (y c)) ∧
    DiffEq b a ((List.range x.length).map fun t => ∑ c, w c * (y c).getD t 0 ^ 2) p

/-- `p` is the momentary loudness power of the frames `x`: channel `c` filtered by the series `cs` is `y c`, and `p` is the
exponential average, with the time constant `τ`, of the sum of their squares with the gains `g`. -/
def Momentary {C : ℕ} (cs : List (Stage ℝ)) (g : Fin C → ℝ) (τ rate : ℝ) (x : List (Fin C → ℝ)) (p : List ℝ) : Prop :=
  ∃ y : Fin C → List ℝ, (∀ c, Series cs (x.map (· c)) (y c)) ∧ p.length = x.length ∧
    ∀ n < x.length, p.getD n 0 = ∑ k ∈ Finset.range (n + 1),
      (1 - Real.exp (-1 / (τ * rate))) * Real.exp (-1 / (τ * rate)) ^ k * ∑ c, g c * (y c).getD (n - k) 0 ^ 2

/-- The gains of the channels left, right, centre, LFE, left surround and right surround (ITU-R BS.1770, table 3; the LFE channel
is not measured). -/
noncomputable def gains51 (c : Fin 6) : ℝ := if c = 3 then 0 else if c < 3 then 1 else 141 / 100

end Verif.Loudness.Spec
