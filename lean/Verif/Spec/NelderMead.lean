import Verif.Model.NelderMead

/-! What it means for a point to respect the bounds of a search, and what Eigen promises. -/

namespace Verif.NelderMead

variable {d : ℕ} {K : Type} [Field K] [LinearOrder K]

/-- The point `p` respects the bounds that are set: every coordinate is between them (a bound may be
infinite). -/
def InBox (l : Option (Fin d → WithBot K)) (u : Option (Fin d → WithTop K)) (p : Point d K) : Prop :=
  (∀ b, l = some b → ∀ i, b i ≤ (p i : WithBot K)) ∧ (∀ b, u = some b → ∀ i, (p i : WithTop K) ≤ b i)

/-- `minCoeff` and `maxCoeff` return the index of a smallest and of a largest element. -/
structure Env.Ok (e : Env d K) : Prop where
  amin : ∀ (v : Fin (d + 1) → WithTop K) i, v (e.amin v) ≤ v i
  amax : ∀ (v : Fin (d + 1) → WithTop K) i, v i ≤ v (e.amax v)

end Verif.NelderMead
