import Mathlib.Algebra.BigOperators.Group.Finset.Basic

/-!
# Overlap-add of processed blocks

A stream `x` is cut into blocks of length `B` at spacing `H`; the blocks go, in order, through a stateful
function; the results are added at spacing `H`.
-/

namespace Verif.SpectralProcessor.Spec

variable {F M σ : Type} [AddCommMonoid M]

/-- Block `n`. -/
def block (x : List F) (B H n : ℕ) : List F := (x.drop (n * H)).take B

/-- The first `n` blocks through the function: state and processed blocks. -/
def processed (f : σ → List F → σ × List M) (s0 : σ) (x : List F) (B H : ℕ) : ℕ → σ × List (List M)
  | 0 => (s0, [])
  | n + 1 =>
    let p := processed f s0 x B H n
    let r := f p.1 (block x B H n)
    (r.1, p.2 ++ [r.2])

/-- Sample `t` of the sum of the blocks, block `n` placed at `n * H`. -/
def overlapAdd (P : List (List M)) (H t : ℕ) : M :=
  ∑ n ∈ Finset.range P.length, if n * H ≤ t then (P.getD n []).getD (t - n * H) 0 else 0

end Verif.SpectralProcessor.Spec
