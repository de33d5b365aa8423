import Mathlib.Algebra.Order.Ring.Nat

/-!
# Buffers in a memory
-/

namespace Verif.InPlace

/-- The samples of channel `ch` in the buffer of `N` frames of `C` channels at address `p`. -/
def channel {K : Type} (m : ℕ → K) (p C N ch : ℕ) : List K := (List.range N).map fun n => m (p + n * C + ch)

/-- The output at `q` does not overwrite samples of the input at `p`, both of length `len`, before they are read by a loop that
goes upwards. In particular this holds in place (`p = q`) and for disjoint buffers. -/
def Safe (p q len : ℕ) : Prop := q ≤ p ∨ p + len ≤ q

end Verif.InPlace
