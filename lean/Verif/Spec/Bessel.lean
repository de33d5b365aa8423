import Mathlib.Topology.Algebra.InfiniteSum.Basic
import Mathlib.Analysis.SpecialFunctions.Exp

/-!
# Specification: the modified Bessel functions of the first kind

The power series of I_n (DLMF 10.25.2), for integer order.
-/

namespace Verif.Bessel.Spec

/-- The term of index `k` of the power series of `I_n`. -/
noncomputable def term (n : ℕ) (x : ℝ) (k : ℕ) : ℝ := (x / 2) ^ (2 * k + n) / (k.factorial * (k + n).factorial)

/-- `I_n(x)`. -/
noncomputable def I (n : ℕ) (x : ℝ) : ℝ := ∑' k, term n x k

end Verif.Bessel.Spec
