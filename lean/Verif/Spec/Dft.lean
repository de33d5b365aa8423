import Mathlib.Analysis.SpecialFunctions.Complex.CircleAddChar
import Mathlib.Algebra.BigOperators.Intervals
import Mathlib.Topology.Algebra.InfiniteSum.NatInt

/-! The discrete Fourier transform, as written in the documentation of kiss_fft.h. -/

namespace Verif.DftSpec
open Finset

/-- `output[k] = sum_n input[n] exp(-i 2 pi k n / size)`, `k = 0, …, size - 1`. -/
noncomputable def dft (x : List ℂ) : List ℂ :=
  (List.range x.length).map fun k : ℕ =>
    ∑ n ∈ range x.length, x.getD n 0 * Complex.exp (-(2 * Real.pi * Complex.I * k * n / x.length))

/-- `output[k] = sum_n input[n] exp(+i 2 pi k n / size)`, `k = 0, …, size - 1`. -/
noncomputable def idft (x : List ℂ) : List ℂ :=
  (List.range x.length).map fun k : ℕ =>
    ∑ n ∈ range x.length, x.getD n 0 * Complex.exp (2 * Real.pi * Complex.I * k * n / x.length)

/-- The spectrum of `size` bins whose bins from zero to `size / 2` are those of `x` and whose other bins
are given by conjugate symmetry. -/
noncomputable def hermitian (size : ℕ) (x : List ℂ) : List ℂ :=
  (List.range size).map fun k : ℕ =>
    if k ≤ size / 2 then x.getD k 0 else starRingEnd ℂ (x.getD (size - k) 0)

/-- The direct linear convolution. -/
def conv (a b : List ℝ) : List ℝ :=
  (List.range (a.length + b.length - 1)).map fun k : ℕ =>
    ∑ j ∈ range (k + 1), a.getD j 0 * b.getD (k - j) 0

/-- `x` convolved with itself such that there are `n + 1` factors. -/
def convPow (x : List ℝ) : ℕ → List ℝ
  | 0 => x
  | n + 1 => conv (convPow x n) x

/-- The number of bins of the full spectrum of `n` bins that bin `k` of the nonnegative frequencies
stands for: itself and, except for the bins that are their own mirror image, its mirror image. -/
def mirrorCount (n k : ℕ) : ℝ := if k = 0 ∨ 2 * k = n then 1 else 2

/-- Bin `k` of the discrete Fourier transform of a real signal. -/
noncomputable def bin (x : List ℝ) (k : ℕ) : ℂ :=
  ∑ n ∈ range x.length,
    (x.getD n 0 : ℂ) * Complex.exp (-(2 * Real.pi * Complex.I * k * n / x.length))

/-- The sinusoid of `k` periods per unit of time in the real signal `x` with one period per unit of
time. -/
noncomputable def sinusoid (x : List ℝ) (k : ℕ) (t : ℝ) : ℝ :=
  mirrorCount x.length k * (bin x k * Complex.exp (2 * Real.pi * Complex.I * k * t)).re / x.length

/-- The trigonometric polynomial of the real signal `x`, restricted to the sinusoids of less than
`limit / 2` periods. -/
noncomputable def trig (x : List ℝ) (limit : ℕ) (t : ℝ) : ℝ :=
  ∑ k ∈ (range (x.length / 2 + 1)).filter (fun k => 2 * k < limit), sinusoid x k t

/-- Sample `m` of the periodic convolution of `x` with a Gaussian of unit DC gain, as documented for
`PeriodicGaussianConvolution`. -/
noncomputable def gaussianConv (x : List ℝ) (sigma : ℝ) (m : ℤ) : ℝ :=
  ∑' n : ℤ, x.getD ((m - n) % x.length).toNat 0 *
    (Real.exp (-(n : ℝ) ^ 2 / (2 * sigma ^ 2)) / ∑' j : ℤ, Real.exp (-(j : ℝ) ^ 2 / (2 * sigma ^ 2)))

end Verif.DftSpec
