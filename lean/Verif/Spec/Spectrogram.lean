import Mathlib.Analysis.SpecialFunctions.Trigonometric.Basic
import Mathlib.Algebra.BigOperators.Group.Finset.Basic

/-!
# Short-time transforms, in textbook form
-/

namespace Verif.Spectrogram.Spec

open Real Finset

/-- Frame `j`: `length` samples from `j * step` on. -/
def frame {α : Type} (x : List α) (length step j : ℕ) : List α := (x.drop (j * step)).take length

/-- Bin `k` of the discrete Fourier transform of length `n` of the zero-padded real signal `x`, with the
kernel `exp(+2 pi i t k / n)`: real and imaginary part. -/
noncomputable def dft (n : ℕ) (x : List ℝ) (k : ℕ) : ℝ × ℝ :=
  (∑ t ∈ range n, x.getD t 0 * cos (2 * π * t * k / n), ∑ t ∈ range n, x.getD t 0 * sin (2 * π * t * k / n))

/-- Sample `t` of the real inverse transform of length `n` of the half spectrum `X[0..n/2]`: the other
half is the complex conjugate, and the imaginary parts of the first and last bin do not matter. -/
noncomputable def inverseDft (n : ℕ) (X : List (ℝ × ℝ)) (t : ℕ) : ℝ :=
  ((X.getD 0 (0, 0)).1 + (X.getD (n / 2) (0, 0)).1 * cos (π * t)
    + 2 * ∑ k ∈ range (n / 2 - 1), ((X.getD (k + 1) (0, 0)).1 * cos (2 * π * (k + 1 : ℕ) * t / n)
        + (X.getD (k + 1) (0, 0)).2 * sin (2 * π * (k + 1 : ℕ) * t / n))) / n

/-- Sample `t` of the sum of the frames, frame `j` placed at `j * step`. -/
def overlapAdd (frames : List (List ℝ)) (step t : ℕ) : ℝ :=
  ∑ j ∈ range frames.length, if j * step ≤ t then (frames.getD j []).getD (t - j * step) 0 else 0

/-- The frame to be overlap-added: inverse transform times synthesis window (`none`: a rectangle of the
transform's length). -/
noncomputable def synthesisFrame (n : ℕ) (window : Option (List ℝ)) (X : List (ℝ × ℝ)) : List ℝ :=
  match window with
  | none => (List.range n).map (inverseDft n X)
  | some w => (List.range w.length).map fun t => inverseDft n X t * w.getD t 0

end Verif.Spectrogram.Spec
