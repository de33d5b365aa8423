import Verif.Model.IirDesign
import Verif.Proof.PortableComplex
import Mathlib.RingTheory.Polynomial.Chebyshev

/-!
# Specification for the portable IIR designs

iir_design.h:105-117: a `Zpk` stands for the system `H(s) = gain · Π (s - zeros[i]) / Π (s - poles[i])`;
biquad_filter.h:26-31: a biquad for `(b0 + b1 z⁻¹ + b2 z⁻²) / (1 + a1 z⁻¹ + a2 z⁻²)`; a cascade for the product.
-/

namespace Verif.IirDesign.Spec
open Verif.IirDesign Verif.PortableComplex
open scoped ComplexConjugate

/-- The first `n` entries of an array, as complex numbers. -/
def entries (a : ℕ → CD) (n : ℕ) : List ℂ := (List.range n).map fun i => (a i).val

def zeros (f : Zpk) : List ℂ := entries f.zeros f.numZeros

def poles (f : Zpk) : List ℂ := entries f.poles f.numPoles

/-- The system that a `Zpk` stands for. -/
noncomputable def system (f : Zpk) (s : ℂ) : ℂ :=
  f.gain * ((zeros f).map (s - ·)).prod / ((poles f).map (s - ·)).prod

/-- A filter with a real impulse response: zeros and poles are closed under conjugation, with multiplicity. -/
def RealFilter (f : Zpk) : Prop :=
  ((zeros f).map conj).Perm (zeros f) ∧ ((poles f).map conj).Perm (poles f)

/-- The transfer function of a cascade of biquads. -/
noncomputable def transfer (cs : List Coeffs) (z : ℂ) : ℂ :=
  (cs.map fun c => ((c.b0 : ℂ) + c.b1 * z⁻¹ + c.b2 * z⁻¹ ^ 2) / (1 + c.a1 * z⁻¹ + c.a2 * z⁻¹ ^ 2)).prod

/-- The response at the frequency `θ` (radians per sample). -/
noncomputable def response (cs : List Coeffs) (θ : ℝ) : ℂ := transfer cs (Complex.exp (θ * Complex.I))

/-- All poles lie inside the unit circle. -/
def Stable (cs : List Coeffs) : Prop :=
  ∀ c ∈ cs, ∀ z : ℂ, z ^ 2 + c.a1 * z + c.a2 = 0 → ‖z‖ < 1

/-- A number is real, or so far from the real axis that `ZpkSort` does not take it for real
(`|imag| > 100 · DBL_EPSILON · |root|`). -/
def Clear (r : ℂ) : Prop := r.im = 0 ∨ 100 / 2 ^ 52 * ‖r‖ < |r.im|

/-- Consecutive conjugate pairs `[r*, r, …]`. -/
inductive Paired : List CD → Prop
  | nil : Paired []
  | cons (r : CD) (l : List CD) : 0 < r.imag → Paired l → Paired (PortableComplex.conj r :: r :: l)

/-- The result of `RootsSort` on an array whose roots are real or clearly not. -/
def SortedRoots (a : ℕ → CD) (n : ℕ) : Prop :=
  ∃ reals others : List CD, (List.range n).map a = reals ++ others ∧ (∀ z ∈ reals, z.imag = 0) ∧
    reals.Pairwise (fun w z => w.real ≤ z.real) ∧ Paired others ∧
    others.Pairwise (fun w z => w.real < z.real ∨ (w.real = z.real ∧ |w.imag| ≤ |z.imag|))

/-- The gain of a Butterworth lowpass with cutoff 1, as power, at the frequency `w`. -/
noncomputable def butterworth (N : ℕ) (w : ℝ) : ℝ := 1 / (1 + w ^ (2 * N))

/-- Chebyshev type 1 with the given passband ripple: `T_N` is the Chebyshev polynomial. -/
noncomputable def chebyshev1 (N : ℕ) (ripple w : ℝ) : ℝ :=
  1 / (1 + ((10 : ℝ) ^ (ripple / 10) - 1) * (Polynomial.Chebyshev.T ℝ N).eval w ^ 2)

open Classical in
/-- Chebyshev type 2 with the given stopband ripple. -/
noncomputable def chebyshev2 (N : ℕ) (ripple w : ℝ) : ℝ :=
  if w = 0 then 1
  else (Polynomial.Chebyshev.T ℝ N).eval w⁻¹ ^ 2
    / ((10 : ℝ) ^ (ripple / 10) - 1 + (Polynomial.Chebyshev.T ℝ N).eval w⁻¹ ^ 2)

/-- The frequency of the lowpass prototype that the frequency `θ` of the digital lowpass corresponds to, for a cutoff
in Hz. -/
noncomputable def lowFreq (cutoff rate θ : ℝ) : ℝ := Real.tan (θ / 2) / Real.tan (Real.pi * cutoff / rate)

/-- The same for the highpass. -/
noncomputable def highFreq (cutoff rate θ : ℝ) : ℝ := Real.tan (Real.pi * cutoff / rate) / Real.tan (θ / 2)

/-- The same for the bandpass. -/
noncomputable def passFreq (low high rate θ : ℝ) : ℝ :=
  (Real.tan (θ / 2) ^ 2 - Real.tan (Real.pi * low / rate) * Real.tan (Real.pi * high / rate))
    / (Real.tan (θ / 2) * (Real.tan (Real.pi * high / rate) - Real.tan (Real.pi * low / rate)))

/-- The same for the bandstop. -/
noncomputable def stopFreq (low high rate θ : ℝ) : ℝ := (passFreq low high rate θ)⁻¹

/-- The poles and zeros of the digital bandpass are real or clearly not. The roots `v` are those of the analog bandpass,
divided by twice the sampling rate; `(1 + v) / (1 - v)` is the bilinear transform. -/
def PassClear (f : Zpk) (low high rate : ℝ) : Prop :=
  ∀ r, r ∈ zeros f ∨ r ∈ poles f → ∀ v : ℂ,
    v ^ 2 - r * ((Real.tan (Real.pi * high / rate) : ℂ) - (Real.tan (Real.pi * low / rate) : ℂ)) * v
      + (Real.tan (Real.pi * low / rate) : ℂ) * (Real.tan (Real.pi * high / rate) : ℂ) = 0 →
    Clear ((1 + v) / (1 - v))

/-- The same for the bandstop, which also has zeros at the centre of the stopband. -/
def StopClear (f : Zpk) (low high rate : ℝ) : Prop :=
  (∀ r, r ∈ zeros f ∨ r ∈ poles f → ∀ v : ℂ,
    v ^ 2 - ((Real.tan (Real.pi * high / rate) : ℂ) - (Real.tan (Real.pi * low / rate) : ℂ)) / r * v
      + (Real.tan (Real.pi * low / rate) : ℂ) * (Real.tan (Real.pi * high / rate) : ℂ) = 0 →
    Clear ((1 + v) / (1 - v))) ∧
  ∀ v : ℂ, v ^ 2 + (Real.tan (Real.pi * low / rate) : ℂ) * (Real.tan (Real.pi * high / rate) : ℂ) = 0 →
    Clear ((1 + v) / (1 - v))

/-- What a successful design promises: `n` biquads, all stable, and the gain `power θ` (as power) at every frequency
`θ` of `S`. -/
structure Designed (cs : List Coeffs) (n : ℕ) (S : Set ℝ) (power : ℝ → ℝ) : Prop where
  count : cs.length = n
  stable : Stable cs
  power : ∀ θ ∈ S, ‖response cs θ‖ ^ 2 = power θ

/-- Equal ripple in the passband: there the gain stays between `-ripple` dB and 0 dB, and everywhere else below. -/
def PassRipple (cs : List Coeffs) (ripple : ℝ) (S : Set ℝ) (pass : ℝ → Prop) : Prop :=
  ∀ θ ∈ S, (pass θ → (10 : ℝ) ^ (-ripple / 10) ≤ ‖response cs θ‖ ^ 2 ∧ ‖response cs θ‖ ^ 2 ≤ 1) ∧
    (¬ pass θ → ‖response cs θ‖ ^ 2 < (10 : ℝ) ^ (-ripple / 10))

/-- Equal ripple in the stopband: there the gain stays at or below `-ripple` dB, and everywhere else above. -/
def StopRipple (cs : List Coeffs) (ripple : ℝ) (S : Set ℝ) (pass : ℝ → Prop) : Prop :=
  ∀ θ ∈ S, (pass θ → (10 : ℝ) ^ (-ripple / 10) < ‖response cs θ‖ ^ 2 ∧ ‖response cs θ‖ ^ 2 ≤ 1) ∧
    (¬ pass θ → ‖response cs θ‖ ^ 2 ≤ (10 : ℝ) ^ (-ripple / 10))

end Verif.IirDesign.Spec
