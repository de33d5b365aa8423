import Mathlib.Analysis.SpecialFunctions.Complex.CircleAddChar
import Mathlib.Algebra.BigOperators.Intervals

/-!
# Model of audio/dsp/kiss_fft.{h,cc}

Single-precision complex numbers are modelled by `ℂ`; rounding is not modelled. The Kiss FFT library is
not part of the repository: `kiss_fft` and `kiss_fftr` are modelled by what they are documented to
compute, and `kiss_fft_next_fast_size` is a parameter. What is modelled in detail is the code of the
repository around it: Bluestein's algorithm, the real transform through a complex one, the selection of
the implementation, checks and normalization. Failed `CHECK`s are `none`.
-/

namespace Verif.Fft
open Finset

/-! ### The external library -/

/-- `kiss_fft` with a forward configuration (external library, by its documentation). -/
noncomputable def kissForward (n : ℕ) (x : List ℂ) : List ℂ :=
  (List.range n).map fun k : ℕ =>
    ∑ j ∈ range n, x.getD j 0 * Complex.exp (-(2 * Real.pi * Complex.I * k * j / n))

/-- `kiss_fft` with an inverse configuration (external library, by its documentation). -/
noncomputable def kissInverse (n : ℕ) (x : List ℂ) : List ℂ :=
  (List.range n).map fun k : ℕ =>
    ∑ j ∈ range n, x.getD j 0 * Complex.exp (2 * Real.pi * Complex.I * k * j / n)

/-- `kiss_fftr` (external library): the nonnegative frequencies of the transform of a real signal of even
size. -/
noncomputable def kissRealForward (n : ℕ) (x : List ℝ) : List ℂ :=
  (List.range (n / 2 + 1)).map fun k : ℕ =>
    ∑ j ∈ range n, (x.getD j 0 : ℂ) * Complex.exp (-(2 * Real.pi * Complex.I * k * j / n))

/-- `kiss_fftri` (external library): the inverse for even sizes. Only the real parts of the first and of
the last element are used. -/
noncomputable def kissRealInverse (n : ℕ) (x : List ℂ) : List ℝ :=
  (List.range n).map fun m : ℕ =>
    (x.getD 0 0).re + (-1) ^ m * (x.getD (n / 2) 0).re +
      ∑ k ∈ range (n / 2 - 1),
        2 * (x.getD (k + 1) 0 * Complex.exp (2 * Real.pi * Complex.I * (k + 1 : ℕ) * m / n)).re

/-! ### kiss_fft.cc -/

/-- `while ((size % p) == 0) size /= p`, kiss_fft.cc:67-75, for positive sizes (for zero the loop of the
code does not end; the constructors check the size). -/
def strip (p n : ℕ) : ℕ :=
  if h : n ≠ 0 ∧ 1 < p ∧ n % p = 0 then strip p (n / p) else n
termination_by n
decreasing_by exact Nat.div_lt_self (by omega) h.2.1

/-- `IsFastKissFFTSize`, kiss_fft.cc:66-85. -/
def isFastSize (n : ℕ) : Bool := strip 5 (strip 3 (strip 2 n)) ≤ 25

/-- `ReflectSpectrum`, kiss_fft.cc:97-103. -/
noncomputable def reflectSpectrum (n : ℕ) (x : List ℂ) : Option (List ℂ) :=
  if n / 2 + 1 ≠ x.length then none
  else
    let start := x.length - (if n % 2 = 0 then 2 else 1)
    some ((List.range start).foldl (fun (l : List ℂ) j =>
      l ++ [starRingEnd ℂ (l.getD (start - j) 0)]) x)

/-- One step of the recursive chirp, kiss_fft.cc:253-254 and 320-321: `phasor *= rotator;
rotator *= rotator_step`. -/
noncomputable def chirpStep (step : ℂ) (p : ℂ × ℂ) : ℂ × ℂ := (p.1 * p.2, p.2 * step)

/-- The value of `phasor` after `i` iterations for `rotator = polar(1, θ)`, kiss_fft.cc:247-249 and
314-316. -/
noncomputable def chirp (θ : ℝ) (i : ℕ) : ℂ :=
  let rotator : ℂ := ⟨1 * Real.cos θ, 1 * Real.sin θ⟩
  ((chirpStep (rotator * rotator))^[i] (1, rotator)).1

/-- `BluesteinComplexFFTTransformerImpl`, kiss_fft.cc:327-330. -/
structure Bluestein where
  size : ℕ
  bSpectrum : List ℂ
  twiddle : List ℂ
  /-- `backend_.GetSize()` -/
  fftSize : ℕ

/-- The vector `b` of the constructor, kiss_fft.cc:243-258. -/
noncomputable def bluesteinB (size fftSize : ℕ) : List ℂ :=
  (List.range (size - 1)).foldl (fun (b : List ℂ) j =>
      let i := j + 1
      let b := b.set i (chirp (Real.pi / size) i)
      b.set (fftSize - i) (b.getD i 0))
    ((List.replicate fftSize 0).set 0 1)

/-- The constructor, kiss_fft.cc:239-262; `next` is `kiss_fft_next_fast_size`. -/
noncomputable def Bluestein.make (next : ℕ → ℕ) (size : ℕ) : Bluestein :=
  let fftSize := next (2 * size - 1)
  let b := bluesteinB size fftSize
  { size := size
    bSpectrum := kissForward fftSize b
    twiddle := (List.range size).map fun i : ℕ =>
      if i = 0 then 1 / (fftSize : ℂ) else starRingEnd ℂ (b.getD i 0) / (fftSize : ℂ)
    fftSize := fftSize }

/-- `MultiplyByChirp`, kiss_fft.cc:312-325. -/
noncomputable def multiplyByChirp (size : ℕ) (x : List ℂ) (sign : ℝ) : List ℂ :=
  (List.range size).map fun i : ℕ =>
    if i = 0 then x.getD 0 0 else x.getD i 0 * chirp (sign * Real.pi / size) i

/-- `a.resize(n, 0.0)` for a growing size. -/
def padTo (n : ℕ) (x : List ℂ) : List ℂ := x ++ List.replicate (n - x.length) 0

/-- `BluesteinComplexFFTTransformerImpl::ForwardTransform`, kiss_fft.cc:268-288. -/
noncomputable def Bluestein.forward (t : Bluestein) (x : List ℂ) : List ℂ :=
  let a := padTo t.fftSize (multiplyByChirp t.size x (-1))
  let spectrum := List.zipWith (· * ·) (kissForward t.fftSize a) t.bSpectrum
  let convolution := kissInverse t.fftSize spectrum
  (List.range t.size).map fun i : ℕ => t.twiddle.getD i 0 * convolution.getD i 0

/-- `BluesteinComplexFFTTransformerImpl::InverseTransform`, kiss_fft.cc:290-308. -/
noncomputable def Bluestein.inverse (t : Bluestein) (x : List ℂ) : List ℂ :=
  let a := padTo t.fftSize (multiplyByChirp t.size x 1)
  let s := kissForward t.fftSize a
  let spectrum := (List.range t.fftSize).map fun i : ℕ =>
    if i = 0 then s.getD 0 0 * starRingEnd ℂ (t.bSpectrum.getD 0 0)
    else s.getD i 0 * starRingEnd ℂ (t.bSpectrum.getD (t.fftSize - i) 0)
  let convolution := kissInverse t.fftSize spectrum
  (List.range t.size).map fun i : ℕ => starRingEnd ℂ (t.twiddle.getD i 0) * convolution.getD i 0

/-- The implementations of `ComplexFFTTransformerImpl`. -/
inductive ComplexImpl
  | kiss (size : ℕ)
  | bluestein (t : Bluestein)

/-- `GetSize`, kiss_fft.cc:120-122 and 264-266. -/
def ComplexImpl.size : ComplexImpl → ℕ
  | .kiss n => n
  | .bluestein t => t.size

/-- `ForwardTransform` of the implementations. -/
noncomputable def ComplexImpl.forward : ComplexImpl → List ℂ → List ℂ
  | .kiss n, x => kissForward n x
  | .bluestein t, x => t.forward x

/-- `InverseTransform` of the implementations. -/
noncomputable def ComplexImpl.inverse : ComplexImpl → List ℂ → List ℂ
  | .kiss n, x => kissInverse n x
  | .bluestein t, x => t.inverse x

/-- `ComplexFFTTransformer`, kiss_fft.h:110-113. -/
structure ComplexFft where
  impl : ComplexImpl
  normalization : Bool

/-- The constructor, kiss_fft.cc:335-345. -/
noncomputable def ComplexFft.make (next : ℕ → ℕ) (size : ℤ) (normalization : Bool) : Option ComplexFft :=
  if ¬ size > 0 then none
  else if !isFastSize size.toNat then some ⟨.bluestein (.make next size.toNat), normalization⟩
  else some ⟨.kiss size.toNat, normalization⟩

/-- `ForwardTransform`, kiss_fft.cc:360-374. -/
noncomputable def ComplexFft.forward (t : ComplexFft) (x : List ℂ) : Option (List ℂ) :=
  if x.length ≠ t.impl.size then none else some (t.impl.forward x)

/-- `InverseTransform`, kiss_fft.cc:376-394. -/
noncomputable def ComplexFft.inverse (t : ComplexFft) (x : List ℂ) : Option (List ℂ) :=
  if x.length ≠ t.impl.size then none
  else
    let y := t.impl.inverse x
    some (if t.normalization then y.map fun v => v * (1 / (t.impl.size : ℂ)) else y)

/-- The implementations of `RealFFTTransformerImpl`. -/
inductive RealImpl
  | kiss (size : ℕ)
  | complex (backend : ComplexImpl)

/-- `GetSize`, kiss_fft.cc:160-162 and 191-193. -/
def RealImpl.size : RealImpl → ℕ
  | .kiss n => n
  | .complex b => b.size

/-- `ForwardTransform`, kiss_fft.cc:164-168 and 195-203. -/
noncomputable def RealImpl.forward : RealImpl → List ℝ → List ℂ
  | .kiss n, x => kissRealForward n x
  | .complex b, x => (b.forward (x.map Complex.ofReal)).take (b.size / 2 + 1)

/-- `InverseTransform`, kiss_fft.cc:170-174 and 205-215. -/
noncomputable def RealImpl.inverse : RealImpl → List ℂ → Option (List ℝ)
  | .kiss n, x => some (kissRealInverse n x)
  | .complex b, x =>
    match reflectSpectrum b.size (x.take (b.size / 2 + 1)) with
    | none => none
    | some r => some ((b.inverse r).map Complex.re)

/-- `RealFFTTransformer`, kiss_fft.h:179-182. -/
structure RealFft where
  impl : RealImpl
  normalization : Bool

/-- `GetTransformedSize`, kiss_fft.h:136-138. -/
def RealFft.transformedSize (t : RealFft) : ℕ := t.impl.size / 2 + 1

/-- The constructor, kiss_fft.cc:396-412. -/
noncomputable def RealFft.make (next : ℕ → ℕ) (size : ℤ) (normalization : Bool) : Option RealFft :=
  if ¬ size > 0 then none
  else if !isFastSize size.toNat then
    some ⟨.complex (.bluestein (.make next size.toNat)), normalization⟩
  else if size.toNat % 2 = 0 then some ⟨.kiss size.toNat, normalization⟩
  else some ⟨.complex (.kiss size.toNat), normalization⟩

/-- `ForwardTransform`, kiss_fft.cc:427-440. -/
noncomputable def RealFft.forward (t : RealFft) (x : List ℝ) : Option (List ℂ) :=
  if x.length ≠ t.impl.size then none else some (t.impl.forward x)

/-- `InverseTransform`, kiss_fft.cc:442-459. -/
noncomputable def RealFft.inverse (t : RealFft) (x : List ℂ) : Option (List ℝ) :=
  if x.length ≠ t.transformedSize then none
  else
    match t.impl.inverse x with
    | none => none
    | some y => some (if t.normalization then y.map fun v => v * (1 / (t.impl.size : ℝ)) else y)

end Verif.Fft
