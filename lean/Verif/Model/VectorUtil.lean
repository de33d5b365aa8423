import Mathlib.Analysis.SpecialFunctions.Complex.Arg
import Mathlib.Analysis.SpecialFunctions.Sqrt
import Mathlib.Analysis.RCLike.Basic
import Verif.Model.Stream

/-!
# Model of audio/dsp/signal_vector_util.h

Containers are lists. Floating-point values are modelled by a field, by the reals or, where the code is
generic in real and complex elements, by `RCLike`; rounding is not modelled. `CHECK` failures, access
outside a container and division of zero by zero are distinct outcomes. `DCHECK`s are compiled out, as
in the optimized build.
-/

namespace Verif.VectorUtil

/-- What can go wrong. -/
inductive Err
  /-- a `CHECK` fails -/
  | check
  /-- access outside a container, or dereference of `end()` -/
  | oob
  /-- the result is not a number -/
  | nan
deriving DecidableEq

/-! ### Statistics -/

section Stats
variable {K : Type} [RCLike K]

/-- `ComputeSecondOrderStats`, signal_vector_util.h:113-136: mean and variance in one pass. -/
noncomputable def secondOrderStats (x : List K) : Except Err (K × ℝ) :=
  let n : ℝ := x.length
  if ¬ 0 < n then .error .check
  else
    let sums := x.foldl (fun (s : K × ℝ) v => (s.1 + v, s.2 + RCLike.normSq v)) (0, 0)
    let mean : K := sums.1 / (n : K)
    .ok (mean, sums.2 / n - RCLike.normSq mean)

/-- `SumSquaredMagnitudes`, signal_vector_util.h:138-148. -/
noncomputable def sumSquaredMagnitudes (x : List K) : ℝ :=
  x.foldl (fun s v => s + (RCLike.re v * RCLike.re v + RCLike.im v * RCLike.im v)) 0

/-- `RootMeanSquareError`, signal_vector_util.h:279-300; `0 / 0` for empty vectors. -/
noncomputable def rootMeanSquareError (x y : List K) : Except Err ℝ :=
  if x.length ≠ y.length then .error .check
  else
    let s := (x.zip y).foldl (fun s (p : K × K) =>
      s + ((RCLike.re p.1 - RCLike.re p.2) * (RCLike.re p.1 - RCLike.re p.2) +
        (RCLike.im p.1 - RCLike.im p.2) * (RCLike.im p.1 - RCLike.im p.2))) 0
    if x.length = 0 then .error .nan else .ok (√(s / x.length))

/-- `ZScoreNormalize`, signal_vector_util.h:331-353. A zero denominator only occurs with `0 / 0`. -/
noncomputable def zScoreNormalize (floor : ℝ) (x : List K) : Except Err (List K) :=
  if x.isEmpty then .ok x
  else
    match secondOrderStats x with
    | .error e => .error e
    | .ok (mean, variance) =>
      let denom : ℝ := floor + √variance
      if denom = 0 then .error .nan else .ok (x.map fun v => (v - mean) / (denom : K))

end Stats

/-- `std::max_element`: the first of the largest elements, with its index. -/
def maxElement {K : Type} [LinearOrder K] : List K → Option (ℕ × K)
  | [] => none
  | x :: xs =>
    match maxElement xs with
    | none => some (0, x)
    | some (i, m) => if x < m then some (i + 1, m) else some (0, x)

/-- `ComputeMaxMagnitude` for real elements, signal_vector_util.h:153-171;
`std::min_element` is the value found by `std::max_element` in the reversed order. -/
def maxMagnitude {K : Type} [LinearOrder K] [AddGroup K] (x : List K) : K :=
  match maxElement x, maxElement (K := Kᵒᵈ) (x.map OrderDual.toDual) with
  | some (_, hi), some (_, lo) => max (-(OrderDual.ofDual lo)) hi
  | _, _ => 0

/-- `ComputeMaxMagnitude` for complex elements, signal_vector_util.h:172-184. -/
noncomputable def maxMagnitudeComplex (x : List ℂ) : ℝ :=
  √(x.foldl (fun m v => max m (v.re * v.re + v.im * v.im)) 0)

/-- `FindMaxIndexAndValue`, signal_vector_util.h:306-314. -/
def findMaxIndexAndValue {K : Type} [LinearOrder K] (x : List K) : Except Err (ℕ × K) :=
  match maxElement x with
  | none => .error .check
  | some r => .ok r

/-- `ElementwiseMax`, signal_vector_util.h:318-327. -/
def elementwiseMax {K : Type} [LinearOrder K] (other target : List K) : Except Err (List K) :=
  if other.length ≠ target.length then .error .check
  else .ok (List.zipWith (fun o t => if o > t then o else t) other target)

/-- `MultiplyComplexVectorByConjugate`, signal_vector_util.h:225-244; the sizes are only compared by a
`DCHECK`, so a shorter `other` is read out of bounds. -/
noncomputable def multiplyByConjugate (other target : List ℂ) : Except Err (List ℂ) :=
  if other.length < target.length then .error .oob
  else .ok (List.zipWith (fun c1 c2 : ℂ =>
    (⟨c1.re * c2.re + c1.im * c2.im, c2.re * c1.im - c1.re * c2.im⟩ : ℂ)) target other)

/-! ### One-pole smoothers -/

section Smooth
variable {K : Type} [Field K]

/-- `ForwardSmoothVector`, signal_vector_util.h:380-390: new state and new content. -/
def forwardSmooth (c : K) (s : K) (x : List K) : K × List K :=
  Stream.runSamples (fun s v => let s' := s + c * (v - s); (s', s')) s x

/-- `BackwardSmoothVector`, signal_vector_util.h:392-402. -/
def backwardSmooth (c : K) (s : K) (x : List K) : K × List K :=
  let r := forwardSmooth c s x.reverse
  (r.1, r.2.reverse)

/-- One iteration of the loop of `SmoothVector`, signal_vector_util.h:411-416. -/
def smoothPass (c : K) (p : K × List K) : K × List K :=
  let f := forwardSmooth c (p.1 * (1 - c)) p.2
  backwardSmooth c (f.1 * (1 - c)) f.2

/-- `SmoothVector`, signal_vector_util.h:406-417. The first element is dereferenced unconditionally. -/
def smoothVector (c : K) (x : List K) : Except Err (List K) :=
  match x with
  | [] => .error .oob
  | x0 :: xs => .ok (smoothPass c (smoothPass c (x0, x0 :: xs))).2

/-- `BlockDC`, signal_vector_util.h:485-495; `scale = 0` gives an infinite coefficient. -/
def blockDC (scale : K) (x : List K) [DecidableEq K] : Except Err (List K) :=
  if scale = 0 then .error .nan
  else .ok (Stream.runSamples (fun s v => let s' := s + 1 / scale * (v - s); (s', v - s')) 0 x).2

end Smooth

/-- `SmootherCoefficientFromScale`, signal_vector_util.h:369-374. -/
noncomputable def smootherCoefficient (scale : ℝ) : ℝ :=
  if scale ≤ 0.01 then 1
  else
    let t := scale * scale
    √((1 + 2 / t) * (1 + 2 / t) - 1) - 2 / t

section Hermitian
variable {K : Type} [RCLike K]

/-- One iteration of the loop of `HermitianSmoothVector`, signal_vector_util.h:458-474. `extra` is the
number of reflected values; the first state is obtained by reading the elements `extra, …, 1`. -/
noncomputable def hermitianPass (c : ℝ) (extra : ℕ) (p : List K × List K) : List K × List K :=
  let average := (forwardSmooth (c : K) 0 ((p.1.drop 1).take extra).reverse).1
  let f := forwardSmooth (c : K) (starRingEnd K average) p.1
  let fe := forwardSmooth (c : K) f.1 p.2
  let be := backwardSmooth (c : K) 0 fe.2
  let b := backwardSmooth (c : K) be.1 f.2
  (b.2, be.2)

/-- Replace the first and the last element by their real parts, signal_vector_util.h:477-478. -/
noncomputable def realEnds (x : List K) : List K :=
  let x := x.modify 0 fun v => (RCLike.re v : K)
  x.modify (x.length - 1) fun v => (RCLike.re v : K)

/-- `HermitianSmoothVector`, signal_vector_util.h:437-479. Conversion of a huge scale to `int` is not
modelled (the count is capped anyway). -/
noncomputable def hermitianSmooth (c scale : ℝ) (x : List K) : Except Err (List K) :=
  if ¬ 0 ≤ scale then .error .check
  else if ¬ 0 ≤ c then .error .check
  else if x.length < 2 then .ok x
  else
    let extra := min ⌊3 * (scale + 1)⌋.toNat (x.length - 1)
    let extraVals := ((x.reverse.drop 1).take extra).map (starRingEnd K)
    .ok (realEnds (hermitianPass c extra (hermitianPass c extra (x, extraVals))).1)

end Hermitian

/-! ### Quadratic interpolation -/

/-- `4 * std::numeric_limits<float>::epsilon()`, signal_vector_util.h:513. -/
def tolerance {K : Type} [Field K] : K := 4 * (1 / 2 ^ 23)

/-- `QuadraticInterpolateMax`, signal_vector_util.h:503-541: the value and `*max_location`. -/
def quadraticInterpolateMax {K : Type} [Field K] [LinearOrder K] (x : List K) (x0 : ℤ) :
    Except Err (K × K) :=
  if ¬ 0 ≤ x0 then .error .check
  else if ¬ x0 < x.length then .error .check
  else if x0 = 0 ∨ x0 = x.length - 1 then .ok (x.getD x0.toNat 0, x0)
  else
    let l := x.getD (x0 - 1).toNat 0
    let m := x.getD x0.toNat 0
    let r := x.getD (x0 + 1).toNat 0
    let a := (l - 2 * m + r) / 2
    let b := (r - l) / 2
    if |b| < tolerance then .ok (m, x0)
    else if a < 0 then
      let delta := max (-1) (min (-b / (2 * a)) 1)
      .ok (m + (b + a * delta) * delta, x0 + delta)
    else
      let x1 := x0 + (if b < 0 then -1 else 1)
      .ok (x.getD x1.toNat 0, x1)

/-! ### Sinusoids -/

/-- `ComputePhasorVector`, signal_vector_util.h:659-673. -/
noncomputable def phasorVector (step : ℝ) (n : ℕ) : List ℂ :=
  let rotator := Complex.exp ⟨0, step⟩
  (Stream.runSamples (fun (p : ℂ) (_ : Unit) => (p * rotator, p)) ⟨1, 0⟩ (List.replicate n ())).2

/-- `ComputeSineWaveVector`, signal_vector_util.h:677-697. -/
noncomputable def sineWaveVector (frequency rate phase : ℝ) (n : ℕ) : List ℝ :=
  let step := 2 * Real.pi * frequency / rate
  let rotator := Complex.exp ⟨0, step⟩
  (Stream.runSamples (fun (p : ℂ) (_ : Unit) => (p * rotator, p.im)) (Complex.exp ⟨0, phase⟩)
    (List.replicate n ())).2

/-- `std::polar`. -/
noncomputable def polar (r θ : ℝ) : ℂ := ⟨r * Real.cos θ, r * Real.sin θ⟩

/-- `GenerateSine`, signal_generator.h:36-57, for floating-point sample types. -/
noncomputable def generateSine (n : ℕ) (rate frequency amplitude phase : ℝ) : List ℝ :=
  let shift := 2 * Real.pi * frequency / rate
  let rotator := polar 1 shift
  (Stream.runSamples (fun (p : ℂ) (_ : Unit) => (p * rotator, p.im)) (polar amplitude phase)
    (List.replicate n ())).2

/-- `GenerateSineEigen`, signal_generator.cc:23-32; `LinSpaced(n, 0, n - 1)` is `0, …, n - 1`. -/
noncomputable def generateSineEigen (n : ℕ) (rate frequency amplitude phase : ℝ) : List ℝ :=
  let step := 2 * Real.pi * frequency / rate
  (List.range n).map fun i : ℕ => Real.sin (i * step - phase) * amplitude

/-! ### Circular average -/

/-- The conversion of the sum of the phasors to the result, signal_vector_util.h:756-764 and 788-793. -/
noncomputable def averageOfSum (sum : ℂ) (period : ℝ) : ℝ :=
  let phase := Complex.arg sum / (2 * Real.pi)
  (if phase < 0 then phase + 1 else phase) * period

/-- `ComputeCircularAverage`, signal_vector_util.h:744-765. -/
noncomputable def circularAverage (values : List ℝ) (period : ℝ) : Except Err ℝ :=
  if values.isEmpty then .error .check
  else if ¬ period > 0 then .error .check
  else
    let factor := 2 * Real.pi / period
    .ok (averageOfSum (values.foldl (fun s v => s + polar 1 (factor * v)) 0) period)

/-- `ComputeWeightedCircularAverage`, signal_vector_util.h:769-794. -/
noncomputable def weightedCircularAverage (values weights : List ℝ) (period : ℝ) : Except Err ℝ :=
  if values.isEmpty then .error .check
  else if values.length ≠ weights.length then .error .check
  else if ¬ period > 0 then .error .check
  else
    let factor := 2 * Real.pi / period
    .ok (averageOfSum ((values.zip weights).foldl (fun s p => s + polar p.2 (factor * p.1)) 0) period)

/-! ### FIRFilter -/

section Fir
variable {K : Type} [Ring K]

/-- The inner loop of `Filter` for one sample, signal_vector_util.h:867-870:
`state_[k - 1] = sample * h[k] + state_[k]`, and the last state is `sample * h.back()`. `taps` is the
impulse response without its first element, of the same size as the state. -/
def firShift (sample : K) : List K → List K → List K
  | _ :: t0 :: ts, h0 :: hs => (sample * h0 + t0) :: firShift sample (t0 :: ts) hs
  | [_], h0 :: _ => [sample * h0]
  | _, _ => []

/-- `FIRFilter`, signal_vector_util.h:879-881. -/
structure FirFilter (K : Type) where
  h : List K
  state : List K

/-- The constructor and `Reset`, signal_vector_util.h:806-826. -/
def FirFilter.make (h : List K) : Except Err (FirFilter K) :=
  if h.isEmpty then .error .check else .ok ⟨h, List.replicate (h.length - 1) 0⟩

/-- One iteration of the loops of `Filter`, signal_vector_util.h:863-876. The state has one element less
than the impulse response (private member set by `Reset` only), so all accesses are in range. -/
def FirFilter.step (f : FirFilter K) (x : K) : FirFilter K × K :=
  match f.h, f.state with
  | h0 :: hs, s0 :: ss => (⟨f.h, firShift x (s0 :: ss) hs⟩, x * h0 + s0)
  | h0 :: _, [] => (f, x * h0)
  | [], _ => (f, 0)

/-- `Filter`, signal_vector_util.h:859-877. -/
def FirFilter.filter (f : FirFilter K) (x : List K) : FirFilter K × List K :=
  Stream.runSamples FirFilter.step f x

end Fir

/-! ### FIR design -/

/-- `DesignFirLowpassFilter`, signal_vector_util.h:891-909. A zero sample rate passes the checks with a
zero band edge and gives `0 / 0`. -/
noncomputable def designLowpass (high rate : ℝ) (window : List ℝ) : Except Err (List ℝ) :=
  if ¬ high ≥ 0 then .error .check
  else if ¬ high ≤ rate / 2 then .error .check
  else if ¬ window.length % 2 = 1 then .error .check
  else if rate = 0 then .error .nan
  else
    let radius := (window.length - 1) / 2
    let factor := 2 * high / rate
    let value := fun i : ℕ => Real.sin (Real.pi * factor * i) / (Real.pi * i)
    let filter := (List.range radius).foldl (fun (f : List ℝ) i =>
        (f.set (radius + (i + 1)) (value (i + 1))).set (radius - (i + 1)) (value (i + 1)))
      ((List.replicate window.length 0).set radius factor)
    .ok (List.zipWith (· * ·) filter window)

/-- `DesignFirHighpassFilter`, signal_vector_util.h:915-926. -/
noncomputable def designHighpass (low rate : ℝ) (window : List ℝ) : Except Err (List ℝ) :=
  match designLowpass low rate window with
  | .error e => .error e
  | .ok f =>
    let radius := (window.length - 1) / 2
    .ok ((f.map fun v => v * -1).modify radius fun v => v + window.getD radius 0)

/-- `DesignFirBandpassFilter`, signal_vector_util.h:932-946. -/
noncomputable def designBandpass (low high rate : ℝ) (window : List ℝ) : Except Err (List ℝ) :=
  if ¬ low ≤ high then .error .check
  else
    match designLowpass low rate window, designLowpass high rate window with
    | .error e, _ => .error e
    | _, .error e => .error e
    | .ok f1, .ok f2 => .ok (List.zipWith (fun b a => b - a) f2 f1)

end Verif.VectorUtil
