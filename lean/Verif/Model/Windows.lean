import Mathlib.Analysis.SpecialFunctions.Trigonometric.Basic

/-!
# Model of `audio/dsp/window_functions.{h,cc}`

Over the reals. `KaiserWindow::Eval` calls the Bessel function `BesselI0`, which is a parameter.
-/

namespace Verif.Windows

/-- The virtual interface used by the sampling functions: `radius()`, `zero_at_endpoints()`,
`Eval()`, window_functions.h:99-115. -/
structure Window where
  radius : ℝ
  zeroAtEndpoints : Bool
  eval : ℝ → ℝ

/-- The loop `for (n = 0; n < count; ++n) samples[half + n] = window.Eval(x0 + dx * n)`,
window_functions.cc:50-52, 68-70. -/
def fill (w : Window) (half : ℕ) (x0 dx : ℝ) (count : ℕ) (samples : List ℝ) : List ℝ :=
  (List.range count).foldl (fun s n => s.set (half + n) (w.eval (x0 + dx * n))) samples

/-- `std::reverse_copy(begin + first, begin + last, begin + dest)` as the obvious loop, in place:
`samples[dest + i] = samples[last - 1 - i]` for increasing `i`, window_functions.cc:54-55, 73-74. -/
def reverseCopy (first last dest : ℕ) (samples : List ℝ) : List ℝ :=
  (List.range (last - first)).foldl
    (fun s i => s.set (dest + i) (s.getD (last - 1 - i) 0)) samples

/-- `ComputeSymmetricSamples`, window_functions.cc:38-56; `none` is the CHECK failure. -/
noncomputable def symmetricSamples (w : Window) (numSamples : ℕ) : Option (List ℝ) :=
  if numSamples < 2 then none
  else
    let samples := List.replicate numSamples 0
    let half := numSamples / 2
    let dx := (2 * w.radius) / (numSamples + (if w.zeroAtEndpoints then 1 else -1))
    let x0 := if numSamples % 2 = 0 then dx / 2 else 0
    let samples := fill w half x0 dx (numSamples - half) samples
    some (reverseCopy half numSamples 0 samples)

/-- `ComputePeriodicSamples`, window_functions.cc:58-75. -/
noncomputable def periodicSamples (w : Window) (numSamples : ℕ) : Option (List ℝ) :=
  if numSamples < 2 then none
  else
    let samples := List.replicate numSamples 0
    let half := (numSamples + 1) / 2
    let dx := (2 * w.radius) / numSamples
    let x0 := if numSamples % 2 = 1 then dx / 2 else 0
    let samples := fill w half x0 dx (numSamples - half) samples
    let samples := samples.set 0 (if w.zeroAtEndpoints then 0 else w.eval w.radius)
    some (reverseCopy half numSamples 1 samples)

/-- The standard's precondition of `std::reverse_copy` ([alg.reverse]): the ranges
`[first, last)` and `[dest, dest + (last - first))` do not overlap. -/
def DisjointRanges (first last dest : ℕ) : Prop :=
  ∀ i j, first ≤ i → i < last → dest ≤ j → j < dest + (last - first) → i ≠ j

/-! ### The windows -/

/-- `Sinc`, window_functions.cc:192-194. -/
noncomputable def sinc (x : ℝ) : ℝ := if |x| < 1 / 10 ^ 8 then 1 else Real.sin x / x

/-- `RectangularWindow::Eval`, window_functions.cc:201-204. -/
noncomputable def rectangular (r x : ℝ) : ℝ := if |x| < (1 + 1 / 10 ^ 12) * r then 1 else 0

/-- `RectangularWindow::EvalFourierTransform`, window_functions.cc:206-208. -/
noncomputable def rectangularFt (r f : ℝ) : ℝ := 2 * r * sinc (2 * Real.pi * f * r)

/-- `CosineWindow::Eval`, window_functions.cc:210-213. -/
noncomputable def cosine (r x : ℝ) : ℝ :=
  let y := |x / r|
  if y < 1 then Real.cos ((Real.pi / 2) * y) else 0

/-- `CosineWindow::EvalFourierTransform`, window_functions.cc:215-224. -/
noncomputable def cosineFt (r f : ℝ) : ℝ :=
  let g := 2 * Real.pi * f * r
  let denom := Real.pi * Real.pi - 4 * g * g
  if 1 / 10 ^ 8 ≤ |denom| then r * 4 * Real.pi * Real.cos g / denom else r

/-- `HammingWindow::Eval`, window_functions.cc:228-238; coefficients window_functions.h:204. -/
noncomputable def hamming (r x : ℝ) : ℝ :=
  let y := |x / r|
  if y < 1 + 1 / 10 ^ 12 then 54 / 100 + 46 / 100 * Real.cos (Real.pi * min 1 y) else 0

/-- `HammingWindow::EvalFourierTransform`, window_functions.cc:240-250. -/
noncomputable def hammingFt (r f : ℝ) : ℝ :=
  let g := 2 * f * r
  let g2 := g * g
  let denom := 1 - g2
  if |denom| < 1 / 10 ^ 8 then r * (46 / 100)
  else r * 2 * sinc (Real.pi * g) * (54 / 100 + g2 * (46 / 100) / denom)

/-- `HannWindow::Eval`, window_functions.cc:252-255. -/
noncomputable def hann (r x : ℝ) : ℝ :=
  let y := |x / r|
  if y < 1 then 1 / 2 * (1 + Real.cos (Real.pi * y)) else 0

/-- `HannWindow::EvalFourierTransform`, window_functions.cc:257-266. -/
noncomputable def hannFt (r f : ℝ) : ℝ :=
  let g := 2 * f * r
  let denom := 1 - g * g
  if 1 / 10 ^ 8 ≤ |denom| then r * sinc (Real.pi * g) / denom else r * (1 / 2)

/-- `KaiserWindow::Eval`, window_functions.cc:275-285, with `denom_ = BesselI0(beta)` from the
constructor, :268-273. -/
noncomputable def kaiser (besselI0 : ℝ → ℝ) (beta r x : ℝ) : ℝ :=
  let y := |x / r|
  if y < 1 + 1 / 10 ^ 12 then besselI0 (beta * √(max 0 (1 - y * y))) / besselI0 beta else 0

/-- Coefficients of `NuttallWindow`, window_functions.h:288. -/
noncomputable def nuttallA (i : Fin 4) : ℝ :=
  ![3635819 / 10 ^ 7, 4891775 / 10 ^ 7, 1365995 / 10 ^ 7, 106411 / 10 ^ 7] i

/-- `NuttallWindow::Eval`, window_functions.cc:296-307. -/
noncomputable def nuttall (r x : ℝ) : ℝ :=
  let y := |x / r|
  if y < 1 + 1 / 10 ^ 12 then
    (let z := Real.pi * min 1 y
     nuttallA 0 + nuttallA 1 * Real.cos z + nuttallA 2 * Real.cos (2 * z) +
       nuttallA 3 * Real.cos (3 * z))
  else 0

/-- `NuttallWindow::EvalFourierTransform`, window_functions.cc:309-326. -/
noncomputable def nuttallFt (r f : ℝ) : ℝ :=
  let g := 2 * f * r
  let g2 := g * g
  let denom1 := 1 - g2
  let denom2 := 4 - g2
  let denom3 := 9 - g2
  if |denom1| < 1 / 10 ^ 8 then r * nuttallA 1
  else if |denom2| < 1 / 10 ^ 8 then r * nuttallA 2
  else if |denom3| < 1 / 10 ^ 8 then r * nuttallA 3
  else r * 2 * sinc (Real.pi * g) * (nuttallA 0 +
    g2 * (nuttallA 1 / denom1 - nuttallA 2 / denom2 + nuttallA 3 / denom3))

/-- `PlanckTaperWindow::Eval`, window_functions.cc:335-345, for `epsilon > 0` (with `epsilon = 0` the
division by zero gives an infinity or NaN, not modelled). -/
noncomputable def planckTaper (epsilon r x : ℝ) : ℝ :=
  let y := (r - |x|) / epsilon
  if 1 - 1 / 10 ^ 12 ≤ y then 1
  else if 1 / 10 ^ 12 < y then 1 / (1 + Real.exp (1 / y - 1 / (1 - y)))
  else 0

/-- The checks of `QuarticWindow`'s constructor, window_functions.cc:347-355. -/
def quarticOk (c2 c4 : ℝ) : Prop := -2 ≤ c2 ∧ c2 ≤ 0 ∧ -(1 + c2) ≤ c4 ∧ c4 ≤ -c2 / 2

/-- `QuarticWindow::Eval`, window_functions.cc:357-364. -/
noncomputable def quartic (c2 c4 r x : ℝ) : ℝ :=
  let y := x / r
  let y2 := y * y
  if y2 < 1 + 1 / 10 ^ 12 then 1 + y2 * (c2 + y2 * c4) else 0

/-- `QuarticWindow::EvalFourierTransform`, window_functions.cc:366-378. -/
noncomputable def quarticFt (c2 c4 r f : ℝ) : ℝ :=
  let g := 2 * Real.pi * f * r
  if 1 / 10 ^ 8 ≤ |g| then
    (let g2 := g * g
     r * 2 * ((2 * c2 + 4 * c4 - 24 * c4 / g2) * Real.cos g / g2 +
       (1 + c2 + c4 + (-2 * c2 - 12 * c4 + 24 * c4 / g2) / g2) * sinc g))
  else r * 2 * (1 + c2 / 3 + c4 / 5)

/-- `MemoizeSamples` and the generic `WindowFunction::EvalFourierTransform`,
window_functions.cc:98-109, 133-145. `memo` is the content of `memoized_samples_`. -/
noncomputable def memoize (w : Window) (memo : List ℝ) : List ℝ :=
  if memo = [] then (List.range 512).map fun n : ℕ => w.eval (w.radius / 512 * ((n : ℝ) + 1))
  else memo

/-- The loop of the generic `EvalFourierTransform`, window_functions.cc:139-142. -/
noncomputable def ftLoop (rotator : ℂ) : List ℝ → ℂ → ℝ → ℝ
  | [], _, sum => sum
  | sample :: rest, phasor, sum =>
    ftLoop rotator rest (phasor * rotator) (sum + phasor.re * sample)

/-- The generic `WindowFunction::EvalFourierTransform`, window_functions.cc:133-145: the result and
the new memoized samples. -/
noncomputable def genericFt (w : Window) (memo : List ℝ) (f : ℝ) : ℝ × List ℝ :=
  let memo := memoize w memo
  let dx := w.radius / memo.length
  let rotator := Complex.exp (2 * Real.pi * f * dx * Complex.I)
  (ftLoop rotator memo (rotator * 2) 1 * dx, memo)

end Verif.Windows
