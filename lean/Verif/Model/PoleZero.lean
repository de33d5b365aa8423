import Verif.Model.FilterDesign
import Mathlib.Analysis.SpecialFunctions.Pow.Complex
import Mathlib.Analysis.SpecialFunctions.Arsinh
import Mathlib.Analysis.Complex.Trigonometric

/-!
# Model of the designs with poles and zeros

`audio/linear_filters/filter_poles_and_zeros.{h,cc}`, the pole-zero part of `discretization.cc`,
`biquad_filter_design_pole_zero.cc` (Butterworth and Chebyshev prototypes; the elliptic prototype is in
`Verif.Model.EllipticDesign`) and `crossover.cc`, over the reals and complex numbers (rounding is not modelled). `none`: a
`CHECK` fails or `Convolve` has undefined behaviour.
-/

namespace Verif.PoleZero
open Verif.BiquadCascade Verif.FilterDesign

/-- Data members of `FilterPolesAndZeros`, filter_poles_and_zeros.h:98-107. -/
structure PZ where
  loneZeros : List ℝ
  lonePoles : List ℝ
  pairedZeros : List ℂ
  pairedPoles : List ℂ
  gain : ℝ

/-- Constructor, filter_poles_and_zeros.h:45-46. -/
def PZ.empty : PZ := ⟨[], [], [], [], 1⟩

/-- `Eval`, filter_poles_and_zeros.cc:95-111. -/
noncomputable def PZ.eval (f : PZ) (s : ℂ) : ℂ :=
  let r : ℂ := f.gain
  let r := f.lonePoles.foldl (fun (r : ℂ) (p : ℝ) => r / ((p : ℂ) - s)) r
  let r := f.pairedPoles.foldl (fun r p => r / ((p - s) * ((starRingEnd ℂ) p - s))) r
  let r := f.loneZeros.foldl (fun (r : ℂ) (z : ℝ) => r * ((z : ℂ) - s)) r
  f.pairedZeros.foldl (fun r z => r * ((z - s) * ((starRingEnd ℂ) z - s))) r

/-- `GetPolesDegree`, filter_poles_and_zeros.cc:113-115. -/
def PZ.polesDegree (f : PZ) : ℕ := f.lonePoles.length + 2 * f.pairedPoles.length

/-- `GetZerosDegree`, filter_poles_and_zeros.cc:117-119. -/
def PZ.zerosDegree (f : PZ) : ℕ := f.loneZeros.length + 2 * f.pairedZeros.length

/-- `RelativeDegree`, filter_poles_and_zeros.cc:121-123. -/
def PZ.relativeDegree (f : PZ) : ℤ := (f.polesDegree : ℤ) - f.zerosDegree

/-- `CoefficientsFromRootPair`, filter_poles_and_zeros.cc:36-47 (the second overload is called with a number
and its conjugate, so that its `DCHECK` holds). -/
def coefficientsLone (r1 r2 : ℝ) : List ℝ := [1, -r1 - r2, r1 * r2]

/-- See `coefficientsLone`. -/
def coefficientsPaired (r1 r2 : ℂ) : List ℝ := [1, -(r1 + r2).re, (r1 * r2).re]

/-- `GetNextBiquadCoefficients`, filter_poles_and_zeros.cc:53-76: the coefficients and the roots that are left
(the code counts the used ones). -/
noncomputable def getNext : List ℂ → List ℝ → List ℝ × List ℂ × List ℝ
  | p :: ps, lone => (coefficientsPaired p ((starRingEnd ℂ) p), ps, lone)
  | [], r1 :: r2 :: lone => (coefficientsLone r1 r2, [], lone)
  | [], [r1] => (coefficientsLone r1 0, [], [])
  | [], [] => ([1, 0, 0], [], [])

/-- The default cascade: one identity stage, biquad_filter_coefficients.h:61-62, 158-159. -/
def identityCascade : List (Stage ℝ) := [⟨[1, 0, 0], [1, 0, 0]⟩]

/-- Loop of `GetCoefficients`, filter_poles_and_zeros.cc:141-148, at most `fuel` tests of the condition. -/
noncomputable def coefficientsLoop (ε : ℝ) : ℕ → List ℂ → List ℝ → List ℂ → List ℝ → List (Stage ℝ) →
    Option (List (Stage ℝ))
  | 0, _, _, _, _, _ => none
  | fuel + 1, pz, lz, pp, lp, cs =>
    if pz.length + lz.length + pp.length + lp.length = 0 then some cs
    else
      let b := getNext pz lz
      let a := getNext pp lp
      match appendBiquad ε cs ⟨b.1, a.1⟩ with
      | none => none
      | some cs => coefficientsLoop ε fuel b.2.1 b.2.2 a.2.1 a.2.2 cs

/-- `GetCoefficients`, filter_poles_and_zeros.cc:125-151; `ε` is the threshold `1e-10` of `Simplify`. -/
noncomputable def PZ.getCoefficients (ε : ℝ) (f : PZ) : Option (List (Stage ℝ)) :=
  if f.loneZeros = [] ∧ f.pairedZeros = [] ∧ f.pairedPoles = [] ∧ f.lonePoles = [] then some identityCascade
  else
    match coefficientsLoop ε (f.pairedZeros.length + f.loneZeros.length + f.pairedPoles.length +
        f.lonePoles.length + 1) f.pairedZeros f.loneZeros f.pairedPoles f.lonePoles identityCascade with
    | none => none
    | some cs => some (adjustGain f.gain cs)

/-- `BilinearTransform` of poles and zeros, discretization.cc:76-106, with the constant `K`. -/
noncomputable def PZ.bilinear (f : PZ) (K : ℝ) : PZ where
  lonePoles := f.lonePoles.map fun p => (K + p) / (K - p)
  pairedPoles := f.pairedPoles.map fun p => ((K : ℂ) + p) / (K - p)
  loneZeros := (f.loneZeros.map fun z => (K + z) / (K - z)) ++ List.replicate f.relativeDegree.toNat (-1)
  pairedZeros := f.pairedZeros.map fun z => ((K : ℂ) + z) / (K - z)
  gain := 1 * ‖f.eval K‖

/-- `MapFrequency`, biquad_filter_design_pole_zero.cc:41-58. -/
noncomputable def PZ.mapFrequency (f : PZ) (g : ℂ → ℂ) : PZ where
  lonePoles := f.lonePoles.map fun p : ℝ => (g p).re
  pairedPoles := f.pairedPoles.map g
  loneZeros := f.loneZeros.map fun z : ℝ => (g z).re
  pairedZeros := f.pairedZeros.map g
  gain := f.gain

/-- `std::sqrt` of a complex number: the principal square root. -/
noncomputable def csqrt (w : ℂ) : ℂ := w ^ (1 / 2 : ℂ)

/-- `ShiftRootsFromBaseband`, biquad_filter_design_pole_zero.cc:62-88. -/
noncomputable def PZ.shift (f : PZ) (center : ℝ) : PZ where
  lonePoles := []
  pairedPoles := (f.lonePoles.map fun p : ℝ => (p : ℂ) + csqrt ((p * p - center * center : ℝ) : ℂ)) ++
    f.pairedPoles.flatMap fun p => [p + csqrt (p * p - (center * center : ℝ)),
      p - csqrt (p * p - (center * center : ℝ))]
  loneZeros := []
  pairedZeros := (f.loneZeros.map fun z : ℝ => (z : ℂ) + csqrt ((z * z - center * center : ℝ) : ℂ)) ++
    f.pairedZeros.flatMap fun z => [z + csqrt (z * z - (center * center : ℝ)),
      z - csqrt (z * z - (center * center : ℝ))]
  gain := f.gain

/-- The digital poles and zeros of `LowpassCoefficients`, biquad_filter_design_pole_zero.cc:98-112. The last
call uses the match frequency 0. -/
noncomputable def lowpassPZ (proto : PZ) (rate corner : ℝ) : PZ :=
  let w := prewarp corner rate
  let m := proto.mapFrequency fun s => (w : ℂ) * s
  PZ.bilinear { m with gain := m.gain * w ^ proto.relativeDegree } (computeK 0 rate)

/-- The digital poles and zeros of `HighpassCoefficients`, biquad_filter_design_pole_zero.cc:121-137. -/
noncomputable def highpassPZ (proto : PZ) (rate corner : ℝ) : PZ :=
  let w := prewarp corner rate
  let m := proto.mapFrequency fun s => (w : ℂ) / s
  PZ.bilinear { m with
    loneZeros := m.loneZeros ++ List.replicate m.relativeDegree.toNat 0
    gain := ‖proto.eval 0‖ } (computeK 0 rate)

/-- The digital poles and zeros of `BandpassCoefficients`, biquad_filter_design_pole_zero.cc:148-175. -/
noncomputable def bandpassPZ (proto : PZ) (rate low high : ℝ) : PZ :=
  let w1 := prewarp low rate
  let w2 := prewarp high rate
  let m := proto.mapFrequency fun s => ((w2 - w1 : ℝ) : ℂ) * s / 2
  let degree := m.relativeDegree
  let m := m.shift (√(w2 * w1))
  PZ.bilinear { m with
    loneZeros := m.loneZeros ++ List.replicate degree.toNat 0
    gain := m.gain * (w2 - w1) ^ degree } (computeK 0 rate)

/-- The digital poles and zeros of `BandstopCoefficients`, biquad_filter_design_pole_zero.cc:186-212. -/
noncomputable def bandstopPZ (proto : PZ) (rate low high : ℝ) : PZ :=
  let w1 := prewarp low rate
  let w2 := prewarp high rate
  let m := proto.mapFrequency fun s => ((w2 - w1 : ℝ) : ℂ) / s / 2
  let degree := m.relativeDegree
  let m := m.shift (√(w2 * w1))
  PZ.bilinear { m with
    pairedZeros := m.pairedZeros ++ List.replicate degree.toNat ⟨0, √(w2 * w1)⟩
    gain := ‖proto.eval 0‖ } (computeK 0 rate)

open Classical in
/-- `LowpassCoefficients`, biquad_filter_design_pole_zero.cc:92-113. -/
noncomputable def lowpassCoefficients (ε : ℝ) (proto : PZ) (rate corner : ℝ) : Option (List (Stage ℝ)) :=
  if 0 < rate ∧ 0 ≤ corner ∧ corner < rate / 2 then (lowpassPZ proto rate corner).getCoefficients ε else none

open Classical in
/-- `HighpassCoefficients`, biquad_filter_design_pole_zero.cc:115-138. -/
noncomputable def highpassCoefficients (ε : ℝ) (proto : PZ) (rate corner : ℝ) : Option (List (Stage ℝ)) :=
  if 0 < rate ∧ 0 ≤ corner ∧ corner < rate / 2 then (highpassPZ proto rate corner).getCoefficients ε else none

open Classical in
/-- `BandpassCoefficients`, biquad_filter_design_pole_zero.cc:140-176. -/
noncomputable def bandpassCoefficients (ε : ℝ) (proto : PZ) (rate low high : ℝ) : Option (List (Stage ℝ)) :=
  if 0 < rate ∧ 0 ≤ low ∧ low < high ∧ high < rate / 2 then (bandpassPZ proto rate low high).getCoefficients ε
  else none

open Classical in
/-- `BandstopCoefficients`, biquad_filter_design_pole_zero.cc:178-213. -/
noncomputable def bandstopCoefficients (ε : ℝ) (proto : PZ) (rate low high : ℝ) : Option (List (Stage ℝ)) :=
  if 0 < rate ∧ 0 ≤ low ∧ low < high ∧ high < rate / 2 then (bandstopPZ proto rate low high).getCoefficients ε
  else none

/-- The prototype with its gain normalised, `SetGain(1.0 / std::abs(analog_prototype.Eval(0.0)))`,
biquad_filter_design_pole_zero.cc:233, 267, 293 (the gain was 1 before). -/
noncomputable def PZ.normalizeGain (f : PZ) : PZ := { f with gain := 1 / ‖f.eval 0‖ }

/-- A pole of `ButterworthFilterDesign`, biquad_filter_design_pole_zero.cc:224-227: `std::polar(1.0, angle)`. -/
noncomputable def butterworthPole (order i : ℕ) : ℂ :=
  let t := Real.pi - Real.pi / order * ((i : ℝ) + 1 - (if order % 2 = 1 then 0 else 1) * (1 / 2))
  ⟨Real.cos t, Real.sin t⟩

/-- `ButterworthFilterDesign::GetAnalogPrototype`, biquad_filter_design_pole_zero.cc:216-235, for an order of at
least 1 (smaller ones fail the `CHECK`). -/
noncomputable def butterworth (order : ℕ) : PZ :=
  PZ.normalizeGain
    { PZ.empty with
      pairedPoles := (List.range (order / 2)).map fun i => butterworthPole order i
      lonePoles := if order % 2 = 1 then [-1] else [] }

/-- The values of `i` in the loops biquad_filter_design_pole_zero.cc:258, 282: `order - 1, order - 3, …`. -/
def chebyshevIndices (order : ℕ) : List ℕ := (List.range ((order + 1) / 2)).map fun j => order - 1 - 2 * j

/-- `epsilon` of `ChebyshevType1FilterDesign`, biquad_filter_design_pole_zero.cc:255. -/
noncomputable def chebyshev1Epsilon (ripple : ℝ) : ℝ := √((10 : ℝ) ^ (ripple / 10) - 1)

/-- `mu`, biquad_filter_design_pole_zero.cc:256, 281. -/
noncomputable def chebyshevMu (epsilon : ℝ) (order : ℕ) : ℝ := Real.arsinh (1 / epsilon) / order

/-- `ChebyshevType1FilterDesign::GetAnalogPrototype`, biquad_filter_design_pole_zero.cc:237-273, for an order of
at least 1 and a positive ripple (others fail a `CHECK`). -/
noncomputable def chebyshev1 (order : ℕ) (ripple : ℝ) : PZ :=
  let epsilon := chebyshev1Epsilon ripple
  let mu := chebyshevMu epsilon order
  let pole : ℕ → ℂ := fun i => -Complex.sinh ⟨mu, -(Real.pi * i / (2 * order))⟩
  let f := PZ.normalizeGain
    { PZ.empty with
      pairedPoles := ((chebyshevIndices order).filter (0 < ·)).map pole
      lonePoles := ((chebyshevIndices order).filter (· = 0)).map fun i : ℕ => (pole i).re }
  if order % 2 = 0 then { f with gain := f.gain / √(1 + epsilon ^ 2) } else f

/-- `epsilon` of `ChebyshevType2FilterDesign`, biquad_filter_design_pole_zero.cc:279-280. -/
noncomputable def chebyshev2Epsilon (ripple : ℝ) : ℝ := 1 / √((10 : ℝ) ^ (ripple / 10) - 1)

/-- `ChebyshevType2FilterDesign::GetAnalogPrototype`, biquad_filter_design_pole_zero.cc:275-295. -/
noncomputable def chebyshev2 (order : ℕ) (ripple : ℝ) : PZ :=
  let epsilon := chebyshev2Epsilon ripple
  let mu := chebyshevMu epsilon order
  let pole : ℕ → ℂ := fun i => -1 / Complex.sinh ⟨mu, Real.pi * i / (2 * order)⟩
  PZ.normalizeGain
    { PZ.empty with
      pairedZeros := ((chebyshevIndices order).filter (0 < ·)).map fun i : ℕ =>
        ⟨0, 1 / Real.sin (Real.pi * i / (2 * order))⟩
      pairedPoles := ((chebyshevIndices order).filter (0 < ·)).map pole
      lonePoles := ((chebyshevIndices order).filter (· = 0)).map fun i : ℕ => (pole i).re }

/-- The loop of `MakeLinkwitzRiley`, crossover.cc:38-42, for one of the two cascades: every `i` below the initial
size appends a copy of the stage that is at position `i` at that time. `none` also stands for an index out of
range. -/
noncomputable def doubleLoop (ε : ℝ) : ℕ → ℕ → List (Stage ℝ) → Option (List (Stage ℝ))
  | 0, _, cs => some cs
  | n + 1, i, cs =>
    match cs[i]? with
    | none => none
    | some s =>
      match appendBiquad ε cs s with
      | none => none
      | some cs => doubleLoop ε n (i + 1) cs

/-- `CrossoverType`, crossover.h:31-38. -/
inductive CrossoverType
  | butterworth
  | linkwitzRiley

open Classical in
/-- `CrossoverFilterDesign`, crossover.cc:23-72: lowpass and highpass coefficients. -/
noncomputable def crossover (ε : ℝ) (type : CrossoverType) (order : ℕ) (hz rate : ℝ) :
    Option (List (Stage ℝ) × List (Stage ℝ)) :=
  if 0 < order ∧ 0 < hz ∧ hz < rate / 2 then
    let made : Option (List (Stage ℝ) × List (Stage ℝ)) :=
      match type with
      | .butterworth => do
        let lo ← lowpassCoefficients ε (butterworth order) rate hz
        let hi ← highpassCoefficients ε (butterworth order) rate hz
        return (lo, hi)
      | .linkwitzRiley =>
        if order % 2 ≠ 0 then none
        else do
          let lo ← lowpassCoefficients ε (butterworth (order / 2)) rate hz
          let hi ← highpassCoefficients ε (butterworth (order / 2)) rate hz
          let lo' ← doubleLoop ε lo.length 0 lo
          let hi' ← doubleLoop ε lo.length 0 hi
          return (lo', hi')
    match made with
    | none => none
    | some (lo, hi) => some (lo, if ((order : ℤ) - 2) % 4 = 0 then adjustGain (-1) hi else hi)
  else none

end Verif.PoleZero
