import Verif.Model.PortableComplex
import Mathlib.Analysis.SpecialFunctions.Pow.Real
import Mathlib.Analysis.SpecialFunctions.Trigonometric.Basic
import Mathlib.Data.List.Perm.Basic
import Mathlib.Data.List.Sort

/-!
# Model of `audio/dsp/portable/iir_design.{h,c}` and of `portable/biquad_filter.h`

`double` and `float` are modelled by the reals (no rounding, infinities or NaN), `ComplexDouble` by the model of
`portable/complex.c`. The fixed arrays `zeros` and `poles` of `Zpk` are functions from the index: entries past the
number of roots are whatever the memory holds. The elliptic designs (iir_design.c:788-968) are in Model/IirElliptic.lean. Messages
on stderr are left out.

Outcomes: `ok` (the function returned what is given), `fail` (it returned 0), `ub` (an array is written past its end).
-/

namespace Verif.IirDesign
open Verif.PortableComplex (CD)

/-- See the file comment. -/
inductive Err
  | fail
  | ub

/-- `kZpkMaxDegree`, iir_design.h:103. -/
def maxDegree : ℕ := 30

/-- `Zpk`, iir_design.h:111-117. -/
structure Zpk where
  zeros : ℕ → CD
  poles : ℕ → CD
  numZeros : ℕ
  numPoles : ℕ
  gain : ℝ

/-- `BiquadFilterCoeffs`, biquad_filter.h:32-38. -/
structure Coeffs where
  b0 : ℝ
  b1 : ℝ
  b2 : ℝ
  a1 : ℝ
  a2 : ℝ

/-- `BilinearTransform`, iir_design.c:17-21 (and butterworth.c:15-19, with swapped arguments). -/
noncomputable def bilinearTransform (s : CD) (K : ℝ) : CD :=
  let denom := (K - s.real) * (K - s.real) + s.imag * s.imag
  ⟨(K * K - s.real * s.real - s.imag * s.imag) / denom, 2 * K * s.imag / denom⟩

/-- `BilinearPrewarp`, iir_design.c:27-29 and butterworth.c:10-12. -/
noncomputable def bilinearPrewarp (hz rate : ℝ) : ℝ := 2 * rate * Real.tan (Real.pi * hz / rate)

/-- `ZpkInit`, iir_design.c:31-35: the arrays keep their contents. -/
def zpkInit (z : Zpk) : Zpk := { z with numZeros := 0, numPoles := 0, gain := 1 }

/-- The loops of `ZpkEval`, iir_design.c:40-44, 46-50: `x *= (freq - roots[i])` for `i = 0, …, n - 1`. -/
noncomputable def evalLoop (freq : CD) (roots : ℕ → CD) (n : ℕ) (x : CD) : CD :=
  (List.range n).foldl (fun x i => PortableComplex.mul x (PortableComplex.sub freq (roots i))) x

/-- `ZpkEval`, iir_design.c:37-53. -/
noncomputable def zpkEval (z : Zpk) (freq : CD) : CD :=
  PortableComplex.div (evalLoop freq z.zeros z.numZeros ⟨z.gain, 0⟩) (evalLoop freq z.poles z.numPoles ⟨1, 0⟩)

/-- `for (i = from; i < to; ++i) roots[i] = f(roots[i])`. -/
def mapRange (roots : ℕ → CD) (first last : ℕ) (f : CD → CD) : ℕ → CD :=
  fun i => if first ≤ i ∧ i < last then f (roots i) else roots i

/-- `ZpkBilinearTransform`, iir_design.c:55-105. The roots at infinity become `-1`. -/
noncomputable def zpkBilinearTransform (z : Zpk) (rate : ℝ) : Except Err Zpk :=
  if ¬ rate > 0 then .error .fail
  else
    let K := 2 * rate
    let gain := (zpkEval z ⟨K, 0⟩).real
    let zeros := mapRange z.zeros 0 z.numZeros fun r => bilinearTransform r K
    let poles := mapRange z.poles 0 z.numPoles fun r => bilinearTransform r K
    let zeros := mapRange zeros z.numZeros z.numPoles fun _ => ⟨-1, 0⟩
    let poles := mapRange poles z.numPoles z.numZeros fun _ => ⟨-1, 0⟩
    let maxNum := if z.numPoles > z.numZeros then z.numPoles else z.numZeros
    .ok { zeros := zeros, poles := poles, numZeros := maxNum, numPoles := maxNum, gain := gain }

/-- `ComplexDoubleSqrt` of `root² - center_sq`, iir_design.c:135-137, 146-148. -/
noncomputable def shiftSqrt (centerSq : ℝ) (root : CD) : CD :=
  PortableComplex.sqrt ⟨root.real * root.real - root.imag * root.imag - centerSq, 2 * root.real * root.imag⟩

/-- The loops of `ShiftFromBaseband`, iir_design.c:132-140, 143-151, in place and downwards:
`shiftLoop i` handles the indices `i - 1, …, 0`. -/
noncomputable def shiftLoop (centerSq : ℝ) : ℕ → (ℕ → CD) → ℕ → CD
  | 0, roots => roots
  | i + 1, roots =>
    let root := roots i
    let temp := shiftSqrt centerSq root
    let roots := Function.update roots (2 * i) (PortableComplex.sub root temp)
    let roots := Function.update roots (2 * i + 1) (PortableComplex.add root temp)
    shiftLoop centerSq i roots

/-- `ShiftFromBaseband`, iir_design.c:122-162: the struct afterwards and the returned flag (the struct is unchanged if
it is false). `relative_degree > 0` means more poles than zeros. -/
noncomputable def shiftFromBaseband (z : Zpk) (center : ℝ) : Zpk × Bool :=
  if 2 * z.numZeros > maxDegree ∨ 2 * z.numPoles > maxDegree then (z, false)
  else
    let relativeDegree := z.numPoles - z.numZeros
    let centerSq := center * center
    let zeros := shiftLoop centerSq z.numZeros z.zeros
    let poles := shiftLoop centerSq z.numPoles z.poles
    let numZeros := 2 * z.numZeros
    let zeros := mapRange zeros numZeros (numZeros + relativeDegree) fun _ => ⟨0, 0⟩
    ({ zeros := zeros, poles := poles, numZeros := numZeros + relativeDegree, numPoles := 2 * z.numPoles,
       gain := z.gain }, true)

/-- `ZpkAnalogPrototypeToLowpass`, iir_design.c:164-185. -/
noncomputable def toLowpass (z : Zpk) (cutoff : ℝ) : Zpk :=
  { z with
    gain := z.gain * cutoff ^ ((z.numPoles : ℤ) - z.numZeros)
    zeros := mapRange z.zeros 0 z.numZeros fun r => PortableComplex.mulReal r cutoff
    poles := mapRange z.poles 0 z.numPoles fun r => PortableComplex.mulReal r cutoff }

/-- `ZpkAnalogPrototypeToHighpass`, iir_design.c:203-239. -/
noncomputable def toHighpass (z : Zpk) (cutoff : ℝ) : Zpk :=
  let zeros := mapRange z.zeros 0 z.numZeros fun r => PortableComplex.div ⟨cutoff, 0⟩ r
  let poles := mapRange z.poles 0 z.numPoles fun r => PortableComplex.div ⟨cutoff, 0⟩ r
  { gain := (zpkEval z ⟨0, 0⟩).real
    poles := poles
    numPoles := z.numPoles
    zeros := mapRange zeros z.numZeros z.numPoles fun _ => ⟨0, 0⟩
    numZeros := if z.numZeros < z.numPoles then z.numPoles else z.numZeros }

/-- `ZpkAnalogPrototypeToBandpass`, iir_design.c:257-270. -/
noncomputable def toBandpass (z : Zpk) (low high : ℝ) : Zpk × Bool :=
  let bandwidth := high - low
  let z := toLowpass z (bandwidth / 2)
  let z := { z with gain := z.gain * 2 ^ ((z.numPoles : ℤ) - z.numZeros) }
  shiftFromBaseband z (√(low * high))

/-- `ZpkAnalogPrototypeToBandstop`, iir_design.c:292-304. -/
noncomputable def toBandstop (z : Zpk) (low high : ℝ) : Zpk × Bool :=
  let bandwidth := high - low
  let z := toHighpass z (bandwidth / 2)
  shiftFromBaseband z (√(low * high))

open Classical in
/-- `OrderComplex`, iir_design.c:330-340. -/
noncomputable def orderComplex (w z : CD) : ℤ :=
  if w.real < z.real then -1
  else if w.real > z.real then 1
  else if |w.imag| < |z.imag| then -1
  else if |w.imag| > |z.imag| then 1
  else 0

/-- `qsort` with the comparator `OrderComplex`: any function that returns its argument sorted. The order of elements
that compare equal is left open, as in C. -/
structure QSort where
  run : List CD → List CD
  perm : ∀ l, (run l).Perm l
  sorted : ∀ l, (run l).Pairwise fun w z => orderComplex w z ≤ 0

/-- `kTol`, iir_design.c:351: `100 * DBL_EPSILON`. -/
noncomputable def tol : ℝ := 100 * (1 / 2 ^ 52)

open Classical in
/-- The first loop of `RootsSort`, iir_design.c:354-364; `partitionLoop roots k i numReal` handles the indices
`i, …, i + k - 1`. -/
noncomputable def partitionLoop (roots : ℕ → CD) : ℕ → ℕ → ℕ → (ℕ → CD) × ℕ
  | 0, _, numReal => (roots, numReal)
  | k + 1, i, numReal =>
    let root := roots i
    if |root.imag| ≤ tol * PortableComplex.abs root then
      if i ≠ numReal then
        let roots := Function.update roots i (roots numReal)
        partitionLoop (Function.update roots numReal { root with imag := 0 }) k (i + 1) (numReal + 1)
      else partitionLoop roots k (i + 1) (numReal + 1)
    else partitionLoop roots k (i + 1) numReal

/-- `[root*, root, root*, root, …]`, `k` times, iir_design.c:400-403. -/
def pairs (root : CD) : ℕ → List CD
  | 0 => []
  | k + 1 => PortableComplex.conj root :: root :: pairs root k

open Classical in
/-- The second loop of `RootsSort`, iir_design.c:376-404, on the roots from `start` on; `none`: they can't be paired.
`fuel` bounds the number of runs. -/
noncomputable def pairLoop : ℕ → List CD → Option (List CD)
  | _, [] => some []
  | 0, _ :: _ => none
  | fuel + 1, r :: l =>
    let root : CD := { r with imag := |r.imag| }
    let run := (r :: l).takeWhile fun z => decide (orderComplex root z = 0)
    let numNeg := (run.filter fun z => decide (z.imag < 0)).length
    let numPos := run.length - numNeg
    if run.length = 0 ∨ numPos ≠ numNeg then none
    else
      match pairLoop fuel ((r :: l).drop run.length) with
      | none => none
      | some rest => some (pairs root numNeg ++ rest)

/-- Writing a list into an array at index 0. -/
def writeList (roots : ℕ → CD) (l : List CD) : ℕ → CD := fun i => l.getD i (roots i)

/-- `RootsSort`, iir_design.c:345-406; `none`: it returns 0. -/
noncomputable def rootsSort (q : QSort) (roots : ℕ → CD) (n : ℕ) : Option (ℕ → CD) :=
  let p := partitionLoop roots n 0 0
  let reals := q.run ((List.range p.2).map p.1)
  let others := q.run ((List.range (n - p.2)).map fun i => p.1 (p.2 + i))
  match pairLoop others.length others with
  | none => none
  | some others => some (writeList p.1 (reals ++ others))

/-- `ZpkSort`, iir_design.c:408-411. -/
noncomputable def zpkSort (q : QSort) (z : Zpk) : Option Zpk :=
  match rootsSort q z.zeros z.numZeros with
  | none => none
  | some zeros =>
    match rootsSort q z.poles z.numPoles with
    | none => none
    | some poles => some { z with zeros := zeros, poles := poles }

/-- `NextQuadraticFactor`, iir_design.c:425-442: `(c1, c2)` and the new index. -/
def nextQuadraticFactor (roots : ℕ → CD) (index : ℤ) : (ℝ × ℝ) × ℤ :=
  if index < 0 then ((0, 0), index)
  else if index = 0 then ((-(roots 0).real, 0), index - 1)
  else
    let r1 := roots index.toNat
    let r2 := roots (index - 1).toNat
    ((-r1.real - r2.real, r1.real * r2.real - r1.imag * r2.imag), index - 2)

/-- The loop of `ZpkToBiquads`, iir_design.c:470-486: `k` iterations are left. -/
def biquadsLoop (z : Zpk) : ℕ → ℤ → ℤ → List Coeffs
  | 0, _, _ => []
  | k + 1, zeroIndex, poleIndex =>
    let b := nextQuadraticFactor z.zeros zeroIndex
    let a := nextQuadraticFactor z.poles poleIndex
    let g := if k = 0 then z.gain else 1
    ⟨1 * g, b.1.1 * g, b.1.2 * g, a.1.1, a.1.2⟩ :: biquadsLoop z k b.2 a.2

/-- `ZpkToBiquads`, iir_design.c:444-489: the entries of `coeffs` that are written; their number is returned. `isNull`:
`coeffs` is `NULL`. -/
noncomputable def zpkToBiquads (q : QSort) (z : Zpk) (isNull : Bool) (maxBiquads : ℤ) : Except Err (List Coeffs) :=
  if isNull = true ∨ maxBiquads ≤ 0 then .error .fail
  else if z.numZeros = 0 ∧ z.numPoles = 0 then .ok [⟨z.gain, 0, 0, 0, 0⟩]
  else
    let degree := if z.numZeros > z.numPoles then z.numZeros else z.numPoles
    let numBiquads := (degree + 1) / 2
    if (numBiquads : ℤ) > maxBiquads then .error .fail
    else
      match zpkSort q z with
      | none => .error .fail
      | some z => .ok (biquadsLoop z numBiquads ((degree : ℤ) - 1) ((degree : ℤ) - 1))

/-- `DiscretizeToBiquads`, iir_design.c:108-114. -/
noncomputable def discretizeToBiquads (q : QSort) (z : Zpk) (rate : ℝ) (isNull : Bool) (maxBiquads : ℤ) :
    Except Err (List Coeffs) :=
  match zpkBilinearTransform z rate with
  | .error e => .error e
  | .ok z => zpkToBiquads q z isNull maxBiquads

/-- `ZpkDesignLowpass`, iir_design.c:188-201. -/
noncomputable def designLowpass (q : QSort) (z : Zpk) (cutoff rate : ℝ) (isNull : Bool) (maxBiquads : ℤ) :
    Except Err (List Coeffs) :=
  if ¬ (0 ≤ cutoff ∧ cutoff < rate / 2) then .error .fail
  else discretizeToBiquads q (toLowpass z (bilinearPrewarp cutoff rate)) rate isNull maxBiquads

/-- `ZpkDesignHighpass`, iir_design.c:242-255. -/
noncomputable def designHighpass (q : QSort) (z : Zpk) (cutoff rate : ℝ) (isNull : Bool) (maxBiquads : ℤ) :
    Except Err (List Coeffs) :=
  if ¬ (0 ≤ cutoff ∧ cutoff < rate / 2) then .error .fail
  else discretizeToBiquads q (toHighpass z (bilinearPrewarp cutoff rate)) rate isNull maxBiquads

/-- `ZpkDesignBandpass`, iir_design.c:273-290: the flag of `ZpkAnalogPrototypeToBandpass` is not looked at. -/
noncomputable def designBandpass (q : QSort) (z : Zpk) (low high rate : ℝ) (isNull : Bool) (maxBiquads : ℤ) :
    Except Err (List Coeffs) :=
  if ¬ (0 ≤ low ∧ low ≤ high ∧ high < rate / 2) then .error .fail
  else discretizeToBiquads q (toBandpass z (bilinearPrewarp low rate) (bilinearPrewarp high rate)).1 rate isNull
    maxBiquads

/-- `ZpkDesignBandstop`, iir_design.c:307-324: the flag of `ZpkAnalogPrototypeToBandstop` is not looked at. -/
noncomputable def designBandstop (q : QSort) (z : Zpk) (low high rate : ℝ) (isNull : Bool) (maxBiquads : ℤ) :
    Except Err (List Coeffs) :=
  if ¬ (0 ≤ low ∧ low ≤ high ∧ high < rate / 2) then .error .fail
  else discretizeToBiquads q (toBandstop z (bilinearPrewarp low rate) (bilinearPrewarp high rate)).1 rate isNull
    maxBiquads

/-- `(M_PI / order) * (n - even_order * 0.5)`, iir_design.c:519, 622, 723. -/
noncomputable def theta (order n : ℕ) : ℝ :=
  Real.pi / order * ((n : ℝ) - (if order % 2 = 0 then 1 else 0) * (1 / 2))

/-- The pointer `poles` (or `zeros`) of the prototypes: `*p++ = conj(root); *p++ = root` for the `n`-th root,
`n = 1, …, order / 2`. -/
noncomputable def rootPairs (order : ℕ) (root : ℝ → CD) : List CD :=
  (List.range (order / 2)).flatMap fun n => [PortableComplex.conj (root (theta order (n + 1))), root (theta order (n + 1))]

/-- `1.0 / ComplexDoubleAbs(ZpkEval(zpk, 0))`, iir_design.c:527, 631, 736. -/
noncomputable def unitDc (z : Zpk) : ℝ := 1 / PortableComplex.abs (zpkEval z ⟨0, 0⟩)

/-- `ButterworthAnalogPrototype`, iir_design.c:494-529. `mem` is the uninitialised struct. -/
noncomputable def butterworthPrototype (order : ℤ) (mem : Zpk) : Except Err Zpk :=
  if order < 1 then .error .fail
  else
    let n := order.toNat
    if n > maxDegree then .error .ub
    else
      let lone : List CD := if n % 2 = 0 then [] else [⟨-1, 0⟩]
      let z : Zpk := {
        zeros := mem.zeros
        numZeros := 0
        numPoles := n
        gain := 1
        poles := writeList mem.poles (lone ++ rootPairs n fun t => ⟨-Real.cos t, Real.sin t⟩) }
      .ok { z with gain := unitDc z }

/-- `epsilon`, iir_design.c:611, 714. -/
noncomputable def epsilon (ripple : ℝ) : ℝ := √(Real.exp (Real.log 10 / 10 * ripple) - 1)

/-- `Chebyshev1AnalogPrototype`, iir_design.c:577-636. -/
noncomputable def chebyshev1Prototype (order : ℤ) (ripple : ℝ) (mem : Zpk) : Except Err Zpk :=
  if order < 1 then .error .fail
  else
    let n := order.toNat
    if n > maxDegree then .error .ub
    else
      let eps := epsilon ripple
      let mu := Real.log ((1 + √(1 + eps * eps)) / eps) / n
      let lone : List CD := if n % 2 = 0 then [] else [⟨-Real.sinh mu, 0⟩]
      let z : Zpk := {
        zeros := mem.zeros
        numZeros := 0
        numPoles := n
        gain := 1
        poles := writeList mem.poles (lone ++ rootPairs n fun t => PortableComplex.neg (PortableComplex.sinh ⟨mu, t⟩)) }
      .ok { z with gain := if n % 2 = 0 then unitDc z / √(1 + eps * eps) else unitDc z }

/-- `Chebyshev2AnalogPrototype`, iir_design.c:688-738. -/
noncomputable def chebyshev2Prototype (order : ℤ) (ripple : ℝ) (mem : Zpk) : Except Err Zpk :=
  if order < 1 then .error .fail
  else
    let n := order.toNat
    if n > maxDegree then .error .ub
    else
      let eps := epsilon ripple
      let mu := Real.log (eps + √(1 + eps * eps)) / n
      let lone : List CD := if n % 2 = 0 then [] else [⟨-1 / Real.sinh mu, 0⟩]
      let z : Zpk := {
        numZeros := n - n % 2
        numPoles := n
        gain := 1
        zeros := writeList mem.zeros (rootPairs n fun t => ⟨0, 1 / Real.sin t⟩)
        poles := writeList mem.poles
          (lone ++ rootPairs n fun t => PortableComplex.div ⟨-1, 0⟩ (PortableComplex.sinh ⟨mu, t⟩)) }
      .ok { z with gain := unitDc z }

/-- What the four functions of a family share: `if (!Prototype(…)) return 0; return ZpkDesign…(…)`. -/
noncomputable def withPrototype (proto : Except Err Zpk) (design : Zpk → Except Err (List Coeffs)) :
    Except Err (List Coeffs) :=
  match proto with
  | .error e => .error e
  | .ok z => design z

/-- `DesignButterworthLowpass`, iir_design.c:531-539. -/
noncomputable def designButterworthLowpass (q : QSort) (mem : Zpk) (order : ℤ) (cutoff rate : ℝ) (isNull : Bool)
    (maxBiquads : ℤ) : Except Err (List Coeffs) :=
  withPrototype (butterworthPrototype order mem) fun z => designLowpass q z cutoff rate isNull maxBiquads

/-- `DesignButterworthHighpass`, iir_design.c:541-550. -/
noncomputable def designButterworthHighpass (q : QSort) (mem : Zpk) (order : ℤ) (cutoff rate : ℝ) (isNull : Bool)
    (maxBiquads : ℤ) : Except Err (List Coeffs) :=
  withPrototype (butterworthPrototype order mem) fun z => designHighpass q z cutoff rate isNull maxBiquads

/-- `DesignButterworthBandpass`, iir_design.c:552-562. -/
noncomputable def designButterworthBandpass (q : QSort) (mem : Zpk) (order : ℤ) (low high rate : ℝ) (isNull : Bool)
    (maxBiquads : ℤ) : Except Err (List Coeffs) :=
  withPrototype (butterworthPrototype order mem) fun z => designBandpass q z low high rate isNull maxBiquads

/-- `DesignButterworthBandstop`, iir_design.c:564-574. -/
noncomputable def designButterworthBandstop (q : QSort) (mem : Zpk) (order : ℤ) (low high rate : ℝ) (isNull : Bool)
    (maxBiquads : ℤ) : Except Err (List Coeffs) :=
  withPrototype (butterworthPrototype order mem) fun z => designBandstop q z low high rate isNull maxBiquads

/-- `DesignChebyshev1Lowpass`, iir_design.c:638-647. -/
noncomputable def designChebyshev1Lowpass (q : QSort) (mem : Zpk) (order : ℤ) (ripple cutoff rate : ℝ) (isNull : Bool)
    (maxBiquads : ℤ) : Except Err (List Coeffs) :=
  withPrototype (chebyshev1Prototype order ripple mem) fun z => designLowpass q z cutoff rate isNull maxBiquads

/-- `DesignChebyshev1Highpass`, iir_design.c:649-659. -/
noncomputable def designChebyshev1Highpass (q : QSort) (mem : Zpk) (order : ℤ) (ripple cutoff rate : ℝ) (isNull : Bool)
    (maxBiquads : ℤ) : Except Err (List Coeffs) :=
  withPrototype (chebyshev1Prototype order ripple mem) fun z => designHighpass q z cutoff rate isNull maxBiquads

/-- `DesignChebyshev1Bandpass`, iir_design.c:661-672. -/
noncomputable def designChebyshev1Bandpass (q : QSort) (mem : Zpk) (order : ℤ) (ripple low high rate : ℝ)
    (isNull : Bool) (maxBiquads : ℤ) : Except Err (List Coeffs) :=
  withPrototype (chebyshev1Prototype order ripple mem) fun z => designBandpass q z low high rate isNull maxBiquads

/-- `DesignChebyshev1Bandstop`, iir_design.c:674-685. -/
noncomputable def designChebyshev1Bandstop (q : QSort) (mem : Zpk) (order : ℤ) (ripple low high rate : ℝ)
    (isNull : Bool) (maxBiquads : ℤ) : Except Err (List Coeffs) :=
  withPrototype (chebyshev1Prototype order ripple mem) fun z => designBandstop q z low high rate isNull maxBiquads

/-- `DesignChebyshev2Lowpass`, iir_design.c:740-749. -/
noncomputable def designChebyshev2Lowpass (q : QSort) (mem : Zpk) (order : ℤ) (ripple cutoff rate : ℝ) (isNull : Bool)
    (maxBiquads : ℤ) : Except Err (List Coeffs) :=
  withPrototype (chebyshev2Prototype order ripple mem) fun z => designLowpass q z cutoff rate isNull maxBiquads

/-- `DesignChebyshev2Highpass`, iir_design.c:751-760. -/
noncomputable def designChebyshev2Highpass (q : QSort) (mem : Zpk) (order : ℤ) (ripple cutoff rate : ℝ) (isNull : Bool)
    (maxBiquads : ℤ) : Except Err (List Coeffs) :=
  withPrototype (chebyshev2Prototype order ripple mem) fun z => designHighpass q z cutoff rate isNull maxBiquads

/-- `DesignChebyshev2Bandpass`, iir_design.c:762-773. -/
noncomputable def designChebyshev2Bandpass (q : QSort) (mem : Zpk) (order : ℤ) (ripple low high rate : ℝ)
    (isNull : Bool) (maxBiquads : ℤ) : Except Err (List Coeffs) :=
  withPrototype (chebyshev2Prototype order ripple mem) fun z => designBandpass q z low high rate isNull maxBiquads

/-- `DesignChebyshev2Bandstop`, iir_design.c:775-786. -/
noncomputable def designChebyshev2Bandstop (q : QSort) (mem : Zpk) (order : ℤ) (ripple low high rate : ℝ)
    (isNull : Bool) (maxBiquads : ℤ) : Except Err (List Coeffs) :=
  withPrototype (chebyshev2Prototype order ripple mem) fun z => designBandstop q z low high rate isNull maxBiquads

/-- `BiquadFilterProcessOneSample`, biquad_filter.h:57-69: the new state `z` and the output. -/
def processOneSample (c : Coeffs) (z : ℝ × ℝ) (x : ℝ) : (ℝ × ℝ) × ℝ :=
  let next := x - c.a1 * z.1 - c.a2 * z.2
  ((next, z.1), c.b0 * next + c.b1 * z.1 + c.b2 * z.2)

end Verif.IirDesign
