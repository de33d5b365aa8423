import Verif.Model.Elliptic
import Verif.Model.IirDesign

/-!
# Model of the elliptic designs of `audio/dsp/portable/iir_design.c`

iir_design.c:788-968, over the reals (rounding is not modelled). `EllipticK`, `EllipticF` and `JacobiAmplitude` are a
parameter `Ops`, so that the designs can be studied with the implementations of elliptic_fun.c (`Ops.code`) and with the
functions they are documented to compute.
-/

namespace Verif.IirElliptic
open Verif.PortableComplex Verif.IirDesign

/-- `EllipticK`, `EllipticF` and `JacobiAmplitude`, portable/elliptic_fun.h; `none` is an infinite or undefined value. -/
structure Ops where
  K : ℝ → Option ℝ
  F : CD → ℝ → CD
  am : CD → ℝ → CD

/-- The implementations in elliptic_fun.c:60-151. -/
noncomputable def Ops.code : Ops :=
  ⟨Verif.Elliptic.ellipticK, Verif.PortableElliptic.ellipticF, Verif.PortableElliptic.jacobiAmplitude⟩

/-- `JacobiCD`, iir_design.c:800-810. -/
noncomputable def jacobiCD (o : Ops) (u : CD) (m : ℝ) : CD :=
  let phi := o.am u m
  PortableComplex.div (PortableComplex.cos phi)
    (PortableComplex.sqrt (PortableComplex.sub ⟨1, 0⟩ (PortableComplex.mulReal (PortableComplex.square (PortableComplex.sin phi)) m)))

/-- `JacobiSN`, iir_design.c:812-815. -/
noncomputable def jacobiSN (o : Ops) (u : CD) (m : ℝ) : CD := PortableComplex.sin (o.am u m)

/-- `InverseJacobiSN`, iir_design.c:817-820. -/
noncomputable def inverseJacobiSN (o : Ops) (w : CD) (m : ℝ) : CD := o.F (PortableComplex.asin w) m

/-- How a design can end without coefficients: it returns 0, it writes behind the end of an array, or the roots of the
prototype are NaN. (What a design makes of a prototype with NaN is not modelled.) -/
inductive Err
  | fail
  | ub
  | nan

/-- `kp` of `SolveEllipticDegreeEquation`, iir_design.c:828-841, from `k1p` and `elliptic_k1p`. -/
noncomputable def degreeKp (o : Ops) (n : ℕ) (k1p K1p : ℝ) : ℝ :=
  k1p ^ n * ((List.range (n / 2)).foldl (fun kp (i : ℕ) => kp * (jacobiSN o ⟨(2 * i + 1) * K1p / n, 0⟩ (k1p * k1p)).real) 1) ^ 4

/-- The conjugate pairs that the loop of `EllipticAnalogPrototype` writes, iir_design.c:887-903. -/
noncomputable def pairs (n : ℕ) (root : ℕ → CD) : List CD :=
  (List.range (n / 2)).flatMap fun i => [PortableComplex.conj (root i), root i]

/-- `zero`, iir_design.c:888-893. -/
noncomputable def zeroAt (o : Ops) (n : ℕ) (k Kk : ℝ) (i : ℕ) : CD :=
  ⟨0, 1 / (k * (jacobiCD o ⟨(2 * i + 1) * Kk / n, 0⟩ (k * k)).real)⟩

/-- `pole`, iir_design.c:888, 898-900. -/
noncomputable def poleAt (o : Ops) (n : ℕ) (k Kk v0 : ℝ) (i : ℕ) : CD :=
  PortableComplex.mul ⟨0, 1⟩ (jacobiCD o ⟨(2 * i + 1) * Kk / n, -v0 * Kk⟩ (k * k))

/-- The poles, zeros and gain, iir_design.c:857-859, 876-908, from `epsilon_p`, `k`, `elliptic_k` and `v0`. -/
noncomputable def assemble (o : Ops) (n : ℕ) (epsP k Kk v0 : ℝ) (mem : Zpk) : Zpk :=
  let lone : List CD := if n % 2 = 1 then [⟨-(jacobiSN o ⟨0, v0 * Kk⟩ (k * k)).imag, 0⟩] else []
  let z : Zpk := {
    numZeros := n - n % 2
    numPoles := n
    gain := 1
    zeros := writeList mem.zeros (pairs n (zeroAt o n k Kk))
    poles := writeList mem.poles (lone ++ pairs n (poleAt o n k Kk v0)) }
  { z with gain := if n % 2 = 0 then unitDc z / √(1 + epsP * epsP) else unitDc z }

/-- `EllipticAnalogPrototype`, iir_design.c:850-911. The ripples are not checked: if they are not positive `epsilon_p` or
`epsilon_s` is NaN or zero, and if `k1 > 1` then `k1p` is the root of a negative number. -/
noncomputable def prototype (o : Ops) (order : ℤ) (passRipple stopRipple : ℝ) (mem : Zpk) : Except Err Zpk :=
  if order < 1 then .error .fail
  else
    let n := order.toNat
    if n > maxDegree then .error .ub
    else if ¬ 0 < passRipple ∨ ¬ 0 < stopRipple then .error .nan
    else
      let epsP := epsilon passRipple
      let epsS := epsilon stopRipple
      let k1 := epsP / epsS
      if 1 < k1 * k1 then .error .nan
      else
        let k1p := √(1 - k1 * k1)
        match o.K (k1 * k1), o.K (k1p * k1p) with
        | some K1, some K1p =>
          let kp := degreeKp o n k1p K1p
          if 1 < kp * kp then .error .nan
          else
            let k := √(1 - kp * kp)
            match o.K (k * k) with
            | some Kk =>
              .ok (assemble o n epsP k Kk ((inverseJacobiSN o ⟨0, 1 / epsP⟩ (k1 * k1)).imag / (n * K1)) mem)
            | none => .error .nan
        | _, _ => .error .nan

/-- What the four functions share: `if (!Prototype(…)) return 0; return ZpkDesign…(…)`. -/
noncomputable def withPrototype (proto : Except Err Zpk) (design : Zpk → Except IirDesign.Err (List Coeffs)) :
    Except Err (List Coeffs) :=
  match proto with
  | .error e => .error e
  | .ok z =>
    match design z with
    | .error .fail => .error .fail
    | .error .ub => .error .ub
    | .ok cs => .ok cs

/-- `DesignEllipticLowpass`, iir_design.c:913-924. -/
noncomputable def designLowpass (o : Ops) (q : QSort) (mem : Zpk) (order : ℤ) (passRipple stopRipple cutoff rate : ℝ)
    (isNull : Bool) (maxBiquads : ℤ) : Except Err (List Coeffs) :=
  withPrototype (prototype o order passRipple stopRipple mem) fun z =>
    IirDesign.designLowpass q z cutoff rate isNull maxBiquads

/-- `DesignEllipticHighpass`, iir_design.c:926-938. -/
noncomputable def designHighpass (o : Ops) (q : QSort) (mem : Zpk) (order : ℤ) (passRipple stopRipple cutoff rate : ℝ)
    (isNull : Bool) (maxBiquads : ℤ) : Except Err (List Coeffs) :=
  withPrototype (prototype o order passRipple stopRipple mem) fun z =>
    IirDesign.designHighpass q z cutoff rate isNull maxBiquads

/-- `DesignEllipticBandpass`, iir_design.c:940-953. -/
noncomputable def designBandpass (o : Ops) (q : QSort) (mem : Zpk) (order : ℤ) (passRipple stopRipple low high rate : ℝ)
    (isNull : Bool) (maxBiquads : ℤ) : Except Err (List Coeffs) :=
  withPrototype (prototype o order passRipple stopRipple mem) fun z =>
    IirDesign.designBandpass q z low high rate isNull maxBiquads

/-- `DesignEllipticBandstop`, iir_design.c:955-968. -/
noncomputable def designBandstop (o : Ops) (q : QSort) (mem : Zpk) (order : ℤ) (passRipple stopRipple low high rate : ℝ)
    (isNull : Bool) (maxBiquads : ℤ) : Except Err (List Coeffs) :=
  withPrototype (prototype o order passRipple stopRipple mem) fun z =>
    IirDesign.designBandstop q z low high rate isNull maxBiquads

end Verif.IirElliptic
