import Verif.Model.Elliptic

/-!
# Model of `EllipticFilterDesign::GetAnalogPrototype`

biquad_filter_design_pole_zero.cc:297-365, over the reals and complex numbers (rounding is not modelled). The three
functions of elliptic_functions.h that it calls are a parameter `Ops`, so that the prototype can be studied with the
implementations of elliptic_functions.cc (`Ops.code`) and with the functions they are documented to compute.
-/

namespace Verif.EllipticDesign
open Verif.PoleZero

/-- `EllipticK`, `EllipticF` and `JacobiAmplitude`, elliptic_functions.h:48-69; `none` is an infinite or undefined
value. -/
structure Ops where
  K : ℝ → Option ℝ
  F : ℂ → ℝ → ℂ
  am : ℂ → ℝ → ℂ

/-- The implementations in elliptic_functions.cc:69-136. -/
noncomputable def Ops.code : Ops := ⟨Verif.Elliptic.ellipticK, Verif.Elliptic.ellipticF, Verif.Elliptic.jacobiAmplitude⟩

/-- `JacobiCD`, biquad_filter_design_pole_zero.cc:299-303. -/
noncomputable def jacobiCD (o : Ops) (u : ℂ) (m : ℝ) : ℂ :=
  let phi := o.am u m
  Complex.cos phi / csqrt (1 - m * Complex.sin phi ^ 2)

/-- `JacobiSN`, biquad_filter_design_pole_zero.cc:305-308. -/
noncomputable def jacobiSN (o : Ops) (u : ℂ) (m : ℝ) : ℂ := Complex.sin (o.am u m)

/-- `InverseJacobiSN`, biquad_filter_design_pole_zero.cc:310-313. -/
noncomputable def inverseJacobiSN (o : Ops) (w : ℂ) (m : ℝ) : ℂ := o.F (Verif.Elliptic.casin w) m

/-- `epsilon_p` and `epsilon_s`, biquad_filter_design_pole_zero.cc:323-324. -/
noncomputable def epsilon (ripple : ℝ) : ℝ := √((10 : ℝ) ^ (ripple / 10) - 1)

/-- How the computation can end without a prototype: a `CHECK` fails (it aborts), or NaN and infinities spread to all
poles and zeros. -/
inductive Err
  | abort
  | nan

/-- `u` of the two loops, biquad_filter_design_pole_zero.cc:333, 343: `(2.0 * i + 1.0) * K / order_`. -/
noncomputable def node (K : ℝ) (order i : ℕ) : ℝ := (2 * i + 1) * K / order

/-- `kp`, biquad_filter_design_pole_zero.cc:329-335, from `k1p` and `elliptic_k1p`. -/
noncomputable def degreeKp (o : Ops) (order : ℕ) (k1p K1p : ℝ) : ℝ :=
  k1p ^ order * ((List.range (order / 2)).foldl (fun kp i => kp * (jacobiSN o (node K1p order i) (k1p ^ 2)).re) 1) ^ 4

/-- The poles, zeros and gain, biquad_filter_design_pole_zero.cc:341-364, from `epsilon_p`, `k`, `elliptic_k` and `v0`. -/
noncomputable def assemble (o : Ops) (order : ℕ) (epsP k Kk v0 : ℝ) : PZ :=
  let f := PZ.normalizeGain
    { PZ.empty with
      pairedZeros := (List.range (order / 2)).map fun i : ℕ => ⟨0, 1 / (k * (jacobiCD o (node Kk order i) (k ^ 2)).re)⟩
      pairedPoles := (List.range (order / 2)).map fun i : ℕ =>
        Complex.I * jacobiCD o ⟨node Kk order i, -v0 * Kk⟩ (k ^ 2)
      lonePoles := if order % 2 = 1 then [(Complex.I * jacobiSN o ⟨0, v0 * Kk⟩ (k ^ 2)).re] else [] }
  if order % 2 = 0 then { f with gain := f.gain / √(1 + epsP ^ 2) } else f

/-- The constructor of `EllipticFilterDesign`, biquad_filter_design.h:354-360 (its `CHECK_LT` comes first), followed by
`GetAnalogPrototype`, biquad_filter_design_pole_zero.cc:317-365. After the checks `k1 < 1`. -/
noncomputable def prototype (o : Ops) (order : ℕ) (passRipple stopRipple : ℝ) : Except Err PZ :=
  if ¬ passRipple < stopRipple ∨ order < 1 ∨ ¬ 0 < passRipple ∨ ¬ 0 < stopRipple then .error .abort
  else
    let epsP := epsilon passRipple
    let epsS := epsilon stopRipple
    let k1 := epsP / epsS
    let k1p := √(1 - k1 * k1)
    match o.K (k1 ^ 2), o.K (k1p ^ 2) with
    | some K1, some K1p =>
      let kp := degreeKp o order k1p K1p
      if 1 < kp * kp then .error .nan
      else
        let k := √(1 - kp * kp)
        match o.K (k ^ 2) with
        | some Kk => .ok (assemble o order epsP k Kk ((inverseJacobiSN o ⟨0, 1 / epsP⟩ (k1 ^ 2)).im / (order * K1)))
        | none => .error .nan
    | _, _ => .error .nan

/-- What `LowpassCoefficients` and the others do with the prototype (biquad_filter_design_pole_zero.cc:92-213): they
abort if it does; NaN spreads. -/
noncomputable def designed (p : Except Err PZ) (design : PZ → Option (List (Verif.BiquadCascade.Stage ℝ))) :
    Except Err (List (Verif.BiquadCascade.Stage ℝ)) :=
  match p with
  | .error e => .error e
  | .ok f =>
    match design f with
    | none => .error .abort
    | some cs => .ok cs

/-- `EllipticFilterDesign::LowpassCoefficients`; `1e-10` is the threshold of `Simplify`. -/
noncomputable def lowpass (o : Ops) (order : ℕ) (passRipple stopRipple rate corner : ℝ) :
    Except Err (List (Verif.BiquadCascade.Stage ℝ)) :=
  designed (prototype o order passRipple stopRipple) fun f => lowpassCoefficients (1 / 10 ^ 10) f rate corner

/-- `EllipticFilterDesign::HighpassCoefficients`. -/
noncomputable def highpass (o : Ops) (order : ℕ) (passRipple stopRipple rate corner : ℝ) :
    Except Err (List (Verif.BiquadCascade.Stage ℝ)) :=
  designed (prototype o order passRipple stopRipple) fun f => highpassCoefficients (1 / 10 ^ 10) f rate corner

/-- `EllipticFilterDesign::BandpassCoefficients`. -/
noncomputable def bandpass (o : Ops) (order : ℕ) (passRipple stopRipple rate low high : ℝ) :
    Except Err (List (Verif.BiquadCascade.Stage ℝ)) :=
  designed (prototype o order passRipple stopRipple) fun f => bandpassCoefficients (1 / 10 ^ 10) f rate low high

/-- `EllipticFilterDesign::BandstopCoefficients`. -/
noncomputable def bandstop (o : Ops) (order : ℕ) (passRipple stopRipple rate low high : ℝ) :
    Except Err (List (Verif.BiquadCascade.Stage ℝ)) :=
  designed (prototype o order passRipple stopRipple) fun f => bandstopCoefficients (1 / 10 ^ 10) f rate low high

end Verif.EllipticDesign
