import Verif.Model.FloatMel
import Verif.Model.FloatVector

/-!
# Model of audio/dsp/mfcc/dct.cc and mfcc.cc in floating point

Every operation on doubles is followed by the rounding `rnd`; `log` and `cos` are those of the C library. Conversions of `int`
to `double`, and `j + 0.5` for an `int` `j`, are exact. The multiplication and the addition in the loop of `Dct::Compute` may be
contracted, so `Compute` is a relation between the arguments and the result. Accesses outside a `std::vector` and negative
sizes are failures, as in `Verif.Model.Mfcc`.
-/

namespace Verif.FloatMfcc
open Verif.Rounding Verif.Mfcc

/-- The arithmetic of the machine. -/
structure Machine extends FloatMel.Machine where
  cosine : ℝ → ℝ

/-- IEEE 754 doubles with correctly rounded functions. -/
noncomputable def Machine.ideal : Machine := { FloatMel.Machine.ideal with cosine := fun x => binary64 (Real.cos x) }

/-- What the theorems use of the machine: roundings with relative error `u` (and absolute error `η` in the subnormal range),
a logarithm with the relative error `v`, a cosine with the absolute error `w`. -/
structure Machine.Accurate (M : Machine) (u v w η : ℝ) : Prop where
  rnd : Rounding.Accurate M.rnd u η
  log : ∀ x, 0 < x → |M.log x - Real.log x| ≤ v * |Real.log x| + η
  cosine : ∀ x, |M.cosine x - Real.cos x| ≤ w

variable (M : Machine)

/-- `fnorm * cos(i * arg * (j + 0.5))`, dct.cc:53-54 and 58; `n` is `input_length_`. `M_PI` is the double nearest to π. -/
noncomputable def cosineEntry (n : ℤ) (i j : ℕ) : ℝ :=
  let fnorm := M.rnd √(M.rnd (2 / n))
  let arg := M.rnd (M.rnd Real.pi / n)
  M.rnd (fnorm * M.cosine (M.rnd (M.rnd (i * arg) * (j + 1 / 2))))

/-- `Dct::Initialize`, dct.cc:32-63. The members are overwritten before the arguments are checked. -/
noncomputable def dctInit (d : Dct) (inputLength coefficientCount : ℤ) : Dct × Bool :=
  let d := { d with count := coefficientCount, length := inputLength }
  if d.count < 1 then (d, false)
  else if inputLength < 1 then (d, false)
  else if d.count > d.length then (d, false)
  else
    ({ d with
        cosines := (List.range d.count.toNat).map fun i : ℕ => (List.range d.length.toNat).map fun j : ℕ => cosineEntry M d.length i j
        initialized := true }, true)

/-- `Dct::Compute`, dct.cc:65-85, has the result `r`. `output` is the previous content of the output vector. All rows are read
at all indices below `length`; a read outside of one is the failure `oob`. -/
def DctCompute (d : Dct) (input output : List ℝ) (r : Except Err (List ℝ)) : Prop :=
  if d.initialized = false then r = .ok output
  else if d.count < 0 then r = .error .badSize
  else
    let length : ℤ := if (input.length : ℤ) > d.length then d.length else input.length
    (r = .error .oob ∧ ∃ i < d.count.toNat, ∃ j < length.toNat, (d.cosines.getD i [])[j]? = none) ∨
    ((∀ i < d.count.toNat, ∀ j < length.toNat, (d.cosines.getD i [])[j]? ≠ none) ∧
      ∃ y : List ℝ, r = .ok y ∧ y.length = d.count.toNat ∧ ∀ i (hi : i < y.length),
        FloatVector.DotProduct M.rnd
          ((List.range length.toNat).map fun j => ((d.cosines.getD i []).getD j 0, input.getD j 0)) y[i])

/-- The floor and logarithm of mfcc.cc:62-66, with the double nearest to 1e-12, :30. -/
noncomputable def floorLog (x : ℝ) : ℝ := M.log (if x < M.rnd (1 / 10 ^ 12) then M.rnd (1 / 10 ^ 12) else x)

/-- `Mfcc::Initialize`, mfcc.cc:40-51. -/
noncomputable def init (m : Mfcc) (inputLength : ℤ) (sampleRate : ℝ) : Except Err (Mfcc × Bool) := do
  let (mel, ok1) ← FloatMel.init M.toMachine m.mel inputLength sampleRate m.channelCount m.lower m.upper
  let (dct, ok2) := dctInit M m.dct m.channelCount m.coefficientCount
  return ({ m with
    mel := mel
    dct := dct
    initialized := ok1 && ok2 }, ok1 && ok2)

/-- `Mfcc::Compute`, mfcc.cc:53-69, has the result `r`. -/
def Compute (m : Mfcc) (frame output : List ℝ) (r : Except Err (List ℝ)) : Prop :=
  if m.initialized = false then r = .ok output
  else
    match FloatMel.compute M.toMachine m.mel frame [] with
    | .error e => r = .error e
    | .ok working => DctCompute M m.dct (working.map (floorLog M)) output r

end Verif.FloatMfcc
