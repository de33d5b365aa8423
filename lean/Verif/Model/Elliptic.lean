import Verif.Model.PoleZero
import Verif.Model.PortableComplex
import Mathlib.Analysis.Real.Pi.Bounds

/-!
# Model of `audio/dsp/elliptic_functions.cc` and `audio/dsp/portable/elliptic_fun.c`

`double` is modelled by the reals, `std::complex<double>` by the complex numbers: no rounding, infinities or NaN. The
comparison with the machine epsilon is kept. The debug checks on the arguments (`DCHECK`) and the warning printed when
the sequence of moduli does not converge are not modelled.
-/

namespace Verif.Elliptic
open Verif.PoleZero

/-- `std::numeric_limits<double>::epsilon()`, `DBL_EPSILON`. -/
noncomputable def eps : ℝ := (1 / 2) ^ 52

/-- One Landen step, elliptic_functions.cc:46-47 and elliptic_fun.c:32-34. -/
noncomputable def landenStep (k : ℝ) : ℝ := (k / (1 + √(1 - k * k))) ^ 2

/-- The loop of `GenerateLandenSequence`, elliptic_functions.cc:43-49 and elliptic_fun.c:29-36: the entries appended
while `room` entries may still be appended. -/
noncomputable def landenLoop : ℕ → ℝ → List ℝ
  | 0, _ => []
  | room + 1, k => if eps < k then landenStep k :: landenLoop room (landenStep k) else []

/-- `GenerateLandenSequence`, elliptic_functions.cc:35-53 and elliptic_fun.c:25-42. -/
noncomputable def landenSequence (m : ℝ) : List ℝ := √m :: landenLoop 9 √m

/-- `EllipticKFromLanden`, elliptic_functions.cc:55-65 and elliptic_fun.c:51-58. -/
noncomputable def kFromLanden (l : List ℝ) : ℝ := l.tail.foldl (fun r k => r * (1 + k)) (Real.pi / 2)

/-- `EllipticK`, elliptic_functions.cc:69-85 and elliptic_fun.c:60-76; `none` is the infinity. -/
noncomputable def ellipticK (m : ℝ) : Option ℝ :=
  if m = 1 then none
  else if 1 - 1 / 10 ^ 12 < m then
    let m1 := 1 - m
    let temp := -(1 / 2) * Real.log (m1 / 16)
    some (temp + (temp - 1) * m1 / 4)
  else some (kFromLanden (landenSequence m))

/-- `std::asin` of a complex number, principal value. -/
noncomputable def casin (z : ℂ) : ℂ := -Complex.I * Complex.log (Complex.I * z + csqrt (1 - z ^ 2))

/-- The loop of `EllipticF`, elliptic_functions.cc:105-108. -/
noncomputable def fLoop : List ℝ → ℂ → ℂ
  | k :: k1 :: rest, w => fLoop (k1 :: rest) (w * (2 / ((1 + k1) * (1 + csqrt (1 - (k * w) ^ 2)))))
  | [_], w => w
  | [], w => w

/-- `EllipticF`, elliptic_functions.cc:88-111. -/
noncomputable def ellipticF (phi : ℂ) (m : ℝ) : ℂ :=
  if ‖phi‖ < 1 / 10 ^ 3 then phi * (1 + phi ^ 2 * ((m / 6 : ℝ) : ℂ))
  else
    let l := landenSequence m
    ((2 / Real.pi : ℝ) : ℂ) * casin (fLoop l (Complex.sin phi)) * ((kFromLanden l : ℝ) : ℂ)

/-- `JacobiAmplitude`, elliptic_functions.cc:113-136; the loop runs from the last modulus down to the second. -/
noncomputable def jacobiAmplitude (u : ℂ) (m : ℝ) : ℂ :=
  let l := landenSequence m
  let w := Complex.sin (((Real.pi / 2 : ℝ) : ℂ) * u / ((kFromLanden l : ℝ) : ℂ))
  casin (l.tail.foldr (fun k w => w * ((1 + k) / (1 + k * w ^ 2))) w)

end Verif.Elliptic

namespace Verif.PortableElliptic
open Verif.PortableComplex Verif.Elliptic

/-- The loop of `EllipticF`, elliptic_fun.c:100-112. -/
noncomputable def fLoop : List ℝ → CD → CD
  | k :: k1 :: rest, w =>
    fLoop (k1 :: rest)
      (div w (mulReal (add ⟨1, 0⟩ (sqrt (sub ⟨1, 0⟩ (square (mulReal w k))))) (0.5 * (1 + k1))))
  | [_], w => w
  | [], w => w

/-- `EllipticF`, elliptic_fun.c:78-119. The array `moduli` has ten entries, the length of the sequence is at most ten
(`C88_moduli`). -/
noncomputable def ellipticF (phi : CD) (m : ℝ) : CD :=
  if abs2 phi < 1 / 10 ^ 6 then mul phi (add ⟨1, 0⟩ (mulReal (square phi) (m / 6)))
  else
    let l := landenSequence m
    mulReal (asin (fLoop l (sin phi))) (2 / Real.pi * kFromLanden l)

/-- `JacobiAmplitude`, elliptic_fun.c:121-151. -/
noncomputable def jacobiAmplitude (u : CD) (m : ℝ) : CD :=
  let l := landenSequence m
  let w := sin (mulReal u (Real.pi / 2 / kFromLanden l))
  asin (l.tail.foldr (fun k w => mulReal (div w (add ⟨1, 0⟩ (mulReal (square w) k))) (1 + k)) w)

end Verif.PortableElliptic
