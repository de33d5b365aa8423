import Verif.Proof.PoleZero3
import Verif.Proof.Crossover
import Mathlib.Analysis.SpecialFunctions.Trigonometric.Arctan

/-!
# C48, C50, C60, C61: filters given by poles and zeros

Specification: `Verif.Spec.PoleZero` (`analogSystem`, `digitalSystem`, `Prototype`, `Proper`, `RootsAbove`).
`1 / 10^10` is the threshold of `Simplify`.
-/

namespace Verif.PoleZero
open Verif.BiquadCascade Verif.FilterDesign Spec
open scoped ComplexConjugate

/-! ### C50: `GetCoefficients` -/

/-- **C50, partial.** For every collection of lone and paired roots that are zero or larger than `1e-5` in
magnitude, at least one of them present, and every gain, `GetCoefficients` returns valid stages whose transfer
function is the represented system at every `z ≠ 0`. Missing: smaller roots, which the thresholds of `Simplify` may
drop, and the case without roots (`C50_no_roots_violation`). -/
theorem C50_coefficients_partial (f : PZ) (hr : RootsAbove (1 / 10 ^ 5) f) (hne : zeros f ≠ [] ∨ poles f ≠ []) :
    ∃ cs, f.getCoefficients (1 / 10 ^ 10) = some cs ∧ (∀ s ∈ cs, s.Valid) ∧
      ∀ z : ℂ, z ≠ 0 → evalCascade Complex.ofRealHom cs z = digitalSystem f z :=
  getCoefficients_eval (by norm_num) (by norm_num) (by norm_num) f hr hne

/-- **C50, finding.** Without poles and zeros the gain is lost: the represented system is the constant 2, the
returned cascade the identity. -/
theorem C50_no_roots_violation : ∃ f : PZ, ∃ cs, f.getCoefficients (1 / 10 ^ 10) = some cs ∧
    ∀ z : ℂ, z ≠ 0 → digitalSystem f z = 2 ∧ evalCascade Complex.ofRealHom cs z = 1 := by
  refine ⟨⟨[], [], [], [], 2⟩, identityCascade, by simp [PZ.getCoefficients], fun z hz => ⟨?_, ?_⟩⟩
  · simp [digitalSystem, zeros, poles]
  · rw [evalCascade_numDen _ (fun s hs => (identity_good (ε := 0) (δ := 0) s hs).valid) z hz, numAt_identity,
      denAt_identity, div_one]

/-- Non-vacuity: three zeros, a pair of poles and a lone pole. -/
example : ∃ cs, PZ.getCoefficients (1 / 10 ^ 10) ⟨[-1, 0, 1 / 2], [1 / 4], [], [⟨1 / 2, 1 / 3⟩], 3⟩ = some cs ∧
    evalCascade Complex.ofRealHom cs 2 = digitalSystem ⟨[-1, 0, 1 / 2], [1 / 4], [], [⟨1 / 2, 1 / 3⟩], 3⟩ 2 := by
  obtain ⟨cs, e, _, h⟩ := C50_coefficients_partial ⟨[-1, 0, 1 / 2], [1 / 4], [], [⟨1 / 2, 1 / 3⟩], 3⟩ (by
    have hn : ∀ a b : ℝ, 1 / 4 ≤ |a| → (1 / 10 ^ 5 : ℝ) < ‖(⟨a, b⟩ : ℂ)‖ := fun a b h =>
      lt_of_lt_of_le (lt_of_lt_of_le (by norm_num) h) (Complex.abs_re_le_norm ⟨a, b⟩)
    intro r hr
    simp only [zeros, poles, List.map_cons, List.map_nil, List.flatMap_nil, List.append_nil, List.mem_cons,
      List.not_mem_nil, or_false, List.flatMap_cons, List.mem_append] at hr
    rcases hr with (rfl | rfl | rfl) | (rfl | rfl | rfl)
    · right; simp; norm_num
    · left; simp
    · right; simp; norm_num
    · right; simp; norm_num
    · right; exact hn _ _ (by norm_num [abs_of_pos])
    · right; rw [RCLike.norm_conj]; exact hn _ _ (by norm_num [abs_of_pos])) (Or.inl (by simp [zeros]))
  exact ⟨cs, e, h 2 two_ne_zero⟩

theorem poles_eq_nil (f : PZ) : poles f = [] ↔ f.lonePoles = [] ∧ f.pairedPoles = [] := by
  unfold poles
  rw [List.append_eq_nil_iff, List.map_eq_nil_iff]
  refine and_congr Iff.rfl ?_
  cases f.pairedPoles <;> simp

/-! ### C61: `Eval` -/

/-- **C61, partial.** `Eval` returns the value of the represented analog system up to the sign `(-1)^n`, `n` the number
of poles plus the number of zeros; in particular its magnitude is right, and its value where poles and zeros together
are even in number. -/
theorem C61_eval_partial (f : PZ) (s : ℂ) :
    f.eval s = (-1) ^ ((poles f).length + (zeros f).length) * analogSystem f s ∧
    ‖f.eval s‖ = ‖analogSystem f s‖ := by
  have hl : ∀ (lone : List ℝ) (paired : List ℂ),
      (lone.map (fun p : ℝ => (p : ℂ)) ++ paired.flatMap fun p => [p, conj p]).length
        = lone.length + 2 * paired.length := by
    intro lone paired
    rw [List.length_append, List.length_map]
    congr 1
    induction paired with
    | nil => rfl
    | cons p l ih => rw [List.flatMap_cons, List.length_append, ih]; simp; omega
  have neg : ∀ lone paired, rootProd (fun r => r - s) lone paired
      = (-1) ^ (lone.length + 2 * paired.length) * rootProd (fun r => s - r) lone paired := by
    intro lone paired
    rw [← rootProd_neg]
    congr 1; funext r; ring
  have h : f.eval s = (-1) ^ ((poles f).length + (zeros f).length) * analogSystem f s := by
    rw [eval_eq, analog_eq, neg, neg, poles, zeros, hl, hl]
    have hsq : ∀ n : ℕ, ((-1 : ℂ) ^ n)⁻¹ = (-1) ^ n := by
      intro n
      rw [← inv_pow, inv_neg, inv_one]
    rw [div_eq_mul_inv, mul_inv, hsq, div_eq_mul_inv, pow_add]
    ring
  refine ⟨h, ?_⟩
  rw [h, norm_mul, norm_pow, norm_neg, norm_one, one_pow, one_mul]

/-- **C61, finding.** `Eval` multiplies by `zero - s` and divides by `pole - s` where the documented system has
`s - zero` and `s - pole`: the first-order lowpass `1 / (s + 1)` evaluates to `-1` at `s = 0`; and for a digital
system (`complex_freq = z`), which has factors `1 - root / z`, even the magnitude is wrong. -/
theorem C61_eval_violation :
    PZ.eval ⟨[], [-1], [], [], 1⟩ 0 = -1 ∧ analogSystem ⟨[], [-1], [], [], 1⟩ 0 = 1 ∧
    PZ.eval ⟨[], [1 / 2], [], [], 1⟩ 2 = -2 / 3 ∧ digitalSystem ⟨[], [1 / 2], [], [], 1⟩ 2 = 4 / 3 := by
  refine ⟨?_, ?_, ?_, ?_⟩
  · simp [PZ.eval]
  · simp [analogSystem, zeros, poles]
  · simp [PZ.eval]; norm_num
  · simp [digitalSystem, zeros, poles]; norm_num

/-! ### C60: bilinear transform and frequency maps -/

theorem hom_infinity (f : PZ) (x : ℂ) (hx : x ≠ 0) (hd : 0 ≤ f.relativeDegree) :
    hom f x 0 = if f.relativeDegree = 0 then (f.gain : ℂ) else 0 := by
  unfold hom
  have e : ∀ lone paired, rootProd (fun r => x - r * 0) lone paired = x ^ (lone.length + 2 * paired.length) := by
    intro lone paired
    rw [← rootProd_const]
    congr 1; funext r; ring
  have hs := degree_split hd
  unfold PZ.polesDegree PZ.zerosDegree at hs
  rw [e, e, hs]
  split_ifs with h
  · rw [h]
    have := pow_ne_zero (f.loneZeros.length + 2 * f.pairedZeros.length) hx
    simp only [Int.toNat_zero, pow_zero, mul_one, add_zero]
    field_simp
  · rw [zero_pow (by omega)]; simp

/-- **C60, partial.** The bilinear transform of poles and zeros: for a gain that is not negative, no more zeros than
poles, real roots below `K` and no complex root at `K`, the digital system at every `z` is the analog system at
`K (z - 1) / (z + 1)`, and at `z = -1` its limit for `s → ∞`. Missing (and false): negative gains, more zeros than
poles (`C60_bilinear_violation`). -/
theorem C60_bilinear_partial (K : ℝ) (hK : 0 < K) (f : PZ) (h : Proper K f) (z : ℂ) (hz : z ≠ 0) :
    (z ≠ -1 → digitalSystem (f.bilinear K) z = analogSystem f (K * (z - 1) / (z + 1))) ∧
    (z = -1 → digitalSystem (f.bilinear K) z = if f.relativeDegree = 0 then (f.gain : ℂ) else 0) := by
  rw [bilinear_hom h z hz]
  refine ⟨fun h1 => hom_eq_analog f h.degree _ _ (by rwa [Ne, add_eq_zero_iff_eq_neg]), ?_⟩
  rintro rfl
  rw [neg_add_cancel]
  refine hom_infinity f _ ?_ h.degree
  have : (K : ℂ) ≠ 0 := by exact_mod_cast hK.ne'
  rw [show (K : ℂ) * (-1 - 1) = -2 * K by ring]
  exact mul_ne_zero (by norm_num) this

/-- **C60, finding.** The transform loses the sign of the gain (`-1 / (s + 1)` becomes a positive filter) and is
wrong for more zeros than poles (`s + 1`). -/
theorem C60_bilinear_violation :
    (digitalSystem (PZ.bilinear ⟨[], [-1], [], [], -1⟩ 2) 1 = 1 ∧
      analogSystem ⟨[], [-1], [], [], -1⟩ (2 * (1 - 1) / (1 + 1)) = -1) ∧
    (digitalSystem (PZ.bilinear ⟨[-1], [], [], [], 1⟩ 2) 1 = 2 ∧
      analogSystem ⟨[-1], [], [], [], 1⟩ (2 * (1 - 1) / (1 + 1)) = 1) := by
  refine ⟨⟨?_, ?_⟩, ?_, ?_⟩
  · simp only [digitalSystem, zeros, poles, PZ.bilinear, PZ.relativeDegree, PZ.polesDegree, PZ.zerosDegree, PZ.eval]
    simp
    norm_num
  · simp [analogSystem, zeros, poles]
  · simp only [digitalSystem, zeros, poles, PZ.bilinear, PZ.relativeDegree, PZ.polesDegree, PZ.zerosDegree, PZ.eval]
    simp
    norm_num
  · simp [analogSystem, zeros, poles]

theorem lowpassPZ_eq (proto : PZ) (rate corner : ℝ) :
    lowpassPZ proto rate corner = (lowpassAnalog proto (prewarp corner rate)).bilinear (computeK 0 rate) := rfl

theorem highpassPZ_eq (proto : PZ) (rate corner : ℝ) :
    highpassPZ proto rate corner = (highpassAnalog proto (prewarp corner rate)).bilinear (computeK 0 rate) := rfl

theorem bandpassPZ_eq (proto : PZ) (rate low high : ℝ) : bandpassPZ proto rate low high
    = (bandpassAnalog proto (prewarp low rate) (prewarp high rate)).bilinear (computeK 0 rate) := rfl

theorem bandstopPZ_eq (proto : PZ) (rate low high : ℝ) : bandstopPZ proto rate low high
    = (bandstopAnalog proto (prewarp low rate) (prewarp high rate)).bilinear (computeK 0 rate) := rfl

theorem prewarp_eq {rate : ℝ} (hr : 0 < rate) (hz : ℝ) :
    prewarp hz rate = computeK 0 rate * Real.tan (Real.pi * hz / rate) := by
  unfold prewarp computeK
  rw [if_pos (by positivity)]

theorem prewarp_nonneg {rate corner : ℝ} (hr : 0 < rate) (h0 : 0 ≤ corner) (h : corner < rate / 2) :
    0 ≤ prewarp corner rate := by
  rcases h0.eq_or_lt with rfl | h0
  · simp [prewarp]
  · exact (prewarp_pos hr h0 h).le

theorem lowpassPZ_hom {proto : PZ} (hp : Prototype proto) {rate corner : ℝ} (hr : 0 < rate) (h0 : 0 ≤ corner)
    (h : corner < rate / 2) {z : ℂ} (hz : z ≠ 0) : digitalSystem (lowpassPZ proto rate corner) z
      = hom proto (computeK 0 rate * (z - 1)) (prewarp corner rate * (z + 1)) := by
  rw [lowpassPZ_eq, bilinear_hom (lowpassAnalog_proper hp (prewarp_nonneg hr h0 h)
    (computeK_pos hr le_rfl (by linarith))) z hz, lowpassAnalog_hom hp.degree]

theorem highpassPZ_hom {proto : PZ} (hp : Prototype proto) {rate corner : ℝ} (hr : 0 < rate) (h0 : 0 ≤ corner)
    (h : corner < rate / 2) {z : ℂ} (hz : z ≠ 0) : digitalSystem (highpassPZ proto rate corner) z
      = hom proto (prewarp corner rate * (z + 1)) (computeK 0 rate * (z - 1)) := by
  rw [highpassPZ_eq, bilinear_hom (highpassAnalog_proper hp (prewarp_nonneg hr h0 h)
    (computeK_pos hr le_rfl (by linarith))) z hz, highpassAnalog_hom hp]

theorem ratio_low {rate t : ℝ} (hr : 0 < rate) (z : ℂ) :
    (computeK 0 rate : ℂ) * (z - 1) / (((computeK 0 rate * t : ℝ) : ℂ) * (z + 1)) = (z - 1) / (z + 1) / t := by
  have hK : (computeK 0 rate : ℂ) ≠ 0 := by
    exact_mod_cast (computeK_pos hr le_rfl (by linarith)).ne'
  push_cast
  rw [mul_assoc, mul_div_mul_left _ _ hK, div_div, mul_comm (t : ℂ)]

theorem ratio_high {rate t : ℝ} (hr : 0 < rate) (z : ℂ) :
    ((computeK 0 rate * t : ℝ) : ℂ) * (z + 1) / ((computeK 0 rate : ℂ) * (z - 1)) = t * (z + 1) / (z - 1) := by
  have hK : (computeK 0 rate : ℂ) ≠ 0 := by
    exact_mod_cast (computeK_pos hr le_rfl (by linarith)).ne'
  push_cast
  rw [mul_assoc, mul_div_mul_left _ _ hK]

/-- **C60, partial.** Lowpass designs: for every prototype with roots in the left half plane and every corner
frequency below the Nyquist frequency, `LowpassCoefficients` returns a cascade whose transfer function at `z` is the
prototype at `s / tan(π corner / rate)`, `s = (z - 1) / (z + 1)`, and at `z = -1` the limit of the prototype at
infinity. Missing: digital poles or zeros of magnitude between 0 and `1e-5`. -/
theorem C60_lowpass_partial (proto : PZ) (hp : Prototype proto) (hpoles : poles proto ≠ []) (rate corner : ℝ)
    (hr : 0 < rate) (h0 : 0 < corner) (h : corner < rate / 2)
    (hroots : RootsAbove (1 / 10 ^ 5) (lowpassPZ proto rate corner)) :
    ∃ cs, lowpassCoefficients (1 / 10 ^ 10) proto rate corner = some cs ∧ ∀ z : ℂ, z ≠ 0 →
      (z ≠ -1 → evalCascade Complex.ofRealHom cs z
        = analogSystem proto ((z - 1) / (z + 1) / Real.tan (Real.pi * corner / rate))) ∧
      (z = -1 → evalCascade Complex.ofRealHom cs z = if proto.relativeDegree = 0 then (proto.gain : ℂ) else 0) := by
  obtain ⟨cs, e, _, hcs⟩ := C50_coefficients_partial (lowpassPZ proto rate corner) hroots (Or.inr (by
    rw [Ne, poles_eq_nil] at hpoles ⊢
    simpa [lowpassPZ, PZ.bilinear, PZ.mapFrequency] using hpoles))
  refine ⟨cs, ?_, fun z hz => ?_⟩
  · unfold lowpassCoefficients; rw [if_pos ⟨hr, h0.le, h⟩]; exact e
  · rw [hcs z hz, lowpassPZ_hom hp hr h0.le h hz]
    have hw := (prewarp_pos hr h0 h).ne'
    have hw' : (prewarp corner rate : ℂ) ≠ 0 := by exact_mod_cast hw
    refine ⟨fun h1 => ?_, ?_⟩
    · rw [hom_eq_analog proto hp.degree _ _ (mul_ne_zero hw' (by rwa [Ne, add_eq_zero_iff_eq_neg])), prewarp_eq hr,
        ratio_low hr]
    · rintro rfl
      rw [neg_add_cancel, mul_zero]
      refine hom_infinity proto _ ?_ hp.degree
      have : (computeK 0 rate : ℂ) ≠ 0 := by exact_mod_cast (computeK_pos hr le_rfl (by linarith)).ne'
      rw [show (computeK 0 rate : ℂ) * (-1 - 1) = -2 * computeK 0 rate by ring]
      exact mul_ne_zero (by norm_num) this

/-- **C60, partial.** Highpass designs: the prototype at `tan(π corner / rate) / s`, `s = (z - 1) / (z + 1)`, and at
`z = 1` the limit of the prototype at infinity. Missing: as for `C60_lowpass_partial`. -/
theorem C60_highpass_partial (proto : PZ) (hp : Prototype proto) (hpoles : poles proto ≠ []) (rate corner : ℝ)
    (hr : 0 < rate) (h0 : 0 < corner) (h : corner < rate / 2)
    (hroots : RootsAbove (1 / 10 ^ 5) (highpassPZ proto rate corner)) :
    ∃ cs, highpassCoefficients (1 / 10 ^ 10) proto rate corner = some cs ∧ ∀ z : ℂ, z ≠ 0 →
      (z ≠ 1 → evalCascade Complex.ofRealHom cs z
        = analogSystem proto (Real.tan (Real.pi * corner / rate) * (z + 1) / (z - 1))) ∧
      (z = 1 → evalCascade Complex.ofRealHom cs z = if proto.relativeDegree = 0 then (proto.gain : ℂ) else 0) := by
  obtain ⟨cs, e, _, hcs⟩ := C50_coefficients_partial (highpassPZ proto rate corner) hroots (Or.inr (by
    rw [Ne, poles_eq_nil] at hpoles ⊢
    simpa [highpassPZ, PZ.bilinear, PZ.mapFrequency] using hpoles))
  have hK : (computeK 0 rate : ℂ) ≠ 0 := by exact_mod_cast (computeK_pos hr le_rfl (by linarith)).ne'
  refine ⟨cs, ?_, fun z hz => ?_⟩
  · unfold highpassCoefficients; rw [if_pos ⟨hr, h0.le, h⟩]; exact e
  · rw [hcs z hz, highpassPZ_hom hp hr h0.le h hz]
    have hw := (prewarp_pos hr h0 h).ne'
    have hw' : (prewarp corner rate : ℂ) ≠ 0 := by exact_mod_cast hw
    refine ⟨fun h1 => ?_, ?_⟩
    · rw [hom_eq_analog proto hp.degree _ _ (mul_ne_zero hK (sub_ne_zero.2 h1)), prewarp_eq hr, ratio_high hr]
    · rintro rfl
      rw [sub_self, mul_zero]
      exact hom_infinity proto _ (mul_ne_zero hw' (by norm_num)) hp.degree

theorem shift_nil {lone : List ℝ} {paired : List ℂ} {g : ℂ → ℂ} {a : ℝ → ℝ} {b : ℝ → ℂ} {c d e : ℂ → ℂ}
    (h : (((lone.map a).map b) ++ ((paired.map c).flatMap fun p => [d p, e p])).map g = []) :
    lone = [] ∧ paired = [] := by
  rw [List.map_eq_nil_iff, List.append_eq_nil_iff, List.map_eq_nil_iff, List.map_eq_nil_iff] at h
  refine ⟨h.1, ?_⟩
  cases paired with
  | nil => rfl
  | cons p l => simp at h

theorem band_conditions {rate low high : ℝ} (hr : 0 < rate) (h0 : 0 < low) (hlh : low < high)
    (h : high < rate / 2) : 0 < prewarp low rate ∧ prewarp low rate < prewarp high rate :=
  ⟨prewarp_pos hr h0 (hlh.trans h), prewarp_lt hr h0 hlh h⟩

theorem scale_condition {K a b p : ℝ} (hK : 0 < K) (h : ((b - a) * p / 2) ^ 2 ≤ b * a) :
    ((K * b - K * a) * p / 2) ^ 2 ≤ K * b * (K * a) := by
  have : ((K * b - K * a) * p / 2) ^ 2 = K ^ 2 * ((b - a) * p / 2) ^ 2 := by ring
  rw [this]
  nlinarith [sq_nonneg K]

/-- **C60, partial.** Bandpass designs: the prototype at `(s² + t1 t2) / ((t2 - t1) s)`, where `s = (z - 1) / (z + 1)`
and `t1`, `t2` are the tangents of the band edges. Missing: prototypes with a real root `p` for which
`((t2 - t1) p / 2)² > t1 t2`, for which the design is wrong (`C60_bandpass_violation`), and digital poles or zeros of
magnitude between 0 and `1e-5`. -/
theorem C60_bandpass_partial (proto : PZ) (hp : Prototype proto) (hpoles : poles proto ≠ []) (rate low high : ℝ)
    (hr : 0 < rate) (h0 : 0 < low) (hlh : low < high) (h : high < rate / 2) (t1 t2 : ℝ)
    (ht1 : t1 = Real.tan (Real.pi * low / rate)) (ht2 : t2 = Real.tan (Real.pi * high / rate))
    (hlone : ∀ p, p ∈ proto.lonePoles ∨ p ∈ proto.loneZeros → ((t2 - t1) * p / 2) ^ 2 ≤ t2 * t1)
    (hroots : RootsAbove (1 / 10 ^ 5) (bandpassPZ proto rate low high)) :
    ∃ cs, bandpassCoefficients (1 / 10 ^ 10) proto rate low high = some cs ∧ ∀ z s : ℂ, z ≠ 0 → z ≠ -1 → z ≠ 1 →
      s = (z - 1) / (z + 1) →
      evalCascade Complex.ofRealHom cs z = analogSystem proto ((s ^ 2 + t1 * t2) / ((t2 - t1) * s)) := by
  obtain ⟨hw1, hw12⟩ := band_conditions hr h0 hlh h
  have hKp := computeK_pos hr (le_refl 0) (by linarith)
  obtain ⟨cs, e, _, hcs⟩ := C50_coefficients_partial (bandpassPZ proto rate low high) hroots (Or.inr (by
    rw [Ne, poles_eq_nil] at hpoles ⊢
    rintro ⟨-, h2⟩
    unfold bandpassPZ PZ.bilinear PZ.shift PZ.mapFrequency at h2
    exact hpoles (shift_nil h2)))
  refine ⟨cs, ?_, fun z s hz hz1 hz2 hs => ?_⟩
  · unfold bandpassCoefficients; rw [if_pos ⟨hr, h0.le, hlh, h⟩]; exact e
  · rw [hcs z hz, bandpassPZ_eq, bilinear_hom (bandpassAnalog_proper hp hw1.le hw12 hKp) z hz]
    rw [prewarp_eq hr low, prewarp_eq hr high, ← ht1, ← ht2] at *
    rw [bandpassAnalog_hom hp.degree (by nlinarith) (fun p hp' => scale_condition hKp (hlone p (Or.inl hp')))
      (fun p hp' => scale_condition hKp (hlone p (Or.inr hp')))]
    have hK : (computeK 0 rate : ℂ) ≠ 0 := by exact_mod_cast hKp.ne'
    have hd : (((computeK 0 rate * t2 - computeK 0 rate * t1 : ℝ)) : ℂ) ≠ 0 := by
      exact_mod_cast (sub_pos.2 hw12).ne'
    have hz1' : z + 1 ≠ 0 := by rwa [Ne, add_eq_zero_iff_eq_neg]
    have hz2' : z - 1 ≠ 0 := sub_ne_zero.2 hz2
    rw [hom_eq_analog proto hp.degree _ _ (mul_ne_zero (mul_ne_zero hd (mul_ne_zero hK hz2')) hz1')]
    congr 1
    have hd' : (t2 : ℂ) - t1 ≠ 0 := by
      intro h'; apply hd; push_cast; rw [← mul_sub, h', mul_zero]
    subst hs
    push_cast
    rw [← mul_sub]
    field_simp

/-- **C60, partial.** Bandstop designs: the prototype at `(t2 - t1) s / (s² + t1 t2)`, with `s`, `t1`, `t2` as for
`C60_bandpass_partial`, wherever `s² + t1 t2 ≠ 0`. Missing: real roots `p` with `((t2 - t1) / p / 2)² > t1 t2`, and
digital poles or zeros of magnitude between 0 and `1e-5`. -/
theorem C60_bandstop_partial (proto : PZ) (hp : Prototype proto) (hpoles : poles proto ≠ []) (rate low high : ℝ)
    (hr : 0 < rate) (h0 : 0 < low) (hlh : low < high) (h : high < rate / 2) (t1 t2 : ℝ)
    (ht1 : t1 = Real.tan (Real.pi * low / rate)) (ht2 : t2 = Real.tan (Real.pi * high / rate))
    (hlone : ∀ p, p ∈ proto.lonePoles ∨ p ∈ proto.loneZeros → ((t2 - t1) / p / 2) ^ 2 ≤ t2 * t1)
    (hroots : RootsAbove (1 / 10 ^ 5) (bandstopPZ proto rate low high)) :
    ∃ cs, bandstopCoefficients (1 / 10 ^ 10) proto rate low high = some cs ∧ ∀ z s : ℂ, z ≠ 0 → z ≠ -1 →
      s = (z - 1) / (z + 1) → s ^ 2 + t1 * t2 ≠ 0 →
      evalCascade Complex.ofRealHom cs z = analogSystem proto ((t2 - t1) * s / (s ^ 2 + t1 * t2)) := by
  obtain ⟨hw1, hw12⟩ := band_conditions hr h0 hlh h
  have hKp := computeK_pos hr (le_refl 0) (by linarith)
  obtain ⟨cs, e, _, hcs⟩ := C50_coefficients_partial (bandstopPZ proto rate low high) hroots (Or.inr (by
    rw [Ne, poles_eq_nil] at hpoles ⊢
    rintro ⟨-, h2⟩
    unfold bandstopPZ PZ.bilinear PZ.shift PZ.mapFrequency at h2
    exact hpoles (shift_nil h2)))
  refine ⟨cs, ?_, fun z s hz hz1 hs hne => ?_⟩
  · unfold bandstopCoefficients; rw [if_pos ⟨hr, h0.le, hlh, h⟩]; exact e
  · rw [hcs z hz, bandstopPZ_eq, bilinear_hom (bandstopAnalog_proper hp hw1.le hw12 hKp) z hz]
    rw [prewarp_eq hr low, prewarp_eq hr high, ← ht1, ← ht2] at *
    have sc : ∀ p : ℝ, ((t2 - t1) / p / 2) ^ 2 ≤ t2 * t1 →
        ((computeK 0 rate * t2 - computeK 0 rate * t1) / p / 2) ^ 2 ≤ computeK 0 rate * t2 * (computeK 0 rate * t1) := by
      intro p hp'
      have := scale_condition (p := p⁻¹) hKp (by rwa [← div_eq_mul_inv])
      rwa [← div_eq_mul_inv] at this
    rw [bandstopAnalog_hom hp (by nlinarith) (fun p hp' => sc p (hlone p (Or.inl hp')))
      (fun p hp' => sc p (hlone p (Or.inr hp')))]
    have hK : (computeK 0 rate : ℂ) ≠ 0 := by exact_mod_cast hKp.ne'
    have hz1' : z + 1 ≠ 0 := by rwa [Ne, add_eq_zero_iff_eq_neg]
    have hfac : ((computeK 0 rate : ℂ) * (z - 1)) ^ 2 + ((computeK 0 rate * t2 * (computeK 0 rate * t1) : ℝ) : ℂ) * (z + 1) ^ 2
        = ((computeK 0 rate : ℂ) * (z + 1)) ^ 2 * (s ^ 2 + t1 * t2) := by
      subst hs
      push_cast
      field_simp
    rw [hfac, hom_eq_analog proto hp.degree _ _ (mul_ne_zero (pow_ne_zero 2 (mul_ne_zero hK hz1')) hne)]
    congr 1
    have hsz : z - 1 = s * (z + 1) := by rw [hs]; field_simp
    rw [hsz]
    push_cast
    rw [← mul_sub]
    field_simp

/-! ### C60: stability -/

theorem bilinear_norm {K : ℝ} (hK : 0 < K) {p : ℂ} (hp : p.re < 0) : ‖((K : ℂ) + p) / (K - p)‖ < 1 := by
  have h1 : Complex.normSq ((K : ℂ) + p) < Complex.normSq (K - p) := by
    rw [Complex.normSq_apply, Complex.normSq_apply]
    simp
    nlinarith [mul_neg_of_pos_of_neg hK hp]
  have h2 : 0 < Complex.normSq (K - p) := lt_of_le_of_lt (Complex.normSq_nonneg _) h1
  have h3 : ‖((K : ℂ) + p) / (K - p)‖ ^ 2 < 1 := by
    rw [← Complex.normSq_eq_norm_sq, Complex.normSq_div, div_lt_one h2]; exact h1
  nlinarith [norm_nonneg (((K : ℂ) + p) / (K - p))]

theorem bilinear_poles {K : ℝ} (hK : 0 < K) {f : PZ} (h1 : ∀ p ∈ f.lonePoles, p < 0)
    (h2 : ∀ p ∈ f.pairedPoles, p.re < 0) : ∀ q ∈ poles (f.bilinear K), ‖q‖ < 1 := by
  intro q hq
  unfold poles PZ.bilinear at hq
  rcases List.mem_append.1 hq with hq | hq
  · dsimp only at hq
    rw [List.map_map] at hq
    obtain ⟨p, hp, rfl⟩ := List.mem_map.1 hq
    have := bilinear_norm hK (p := (p : ℂ)) (by simpa using h1 p hp)
    simpa using this
  · obtain ⟨q', hq', hq⟩ := List.mem_flatMap.1 hq
    obtain ⟨p, hp, rfl⟩ := List.mem_map.1 hq'
    have := bilinear_norm hK (h2 p hp)
    simp only [List.mem_cons, List.not_mem_nil, or_false] at hq
    rcases hq with rfl | rfl
    · exact this
    · rw [RCLike.norm_conj]; exact this

theorem quad_re {r q : ℂ} {c : ℝ} (hr : r.re < 0) (hc : 0 < c) (h : q ^ 2 - 2 * r * q + (c : ℝ) = 0) : q.re < 0 := by
  have h1 := congrArg Complex.re h
  have h2 := congrArg Complex.im h
  obtain ⟨a, b⟩ := q
  obtain ⟨u, v⟩ := r
  simp [pow_two] at h1 h2
  dsimp only at hr ⊢
  by_contra hn
  push Not at hn
  have h4 : c * a + a * (a * a + b * b) - 2 * u * (a * a + b * b) = 0 := by linear_combination a * h1 + b * h2
  have h5 : 0 ≤ c * a := mul_nonneg hc.le hn
  have h6 : 0 ≤ a * (a * a + b * b) := mul_nonneg hn (add_nonneg (mul_self_nonneg _) (mul_self_nonneg _))
  have h7 : 0 ≤ -u * (a * a + b * b) := mul_nonneg (by linarith)
    (add_nonneg (mul_self_nonneg _) (mul_self_nonneg _))
  have h8 : a * a + b * b = 0 := by
    have : -u * (a * a + b * b) = 0 := by linarith
    rcases mul_eq_zero.1 this with h | h
    · linarith
    · exact h
  have ha : a = 0 := by nlinarith [mul_self_nonneg a, mul_self_nonneg b]
  have hb : b = 0 := by nlinarith [mul_self_nonneg a, mul_self_nonneg b]
  rw [ha, hb] at h1
  linarith

/-- **C60.** Stability: for every prototype with poles in the open left half plane and all band edges strictly
between 0 and the Nyquist frequency, the poles of the four designs lie strictly inside the unit circle. -/
theorem C60_stable (proto : PZ) (hp : Prototype proto) (rate low high : ℝ) (hr : 0 < rate) (h0 : 0 < low)
    (hlh : low < high) (h : high < rate / 2) :
    (∀ q ∈ poles (lowpassPZ proto rate high), ‖q‖ < 1) ∧ (∀ q ∈ poles (highpassPZ proto rate high), ‖q‖ < 1) ∧
    (∀ q ∈ poles (bandpassPZ proto rate low high), ‖q‖ < 1) ∧
    ∀ q ∈ poles (bandstopPZ proto rate low high), ‖q‖ < 1 := by
  obtain ⟨hw1, hw12⟩ := band_conditions hr h0 hlh h
  have hw2 := hw1.trans hw12
  have hKp := computeK_pos hr (le_refl 0) (by linarith)
  have hdiv : ∀ (a : ℝ) (p : ℂ), 0 < a → p.re < 0 → ((a : ℂ) / p).re < 0 := by
    intro a p ha hp'
    rw [Complex.div_re]
    have : 0 < Complex.normSq p := Complex.normSq_pos.2 (by rintro rfl; simp at hp')
    simp
    exact div_neg_of_neg_of_pos (mul_neg_of_pos_of_neg ha hp') this
  refine ⟨bilinear_poles hKp ?_ ?_, bilinear_poles hKp ?_ ?_, bilinear_poles hKp ?_ ?_, bilinear_poles hKp ?_ ?_⟩
  · intro q hq
    obtain ⟨p, hp', rfl⟩ := List.mem_map.1 hq
    have := hp.lonePoles p hp'
    simp; exact mul_neg_of_pos_of_neg hw2 this
  · intro q hq
    obtain ⟨p, hp', rfl⟩ := List.mem_map.1 hq
    have := hp.pairedPoles p hp'
    simp; exact mul_neg_of_pos_of_neg hw2 this
  · intro q hq
    obtain ⟨p, hp', rfl⟩ := List.mem_map.1 hq
    exact hdiv _ _ hw2 (by simpa using hp.lonePoles p hp')
  · intro q hq
    obtain ⟨p, hp', rfl⟩ := List.mem_map.1 hq
    exact hdiv _ _ hw2 (hp.pairedPoles p hp')
  · intro q hq; cases hq
  · intro q hq
    obtain ⟨r, hr', hq⟩ := shift_mem hq
    refine quad_re ?_ ?_ hq
    · rcases hr' with ⟨p, hp', rfl⟩ | hr'
      · obtain ⟨p', hp'', rfl⟩ := List.mem_map.1 hp'
        have := hp.lonePoles p' hp''
        have e : (((prewarp high rate - prewarp low rate : ℝ) : ℂ) * (p' : ℂ) / 2)
          = (((prewarp high rate - prewarp low rate) * p' / 2 : ℝ) : ℂ) := by push_cast; ring
        dsimp only
        rw [e, Complex.ofReal_re, Complex.ofReal_re]
        nlinarith
      · obtain ⟨p', hp'', rfl⟩ := List.mem_map.1 hr'
        have := hp.pairedPoles p' hp''
        rw [mul_div_assoc, Complex.re_ofReal_mul]
        have e : (p' / 2).re = p'.re / 2 := by simp
        rw [e]
        nlinarith
    · rw [Real.mul_self_sqrt (by nlinarith)]; nlinarith
  · intro q hq; cases hq
  · intro q hq
    obtain ⟨r, hr', hq⟩ := shift_mem hq
    refine quad_re ?_ ?_ hq
    · rcases hr' with ⟨p, hp', rfl⟩ | hr'
      · obtain ⟨p', hp'', rfl⟩ := List.mem_map.1 hp'
        have := hdiv (prewarp high rate - prewarp low rate) (p' : ℂ) (by linarith)
          (by simpa using hp.lonePoles p' hp'')
        rw [Complex.ofReal_re]
        have e : (((prewarp high rate - prewarp low rate : ℝ) : ℂ) / (p' : ℂ) / 2).re
          = (((prewarp high rate - prewarp low rate : ℝ) : ℂ) / (p' : ℂ)).re / 2 := by simp
        rw [e]; linarith
      · obtain ⟨p', hp'', rfl⟩ := List.mem_map.1 hr'
        have := hdiv (prewarp high rate - prewarp low rate) p' (by linarith) (hp.pairedPoles p' hp'')
        have e : (((prewarp high rate - prewarp low rate : ℝ) : ℂ) / p' / 2).re
          = (((prewarp high rate - prewarp low rate : ℝ) : ℂ) / p').re / 2 := by simp
        rw [e]; linarith
    · rw [Real.mul_self_sqrt (by nlinarith)]; nlinarith

/-! ### C48: the band root mapping -/

/-- **C48, partial.** The roots produced for the poles (zeros) are, with multiplicity, the solutions of
`s² - 2 p s + center² = 0`, `p` ranging over all poles (zeros), if `p² ≤ center²` for the real ones. Missing (and
false): real roots with `p² > center²` (`C48_violation`). -/
theorem C48_shift_partial (f : PZ) (center : ℝ) (hp : ∀ p ∈ f.lonePoles, p * p ≤ center * center)
    (hz : ∀ p ∈ f.loneZeros, p * p ≤ center * center) (s : ℂ) :
    ((poles (f.shift center)).map (s - ·)).prod
      = ((poles f).map fun p => s ^ 2 - 2 * p * s + (center : ℂ) ^ 2).prod ∧
    ((zeros (f.shift center)).map (s - ·)).prod
      = ((zeros f).map fun p => s ^ 2 - 2 * p * s + (center : ℂ) ^ 2).prod := by
  have key : ∀ lone paired, rootProd (bandQuad (center * center) s 1) lone paired
      = ((lone.map (fun p : ℝ => (p : ℂ)) ++ paired.flatMap fun p => [p, conj p]).map
          fun p => s ^ 2 - 2 * p * s + (center : ℂ) ^ 2).prod := by
    intro lone paired
    rw [rootProd_eq]
    congr 1
    funext p
    unfold bandQuad
    push_cast; ring
  have h1 : ∀ lone paired, ((List.map (fun p : ℝ => (p : ℂ)) lone ++
      List.flatMap (fun p => [p, conj p]) paired).map (s - ·)).prod
      = rootProd (fun r => s - r * 1) lone paired := by
    intro lone paired
    rw [rootProd_eq]
    congr 1
    funext r
    ring
  refine ⟨?_, ?_⟩
  · rw [poles, poles, h1, ← key]
    exact shift_rootProd center s 1 f.lonePoles f.pairedPoles hp
  · rw [zeros, zeros, h1, ← key]
    exact shift_rootProd center s 1 f.loneZeros f.pairedZeros hz

theorem csqrt_of_nonneg {x : ℝ} (hx : 0 ≤ x) : csqrt ((x ^ 2 : ℝ) : ℂ) = x := by
  unfold csqrt
  rw [show (1 / 2 : ℂ) = ((1 / 2 : ℝ) : ℂ) by push_cast; ring, ← Complex.ofReal_cpow (sq_nonneg x),
    ← Real.sqrt_eq_rpow, Real.sqrt_sq hx]

/-- **C48, finding.** For a real pole `p` with `p² > center²` the code keeps only `p + √(p² - center²)` and its
conjugate, which is the same number: for `p = -5/2` and `center² = 6` the solutions are `-2` and `-3`, the code
produces `-2` twice. -/
theorem C48_violation : poles ((⟨[], [-5 / 2], [], [], 1⟩ : PZ).shift (√6)) = [-2, -2] ∧
    ∀ s : ℂ, s ^ 2 - 2 * ((-5 / 2 : ℝ) : ℂ) * s + (√6 : ℝ) ^ 2 = (s - -2) * (s - -3) := by
  have h6 : √6 * √6 = (6 : ℝ) := Real.mul_self_sqrt (by norm_num)
  refine ⟨?_, ?_⟩
  · have e : (-5 / 2 : ℝ) * (-5 / 2) - √6 * √6 = (1 / 2) ^ 2 := by rw [h6]; norm_num
    simp only [poles, PZ.shift, List.map_cons, List.map_nil, List.flatMap_nil, List.append_nil, List.nil_append,
      List.flatMap_cons, e]
    rw [csqrt_of_nonneg (by norm_num)]
    have : (((-5 / 2 : ℝ) : ℂ) + ((1 / 2 : ℝ) : ℂ)) = ((-2 : ℝ) : ℂ) := by push_cast; norm_num
    rw [this, Complex.conj_ofReal]
    norm_num
  · intro s
    have : ((√6 : ℝ) : ℂ) ^ 2 = 6 := by rw [pow_two, ← Complex.ofReal_mul, h6]; norm_num
    rw [this]
    push_cast
    ring

/-- Non-vacuity: a real pole and a pair of poles. -/
example (s : ℂ) : ((poles ((⟨[], [-1], [], [⟨-1, 2⟩], 1⟩ : PZ).shift 3)).map (s - ·)).prod
    = ((poles ⟨[], [-1], [], [⟨-1, 2⟩], 1⟩).map fun p => s ^ 2 - 2 * p * s + ((3 : ℝ) : ℂ) ^ 2).prod :=
  (C48_shift_partial _ 3 (by simp; norm_num) (by simp) s).1

/-! ### Witnesses for C60 -/

/-- The first-order Butterworth prototype `1 / (s + 1)`. -/
theorem butterworth_one : butterworth 1 = ⟨[], [-1], [], [], 1⟩ := by
  have := butterworth_gain 1
  unfold butterworth PZ.normalizeGain PZ.empty at this ⊢
  dsimp only at this ⊢
  rw [this]
  simp

/-- **C60, finding.** A bandpass from the first-order Butterworth prototype at sampling rate 1, with edges
`arctan(1/6)/π` and `1/4` (about 2.4 octaves): at the upper edge, `z = i`, the prototype at the mapped frequency has
power `1/2`, the designed cascade `9/16`. -/
theorem C60_bandpass_violation : ∃ cs, bandpassCoefficients (1 / 10 ^ 10) (butterworth 1) 1
      (Real.arctan (1 / 6) / Real.pi) (1 / 4) = some cs ∧
    Complex.normSq (evalCascade Complex.ofRealHom cs Complex.I) = 9 / 16 ∧
    Real.tan (Real.pi * (Real.arctan (1 / 6) / Real.pi) / 1) = 1 / 6 ∧ Real.tan (Real.pi * (1 / 4) / 1) = 1 ∧
    (Complex.I - 1) / (Complex.I + 1) = Complex.I ∧
    Complex.normSq (analogSystem (butterworth 1)
      ((Complex.I ^ 2 + (1 / 6 : ℝ) * (1 : ℝ)) / (((1 : ℝ) - (1 / 6 : ℝ)) * Complex.I))) = 1 / 2 := by
  have hpi := Real.pi_pos
  have hpi0 := hpi.ne'
  have t1 : Real.tan (Real.pi * (Real.arctan (1 / 6) / Real.pi) / 1) = 1 / 6 := by
    rw [div_one, mul_div_cancel₀ _ hpi0, Real.tan_arctan]
  have t2 : Real.tan (Real.pi * (1 / 4) / 1) = 1 := by
    rw [show Real.pi * (1 / 4) / 1 = Real.pi / 4 by ring, Real.tan_pi_div_four]
  have ha : 0 < Real.arctan (1 / 6) := by
    rw [← Real.arctan_zero]; exact Real.arctan_strictMono (by norm_num)
  have hb : Real.arctan (1 / 6) < Real.pi / 4 := by
    rw [← Real.arctan_one]; exact Real.arctan_strictMono (by norm_num)
  have hK : computeK 0 1 = 2 := by unfold computeK; rw [if_pos (by norm_num)]; norm_num
  have hw1 : prewarp (Real.arctan (1 / 6) / Real.pi) 1 = 1 / 3 := by rw [prewarp_eq one_pos, t1, hK]; norm_num
  have hw2 : prewarp (1 / 4) 1 = 2 := by rw [prewarp_eq one_pos, t2, hK]; norm_num
  have hsq : √((2 : ℝ) * (1 / 3)) * √((2 : ℝ) * (1 / 3)) = 2 / 3 := by
    rw [Real.mul_self_sqrt (by norm_num)]; norm_num
  have hpz : bandpassPZ (butterworth 1) 1 (Real.arctan (1 / 6) / Real.pi) (1 / 4)
      = ⟨[1, -1], [], [], [1 / 2], 15 / 32⟩ := by
    rw [bandpassPZ_eq, hw1, hw2, hK, butterworth_one]
    have hm : (PZ.mapFrequency ⟨[], [-1], [], [], 1⟩ fun s => ((2 - 1 / 3 : ℝ) : ℂ) * s / 2)
        = ⟨[], [-5 / 6], [], [], 1⟩ := by
      unfold PZ.mapFrequency
      simp only [List.map_nil, List.map_cons]
      rw [show ((2 - 1 / 3 : ℝ) : ℂ) * ((-1 : ℝ) : ℂ) / 2 = ((-5 / 6 : ℝ) : ℂ) by push_cast; norm_num,
        Complex.ofReal_re]
    have e : (-5 / 6 : ℝ) * (-5 / 6) - 2 / 3 = (1 / 6) ^ 2 := by norm_num
    have hs : PZ.shift ⟨[], [-5 / 6], [], [], 1⟩ (√(2 * (1 / 3))) = ⟨[], [], [], [-2 / 3], 1⟩ := by
      unfold PZ.shift
      simp only [List.map_nil, List.map_cons, hsq, e, List.flatMap_nil, List.append_nil]
      rw [csqrt_of_nonneg (by norm_num)]
      congr 2
      push_cast; norm_num
    have hb : bandpassAnalog ⟨[], [-1], [], [], 1⟩ (1 / 3) 2 = ⟨[0], [], [], [-2 / 3], 5 / 3⟩ := by
      unfold bandpassAnalog
      dsimp only
      rw [hm, hs]
      simp [PZ.relativeDegree, PZ.polesDegree, PZ.zerosDegree]
      norm_num
    rw [hb]
    unfold PZ.bilinear
    have hev : PZ.eval ⟨[0], [], [], [-2 / 3], 5 / 3⟩ ((2 : ℝ) : ℂ) = ((-15 / 32 : ℝ) : ℂ) := by
      simp only [PZ.eval, List.foldl_cons, List.foldl_nil]
      rw [show (-2 / 3 : ℂ) = ((-2 / 3 : ℝ) : ℂ) by push_cast; ring, Complex.conj_ofReal]
      push_cast; norm_num
    rw [hev]
    simp [PZ.relativeDegree, PZ.polesDegree, PZ.zerosDegree]
    norm_num
  obtain ⟨cs, e, _, hcs⟩ := C50_coefficients_partial (bandpassPZ (butterworth 1) 1 (Real.arctan (1 / 6) / Real.pi)
    (1 / 4)) (by
      rw [hpz]
      intro r hr
      right
      simp [zeros, poles] at hr
      rcases hr with (rfl | rfl) | rfl | rfl
      · norm_num
      · norm_num
      · norm_num
      · rw [map_ofNat]; norm_num) (by rw [hpz]; left; simp [zeros])
  have hII : (Complex.I - 1) / (Complex.I + 1) = Complex.I := by
    rw [div_eq_iff (by intro h; simpa using congrArg Complex.re h)]
    linear_combination -Complex.I_mul_I
  refine ⟨cs, ?_, ?_, t1, t2, hII, ?_⟩
  · unfold bandpassCoefficients
    rw [if_pos ⟨one_pos, by positivity, by rw [div_lt_iff₀ hpi]; linarith, by norm_num⟩]
    exact e
  · rw [hcs _ Complex.I_ne_zero, hpz]
    simp only [digitalSystem, zeros, poles, List.map_cons, List.map_nil, List.flatMap_nil, List.flatMap_cons,
      List.append_nil, List.nil_append, List.prod_cons, List.prod_nil, mul_one]
    rw [show (1 / 2 : ℂ) = ((1 / 2 : ℝ) : ℂ) by push_cast; ring, Complex.conj_ofReal]
    simp [Complex.normSq_apply]
    norm_num
  · rw [butterworth_one]
    simp only [analogSystem, zeros, poles, List.map_cons, List.map_nil, List.flatMap_nil, List.append_nil,
      List.prod_cons, List.prod_nil, mul_one]
    have e : (Complex.I ^ 2 + ((1 / 6 : ℝ) : ℂ) * ((1 : ℝ) : ℂ)) / ((((1 : ℝ) : ℂ) - ((1 / 6 : ℝ) : ℂ)) * Complex.I)
        = Complex.I := by
      rw [div_eq_iff (mul_ne_zero (by push_cast; norm_num) Complex.I_ne_zero)]
      push_cast
      linear_combination (1 / 6 : ℂ) * Complex.I_mul_I
    rw [e]
    simp [Complex.normSq_apply]
    norm_num

theorem norm_of_normSq {r : ℂ} (h : 1 / 2 ≤ Complex.normSq r) : (1 / 10 ^ 5 : ℝ) < ‖r‖ := by
  rw [Complex.normSq_eq_norm_sq] at h
  nlinarith [norm_nonneg r]

/-- Non-vacuity of `C60_bandpass_partial`, `C60_bandstop_partial`: a first-order prototype, band edges with tangents
`1/2` and `1`. -/
example : (∃ cs, bandpassCoefficients (1 / 10 ^ 10) (butterworth 1) 1 (Real.arctan (1 / 2) / Real.pi) (1 / 4) = some cs ∧
      evalCascade Complex.ofRealHom cs Complex.I = analogSystem (butterworth 1)
        ((Complex.I ^ 2 + (1 / 2 : ℝ) * (1 : ℝ)) / (((1 : ℝ) - (1 / 2 : ℝ)) * Complex.I))) ∧
    ∃ cs, bandstopCoefficients (1 / 10 ^ 10) (butterworth 1) 1 (Real.arctan (1 / 2) / Real.pi) (1 / 4) = some cs ∧
      evalCascade Complex.ofRealHom cs Complex.I = analogSystem (butterworth 1)
        (((1 : ℝ) - (1 / 2 : ℝ)) * Complex.I / (Complex.I ^ 2 + (1 / 2 : ℝ) * (1 : ℝ))) := by
  have hpi := Real.pi_pos
  have hpi0 := hpi.ne'
  have t1 : Real.tan (Real.pi * (Real.arctan (1 / 2) / Real.pi) / 1) = 1 / 2 := by
    rw [div_one, mul_div_cancel₀ _ hpi0, Real.tan_arctan]
  have t2 : Real.tan (Real.pi * (1 / 4) / 1) = 1 := by
    rw [show Real.pi * (1 / 4) / 1 = Real.pi / 4 by ring, Real.tan_pi_div_four]
  have ha : 0 < Real.arctan (1 / 2) := by
    rw [← Real.arctan_zero]; exact Real.arctan_strictMono (by norm_num)
  have hb : Real.arctan (1 / 2) < Real.pi / 4 := by
    rw [← Real.arctan_one]; exact Real.arctan_strictMono (by norm_num)
  have hK : computeK 0 1 = 2 := by unfold computeK; rw [if_pos (by norm_num)]; norm_num
  have hw1 : prewarp (Real.arctan (1 / 2) / Real.pi) 1 = 1 := by rw [prewarp_eq one_pos, t1, hK]; norm_num
  have hw2 : prewarp (1 / 4) 1 = 2 := by rw [prewarp_eq one_pos, t2, hK]; norm_num
  have hsq : √((2 : ℝ) * 1) * √((2 : ℝ) * 1) = 2 := by rw [Real.mul_self_sqrt (by norm_num)]; norm_num
  have hne : poles (butterworth 1) ≠ [] := by rw [butterworth_one]; simp [poles]
  have h74 : √(7 / 4) * √(7 / 4) = (7 / 4 : ℝ) := Real.mul_self_sqrt (by norm_num)
  have hlow : Real.arctan (1 / 2) / Real.pi < 1 / 4 := by rw [div_lt_iff₀ hpi]; linarith
  have hII : (Complex.I - 1) / (Complex.I + 1) = Complex.I := by
    rw [div_eq_iff (by intro h; simpa using congrArg Complex.re h)]
    linear_combination -Complex.I_mul_I
  have hI1 : Complex.I ≠ -1 := by intro h; simpa using congrArg Complex.im h
  have hI2 : Complex.I ≠ 1 := by intro h; simpa using congrArg Complex.im h
  have hs : PZ.shift ⟨[], [-1 / 2], [], [], 1⟩ (√(2 * 1)) = ⟨[], [], [], [⟨-1 / 2, √(7 / 4)⟩], 1⟩ := by
    unfold PZ.shift
    simp only [List.map_nil, List.map_cons, hsq, List.flatMap_nil, List.append_nil]
    rw [show (-1 / 2 : ℝ) * (-1 / 2) - 2 = -(7 / 4) by norm_num, csqrt_neg (by norm_num)]
    congr 2
    apply Complex.ext <;> simp
  have hpole : Complex.normSq (((2 : ℝ) + (⟨-1 / 2, √(7 / 4)⟩ : ℂ)) / ((2 : ℝ) - (⟨-1 / 2, √(7 / 4)⟩ : ℂ))) = 1 / 2 := by
    rw [Complex.normSq_div, Complex.normSq_apply, Complex.normSq_apply]
    simp only [Complex.add_re, Complex.add_im, Complex.sub_re, Complex.sub_im, Complex.ofReal_re, Complex.ofReal_im]
    rw [zero_add, zero_sub, neg_mul_neg, h74]
    norm_num
  refine ⟨?_, ?_⟩
  · obtain ⟨cs, e, h⟩ := C60_bandpass_partial (butterworth 1) (butterworth_prototype 1) hne 1
      (Real.arctan (1 / 2) / Real.pi) (1 / 4) one_pos (by positivity) hlow (by norm_num) (1 / 2) 1 t1.symm t2.symm
      (by
        intro p hp'
        rw [butterworth_one] at hp'
        simp at hp'
        subst hp'; norm_num)
      (by
        have hm : (PZ.mapFrequency ⟨[], [-1], [], [], 1⟩ fun s => ((2 - 1 : ℝ) : ℂ) * s / 2)
            = ⟨[], [-1 / 2], [], [], 1⟩ := by
          unfold PZ.mapFrequency
          simp only [List.map_nil, List.map_cons]
          rw [show ((2 - 1 : ℝ) : ℂ) * ((-1 : ℝ) : ℂ) / 2 = ((-1 / 2 : ℝ) : ℂ) by push_cast; norm_num,
            Complex.ofReal_re]
        intro r hr
        right
        rw [bandpassPZ, hw1, hw2, hK, butterworth_one] at hr
        rw [hm, hs] at hr
        simp only [zeros, poles, PZ.bilinear] at hr
        rcases hr with hr | hr
        · simp [PZ.relativeDegree, PZ.polesDegree, PZ.zerosDegree] at hr
          rcases hr with rfl | rfl <;> norm_num
        · simp only [List.map_nil, List.map_cons, List.flatMap_cons, List.flatMap_nil, List.nil_append,
            List.append_nil, List.mem_cons, List.not_mem_nil, or_false] at hr
          rcases hr with rfl | rfl
          · exact norm_of_normSq hpole.ge
          · rw [RCLike.norm_conj]; exact norm_of_normSq hpole.ge)
    exact ⟨cs, e, h Complex.I Complex.I Complex.I_ne_zero hI1 hI2 hII.symm⟩
  · obtain ⟨cs, e, h⟩ := C60_bandstop_partial (butterworth 1) (butterworth_prototype 1) hne 1
      (Real.arctan (1 / 2) / Real.pi) (1 / 4) one_pos (by positivity) hlow (by norm_num) (1 / 2) 1 t1.symm t2.symm
      (by
        intro p hp'
        rw [butterworth_one] at hp'
        simp at hp'
        subst hp'; norm_num)
      (by
        have hm : (PZ.mapFrequency ⟨[], [-1], [], [], 1⟩ fun s => ((2 - 1 : ℝ) : ℂ) / s / 2)
            = ⟨[], [-1 / 2], [], [], 1⟩ := by
          unfold PZ.mapFrequency
          simp only [List.map_nil, List.map_cons]
          rw [show ((2 - 1 : ℝ) : ℂ) / ((-1 : ℝ) : ℂ) / 2 = ((-1 / 2 : ℝ) : ℂ) by push_cast; norm_num,
            Complex.ofReal_re]
        have hzero : Complex.normSq (((2 : ℝ) + (⟨0, √(2 * 1)⟩ : ℂ)) / ((2 : ℝ) - (⟨0, √(2 * 1)⟩ : ℂ))) = 1 := by
          rw [Complex.normSq_div, Complex.normSq_apply, Complex.normSq_apply]
          simp only [Complex.add_re, Complex.add_im, Complex.sub_re, Complex.sub_im, Complex.ofReal_re,
            Complex.ofReal_im]
          rw [zero_add, zero_sub, neg_mul_neg, hsq]
          norm_num
        have hbig : ∀ q : ℂ, 1 / 2 ≤ Complex.normSq q → ∀ r, (r = q ∨ r = conj q) → (1 / 10 ^ 5 : ℝ) < ‖r‖ := by
          rintro q hq r (rfl | rfl)
          · exact norm_of_normSq hq
          · rw [RCLike.norm_conj]; exact norm_of_normSq hq
        intro r hr
        right
        rw [bandstopPZ, hw1, hw2, hK, butterworth_one] at hr
        rw [hm, hs] at hr
        simp only [zeros, poles, PZ.bilinear, PZ.relativeDegree, PZ.polesDegree, PZ.zerosDegree, List.length_nil,
          List.length_cons, List.map_nil, List.nil_append, List.map_cons, List.flatMap_cons, List.flatMap_nil,
          List.append_nil, Nat.cast_zero, mul_zero, zero_add, mul_one, add_zero, Nat.cast_one, sub_zero,
          Int.toNat_one, List.replicate_one, List.mem_cons, List.not_mem_nil, or_false, List.length_append,
          Nat.cast_ofNat, sub_self, Int.toNat_zero, List.replicate_zero, List.length_replicate] at hr
        rcases hr with hr | hr
        · exact hbig _ (by rw [mul_one] at hzero; rw [hzero]; norm_num) r hr
        · exact hbig _ hpole.ge r hr)
    refine ⟨cs, e, h Complex.I Complex.I Complex.I_ne_zero hI1 hII.symm ?_⟩
    rw [Complex.I_sq]; push_cast; norm_num

/-- Non-vacuity of `C60_bilinear_partial` and `C60_stable`. -/
example : digitalSystem (PZ.bilinear ⟨[-1], [-2], [], [⟨-1, 1⟩], 3⟩ 2) (-1) = 0 ∧
    ∀ q ∈ poles (bandstopPZ (butterworth 5) 48000 100 1000), ‖q‖ < 1 := by
  refine ⟨?_, (C60_stable _ (butterworth_prototype 5) 48000 100 1000 (by norm_num) (by norm_num) (by norm_num)
    (by norm_num)).2.2.2⟩
  rw [(C60_bilinear_partial 2 two_pos ⟨[-1], [-2], [], [⟨-1, 1⟩], 3⟩
    ⟨by norm_num, by decide, by simp, by simp; norm_num,
      by simp; intro h; have := congrArg Complex.im h; simp at this, by simp⟩ (-1) (by norm_num)).2 rfl]
  rw [if_neg (by decide)]

/-- Non-vacuity of `C60_lowpass_partial`, `C60_highpass_partial`: a first-order prototype at a quarter of the
sampling rate. -/
example : ∃ lo hi, lowpassCoefficients (1 / 10 ^ 10) (butterworth 1) 48000 12000 = some lo ∧
    highpassCoefficients (1 / 10 ^ 10) (butterworth 1) 48000 12000 = some hi ∧
    evalCascade Complex.ofRealHom lo (-1) = 0 ∧ evalCascade Complex.ofRealHom hi 1 = 0 := by
  have hK : computeK 0 48000 = 96000 := by unfold computeK; rw [if_pos (by norm_num)]; norm_num
  have hw : prewarp 12000 48000 = 96000 := by
    rw [prewarp_eq (by norm_num), hK, show Real.pi * 12000 / 48000 = Real.pi / 4 by ring, Real.tan_pi_div_four]
    norm_num
  have hne : poles (butterworth 1) ≠ [] := by rw [butterworth_one]; simp [poles]
  have hd := butterworth_degree 1
  obtain ⟨lo, e1, h1⟩ := C60_lowpass_partial (butterworth 1) (butterworth_prototype 1) hne 48000 12000 (by norm_num)
    (by norm_num) (by norm_num) (by
      intro r hr
      rw [lowpassPZ, hw, hK, butterworth_one] at hr
      simp [zeros, poles, PZ.bilinear, PZ.mapFrequency, PZ.relativeDegree, PZ.polesDegree, PZ.zerosDegree] at hr
      rcases hr with rfl | rfl
      · right; norm_num
      · left; rfl)
  obtain ⟨hi, e2, h2⟩ := C60_highpass_partial (butterworth 1) (butterworth_prototype 1) hne 48000 12000 (by norm_num)
    (by norm_num) (by norm_num) (by
      intro r hr
      rw [highpassPZ, hw, hK, butterworth_one] at hr
      simp [zeros, poles, PZ.bilinear, PZ.mapFrequency, PZ.relativeDegree, PZ.polesDegree, PZ.zerosDegree] at hr
      rcases hr with rfl | rfl
      · right; norm_num
      · left; norm_num)
  refine ⟨lo, hi, e1, e2, ?_, ?_⟩
  · rw [(h1 (-1) (by norm_num)).2 rfl, hd]; simp
  · rw [(h2 1 (by norm_num)).2 rfl, hd]; simp

end Verif.PoleZero
