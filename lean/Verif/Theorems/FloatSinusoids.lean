import Verif.Proof.FloatSinusoids
import Verif.Theorems.FloatPhasor
import Verif.Proof.Ieee

/-!
# C109: the oscillators of `signal_vector_util.h` and `signal_generator.h` in floating point
-/

namespace Verif.FloatSinusoids
open Verif.Rounding

/-- The machine computes with IEEE 754 `double`, rounding to nearest, the cosine and sine of its C library have an absolute
error of at most four units of the last place of 1, and the conversion to the type of the elements has a relative error of
at most `v` and an absolute error of at most `t`: `float` has `v = 2 ^ -24`, integer types have `t = 1` (truncation). -/
structure Machine.Ieee (m : Machine) (v t : ℝ) : Prop where
  double : m.d = binary64
  cosine : ∀ x, |m.cosine x - Real.cos x| ≤ 1 / 2 ^ 50
  sine : ∀ x, |m.sine x - Real.sin x| ≤ 1 / 2 ^ 50
  element : Accurate m.element v t
  v0 : 0 ≤ v

section
variable {m : Machine} {v t : ℝ}

theorem eta_small : (1 : ℝ) / 2 ^ 1075 ≤ 1 / 2 ^ 200 :=
  one_div_le_one_div_of_le (by positivity) (pow_le_pow_right₀ (by norm_num) (by norm_num))

/-- The phasor before iteration `k`. -/
theorem phasor_error (hm : m.Ieee v t) {A φ θ : ℝ} (A0 : 0 ≤ A) {start : ℂ} {p : ℕ → ℂ}
    (hs : ‖start - A * Complex.exp (φ * Complex.I)‖ ≤ 283 / 200 * ((1 / 2 ^ 53 + (1 + 1 / 2 ^ 53) * (1 / 2 ^ 50)) * A + 1 / 2 ^ 1075))
    (h : m.Phasors start (m.polar 1 θ) p) {k : ℕ} (hk : k ≤ 2 ^ 40) :
    ‖p k - A * Complex.exp ((φ + k * θ : ℝ) * Complex.I)‖ ≤ A * (k + 1) / 2 ^ 47 + (k + 1) / 2 ^ 190 := by
  have hd : Accurate m.d (1 / 2 ^ 53) (1 / 2 ^ 1075) := hm.double ▸ binary64_accurate
  obtain ⟨h0, h1⟩ := h
  have ηs := eta_small
  have η0 := hd.eta_nonneg
  generalize (1 : ℝ) / 2 ^ 1075 = η at *
  have hw := polar_error hd (by norm_num) hm.cosine hm.sine (r := 1) (by norm_num) θ
  rw [Complex.ofReal_one, one_mul] at hw
  have nc : ‖Complex.exp (θ * Complex.I)‖ = 1 := Complex.norm_exp_ofReal_mul_I θ
  set c := Complex.exp (θ * Complex.I) with hc
  have hw' : ‖m.polar 1 θ - c‖ ≤ 1277 / 100 * (1 / 2 ^ 53) := by
    refine hw.trans ?_
    norm_num at ηs ⊢
    linarith
  have nw : ‖m.polar 1 θ‖ ≤ 101 / 100 := by
    have := norm_add_le (m.polar 1 θ - c) c
    rw [sub_add_cancel, nc] at this
    refine this.trans ((add_le_add_left hw' _).trans ?_)
    norm_num
  have step : ∀ k, ‖p (k + 1) - p k * c‖ ≤ 1 / 2 ^ 49 * ‖p k‖ + 5 * η := by
    intro k
    have e := (h1 k).error hd (by norm_num) (by norm_num)
    have tr := norm_add_le (p (k + 1) - p k * m.polar 1 θ) (p k * (m.polar 1 θ - c))
    rw [show p (k + 1) - p k * m.polar 1 θ + p k * (m.polar 1 θ - c) = p (k + 1) - p k * c by ring, norm_mul] at tr
    have n0 := norm_nonneg (p k)
    have a1 := mul_le_mul_of_nonneg_left nw n0
    have a2 := mul_le_mul_of_nonneg_left hw' n0
    norm_num at e a2 ⊢
    linarith
  have r := rotate_error nc (by norm_num) (by positivity) step k
  have kn : (k : ℝ) ≤ 1099511627776 := by exact_mod_cast hk
  have k0 : (0 : ℝ) ≤ k := Nat.cast_nonneg k
  have pw := FloatLadder.pow_linear (x := 1 / 2 ^ 49) (by norm_num) k (by
    refine (mul_le_mul_of_nonneg_left (mul_le_mul_of_nonneg_right kn (by norm_num)) (by norm_num)).trans ?_
    norm_num)
  have pw2 : (1 + (1 : ℝ) / 2 ^ 49) ^ k ≤ 2 := by
    refine pw.trans ?_
    norm_num
    linarith
  rw [h0] at r
  have ns : ‖start‖ ≤ 101 / 100 * A + 2 * η := by
    have := norm_add_le (start - A * Complex.exp (φ * Complex.I)) (A * Complex.exp (φ * Complex.I))
    rw [sub_add_cancel, norm_mul, Complex.norm_exp_ofReal_mul_I, Complex.norm_real, Real.norm_of_nonneg A0, mul_one] at this
    norm_num at hs ⊢
    linarith
  have e : (A : ℂ) * Complex.exp ((φ + k * θ : ℝ) * Complex.I) = A * Complex.exp (φ * Complex.I) * c ^ k := by
    rw [hc, ← Complex.exp_nat_mul, mul_assoc, ← Complex.exp_add]
    congr 2
    push_cast
    ring
  have tr := norm_add_le (p k - start * c ^ k) ((start - A * Complex.exp (φ * Complex.I)) * c ^ k)
  rw [show p k - start * c ^ k + (start - A * Complex.exp (φ * Complex.I)) * c ^ k =
    p k - A * Complex.exp (φ * Complex.I) * c ^ k by ring, ← e, norm_mul, norm_pow, nc, one_pow, mul_one] at tr
  refine tr.trans ((add_le_add r hs).trans ?_)
  have b1 : ((1 + (1 : ℝ) / 2 ^ 49) ^ k - 1) * ‖start‖ ≤ 2 * (k * (1 / 2 ^ 49)) * (101 / 100 * A + 2 * η) :=
    mul_le_mul (by linarith) ns (norm_nonneg _) (by positivity)
  have b2 := mul_le_mul_of_nonneg_right (mul_le_mul_of_nonneg_left pw2 k0) (by positivity : 0 ≤ 5 * η)
  have b3 := mul_le_mul_of_nonneg_left ηs k0
  have b4 := mul_nonneg k0 A0
  clear_value c
  clear tr e ns h0 r pw pw2 step nw hw' hw hs h1 hk kn
  generalize ((1 + (1 : ℝ) / 2 ^ 49) ^ k - 1) * ‖start‖ = x at *
  generalize (k : ℝ) * (1 + 1 / 2 ^ 49) ^ k * (5 * η) = y at *
  norm_num at *
  linarith

/-- **C109.** Sample `k` of `ComputePhasorVector` differs from `exp(i k step)` by at most `k + 1` times `2 ^ -46`, and the
error of the conversion to the type of the elements. -/
theorem C109_phasor (hm : m.Ieee v t) {step : ℝ} {n : ℕ} (hn : n ≤ 2 ^ 40) {signal : List ℂ}
    (h : m.PhasorVector step n signal) : signal.length = n ∧ ∀ k (hk : k < signal.length),
      |signal[k].re - Real.cos (k * step)| ≤ (k + 1) / 2 ^ 46 + (2 * v + t) ∧
      |signal[k].im - Real.sin (k * step)| ≤ (k + 1) / 2 ^ 46 + (2 * v + t) := by
  obtain ⟨p, hp, rfl⟩ := h
  refine ⟨by simp, fun k hk => ?_⟩
  have hk' : k < n := by simpa using hk
  simp only [List.getElem_map, List.getElem_range]
  have e := phasor_error hm (A := 1) (φ := 0) (θ := step) (by norm_num) (by simp; positivity) hp (k := k) (by omega)
  rw [zero_add, Complex.ofReal_one, one_mul] at e
  have kn : (k : ℝ) ≤ 1099511627776 := by exact_mod_cast (show k ≤ 2 ^ 40 by omega)
  have k0 : (0 : ℝ) ≤ k := Nat.cast_nonneg k
  have key : ∀ x y : ℝ, |y| ≤ 1 → |x - y| ≤ ‖p k - Complex.exp ((k * step : ℝ) * Complex.I)‖ →
      |m.element x - y| ≤ (k + 1) / 2 ^ 46 + (2 * v + t) := by
    intro x y hy hxy
    have a1 := hm.element x
    have a2 : |x - y| ≤ (k + 1) / 2 ^ 46 := by
      refine (hxy.trans e).trans ?_
      norm_num
      linarith
    have a3 : |x| ≤ 2 := by
      have := abs_add_le (x - y) y
      rw [sub_add_cancel] at this
      norm_num at a2
      linarith
    have a4 := abs_add_le (m.element x - x) (x - y)
    rw [sub_add_sub_cancel] at a4
    have a5 := mul_le_mul_of_nonneg_left a3 hm.v0
    linarith
  have r := Complex.abs_re_le_norm (p k - Complex.exp ((k * step : ℝ) * Complex.I))
  have i := Complex.abs_im_le_norm (p k - Complex.exp ((k * step : ℝ) * Complex.I))
  rw [Complex.sub_re, Complex.exp_ofReal_mul_I_re] at r
  rw [Complex.sub_im, Complex.exp_ofReal_mul_I_im] at i
  exact ⟨key _ _ (Real.abs_cos_le_one _) r, key _ _ (Real.abs_sin_le_one _) i⟩

/-- The step of the phase. -/
theorem step_error (hm : m.Ieee v t) {frequency rate : ℝ} (hr : 1 / 2 ^ 20 ≤ rate) (hf : |frequency| ≤ rate) :
    |m.step frequency rate - 2 * Real.pi * frequency / rate| ≤ 1 / 2 ^ 48 := by
  have hd : Accurate m.d (1 / 2 ^ 53) (1 / 2 ^ 1075) := hm.double ▸ binary64_accurate
  have ηs := eta_small
  have η0 := hd.eta_nonneg
  generalize (1 : ℝ) / 2 ^ 1075 = η at *
  have r0 : 0 < rate := lt_of_lt_of_le (by norm_num) hr
  have pi3 := Real.pi_gt_three
  have p0 : (0 : ℝ) ≤ 1 / 2 ^ 53 := by norm_num
  have a1 : |m.d Real.pi - Real.pi| ≤ 101 / 100 * (1 / 2 ^ 53) * |Real.pi| + 0 := by
    refine (hd Real.pi).trans ?_
    rw [abs_of_pos Real.pi_pos]
    norm_num at ηs ⊢
    linarith
  have a2 : |2 * m.d Real.pi - 2 * Real.pi| ≤ 101 / 100 * (1 / 2 ^ 53) * |2 * Real.pi| + 0 := by
    rw [← mul_sub, abs_mul, abs_mul, abs_of_pos (two_pos : (0:ℝ) < 2)]
    linarith
  have a3 : |m.d (2 * m.d Real.pi) - 2 * Real.pi| ≤ 203 / 100 * (1 / 2 ^ 53) * |2 * Real.pi| := by
    refine (FloatPhasor.round_again hd p0 a2).trans ?_
    rw [abs_of_pos (by positivity : 0 < 2 * Real.pi)]
    norm_num at ηs ⊢
    linarith
  have a4 : |m.d (2 * m.d Real.pi) * frequency - 2 * Real.pi * frequency| ≤
      203 / 100 * (1 / 2 ^ 53) * |2 * Real.pi * frequency| + 0 := by
    rw [← sub_mul, abs_mul, abs_mul _ frequency]
    have := mul_le_mul_of_nonneg_right a3 (abs_nonneg frequency)
    linarith
  have a5 := FloatPhasor.round_again hd p0 a4
  unfold Machine.step
  generalize m.d (m.d (2 * m.d Real.pi) * frequency) = c at a5 ⊢
  have a6 : |c / rate - 2 * Real.pi * frequency / rate| ≤
      304 / 100 * (1 / 2 ^ 53) * |2 * Real.pi * frequency / rate| + 1 / 2 ^ 180 := by
    rw [← sub_div, abs_div, abs_div, abs_of_pos r0, div_le_iff₀ r0, add_mul, mul_assoc (304 / 100 * (1 / 2 ^ 53)),
      div_mul_cancel₀ _ r0.ne']
    refine a5.trans ?_
    have := abs_nonneg (2 * Real.pi * frequency)
    generalize |2 * Real.pi * frequency| = w at this
    norm_num at ηs hr ⊢
    linarith
  have a7 := FloatPhasor.round_again hd p0 a6
  have b : |2 * Real.pi * frequency / rate| ≤ 6.3 := by
    rw [abs_div, abs_mul, abs_of_pos r0, div_le_iff₀ r0, abs_of_pos (by positivity : 0 < 2 * Real.pi)]
    have := Real.pi_lt_d2
    nlinarith [abs_nonneg frequency]
  refine a7.trans ?_
  have := abs_nonneg (2 * Real.pi * frequency / rate)
  generalize |2 * Real.pi * frequency / rate| = w at this b
  norm_num at ηs b ⊢
  linarith

theorem sine_error (hm : m.Ieee v t) {frequency rate A φ : ℝ} (hr : 1 / 2 ^ 20 ≤ rate) (hf : |frequency| ≤ rate) (A0 : 0 ≤ A)
    {p : ℕ → ℂ} (h : m.Phasors (m.polar A φ) (m.polar 1 (m.step frequency rate)) p) {k : ℕ} (hk : k ≤ 2 ^ 40) :
    |m.element (p k).im - A * Real.sin (2 * Real.pi * frequency / rate * k + φ)| ≤
      A * (k + 1) / 2 ^ 46 + (k + 1) / 2 ^ 190 + ((2 * A + 1) * v + t) := by
  have hd : Accurate m.d (1 / 2 ^ 53) (1 / 2 ^ 1075) := hm.double ▸ binary64_accurate
  have e := phasor_error hm A0 (polar_error hd (by norm_num) hm.cosine hm.sine A0 φ) h hk
  have s := step_error hm hr hf
  have i := (Complex.abs_im_le_norm _).trans e
  rw [Complex.sub_im, Complex.im_ofReal_mul, Complex.exp_ofReal_mul_I_im] at i
  have kn : (k : ℝ) ≤ 1099511627776 := by exact_mod_cast hk
  have k0 : (0 : ℝ) ≤ k := Nat.cast_nonneg k
  have l := Real.abs_sin_sub_sin_le (φ + k * m.step frequency rate) (2 * Real.pi * frequency / rate * k + φ)
  rw [show φ + k * m.step frequency rate - (2 * Real.pi * frequency / rate * k + φ) =
    k * (m.step frequency rate - 2 * Real.pi * frequency / rate) by ring, abs_mul, abs_of_nonneg k0] at l
  have l2 := mul_le_mul_of_nonneg_left (l.trans (mul_le_mul_of_nonneg_left s k0)) A0
  have sb := Real.abs_sin_le_one (2 * Real.pi * frequency / rate * k + φ)
  rw [← abs_of_nonneg A0, ← abs_mul, abs_of_nonneg A0, mul_sub] at l2
  have a0 := hm.element (p k).im
  have v0 := hm.v0
  have sb2 : |A * Real.sin (2 * Real.pi * frequency / rate * k + φ)| ≤ A := by
    rw [abs_mul, abs_of_nonneg A0]
    exact mul_le_of_le_one_right A0 sb
  have kA : A * k ≤ A * 1099511627776 := mul_le_mul_of_nonneg_left kn A0
  have kA0 : 0 ≤ A * k := mul_nonneg A0 k0
  clear s l e sb h hm
  generalize A * Real.sin (2 * Real.pi * frequency / rate * k + φ) = y at *
  generalize A * Real.sin (φ + k * m.step frequency rate) = z at *
  generalize (p k).im = x at *
  have a2 : |x - y| ≤ A * (k + 1) / 2 ^ 46 + (k + 1) / 2 ^ 190 := by
    have := abs_add_le (x - z) (z - y)
    rw [sub_add_sub_cancel] at this
    refine (this.trans (add_le_add i l2)).trans ?_
    norm_num
    linarith
  have a3 : |x| ≤ 2 * A + 1 := by
    have := abs_add_le (x - y) y
    rw [sub_add_cancel] at this
    norm_num at a2
    linarith
  have a4 := abs_add_le (m.element x - x) (x - y)
  rw [sub_add_sub_cancel] at a4
  have a5 := mul_le_mul_of_nonneg_left a3 v0
  linarith

/-- **C109.** Sample `k` of `ComputeSineWaveVector` differs from `sin(2 π frequency k / rate + phase)` by at most `k + 1` times
`2 ^ -45`, and the error of the conversion to the type of the elements. -/
theorem C109_sine_wave (hm : m.Ieee v t) {frequency rate phase : ℝ} (hr : 1 / 2 ^ 20 ≤ rate) (hf : |frequency| ≤ rate) {n : ℕ}
    (hn : n ≤ 2 ^ 40) {signal : List ℝ} (h : m.SineWaveVector frequency rate phase n signal) :
    signal.length = n ∧ ∀ k (hk : k < signal.length),
      |signal[k] - Real.sin (2 * Real.pi * frequency / rate * k + phase)| ≤ (k + 1) / 2 ^ 45 + (3 * v + t) := by
  obtain ⟨p, hp, rfl⟩ := h
  refine ⟨by simp, fun k hk => ?_⟩
  have hk' : k < n := by simpa using hk
  simp only [List.getElem_map, List.getElem_range]
  have e := sine_error hm hr hf (by norm_num) hp (k := k) (by omega)
  rw [one_mul] at e
  refine e.trans ?_
  have k0 : (0 : ℝ) ≤ k := Nat.cast_nonneg k
  norm_num
  linarith

/-- **C109.** Sample `k` of `GenerateSine` differs from `amplitude · sin(2 π frequency k / rate + phase)` by at most `k + 1`
times `2 ^ -46 · amplitude` (and underflow), and the error of the conversion to the type of the elements. -/
theorem C109_generate_sine (hm : m.Ieee v t) {frequency rate amplitude phase : ℝ} (hr : 1 / 2 ^ 20 ≤ rate) (hf : |frequency| ≤ rate)
    (ha : 0 ≤ amplitude) {n : ℕ} (hn : n ≤ 2 ^ 40) {signal : List ℝ}
    (h : m.GenerateSine n rate frequency amplitude phase signal) :
    signal.length = n ∧ ∀ k (hk : k < signal.length),
      |signal[k] - amplitude * Real.sin (2 * Real.pi * frequency / rate * k + phase)| ≤
        amplitude * (k + 1) / 2 ^ 46 + (k + 1) / 2 ^ 190 + ((2 * amplitude + 1) * v + t) := by
  obtain ⟨p, hp, rfl⟩ := h
  refine ⟨by simp, fun k hk => ?_⟩
  have hk' : k < n := by simpa using hk
  simp only [List.getElem_map, List.getElem_range]
  exact sine_error hm hr hf ha hp (k := k) (by omega)

/-- `double` elements, and a perfect library. -/
theorem ieee_double : (⟨binary64, fun x => x, Real.cos, Real.sin⟩ : Machine).Ieee 0 0 where
  double := rfl
  cosine := by intro x; simp
  sine := by intro x; simp
  element := by intro x; simp
  v0 := le_rfl

/-- The angle between samples of `GenerateSineEigen`. -/
theorem radians_error {frequency rate : ℝ} (hr : 1 / 2 ^ 20 ≤ rate) (hf : |frequency| ≤ rate) :
    |radiansPerSample binary32 binary64 frequency rate - 2 * Real.pi * frequency / rate| ≤ 64 / 10 * (1 / 2 ^ 24) := by
  have s := step_error ieee_double hr hf
  have r0 : 0 < rate := lt_of_lt_of_le (by norm_num) hr
  have b : |2 * Real.pi * frequency / rate| ≤ 6.29 := by
    rw [abs_div, abs_mul, abs_of_pos r0, div_le_iff₀ r0, abs_of_pos (by positivity : 0 < 2 * Real.pi)]
    have := Real.pi_lt_d4
    nlinarith [abs_nonneg frequency]
  change |binary32 (Machine.step ⟨binary64, fun x => x, Real.cos, Real.sin⟩ frequency rate) - _| ≤ _
  generalize Machine.step ⟨binary64, fun x => x, Real.cos, Real.sin⟩ frequency rate = x at *
  generalize 2 * Real.pi * frequency / rate = y at *
  have e := binary32_accurate x
  have t1 := abs_add_le (binary32 x - x) (x - y)
  rw [sub_add_sub_cancel] at t1
  have t2 := abs_add_le (x - y) y
  rw [sub_add_cancel] at t2
  norm_num at s b e ⊢
  linarith

/-- **C109.** Sample `k` of `GenerateSineEigen`, which computes the angles in `float`. (The sign of the phase is that of the
code, see C67.) -/
theorem C109_eigen {sine : ℝ → ℝ} (hs : ∀ x, |sine x - Real.sin x| ≤ 1 / 2 ^ 22) {frequency rate amplitude phase : ℝ}
    (hr : 1 / 2 ^ 20 ≤ rate) (hf : |frequency| ≤ rate) {n : ℕ} {signal : List ℝ}
    (h : SineEigen binary32 binary64 sine n rate frequency amplitude phase signal) :
    signal.length = n ∧ ∀ k (hk : k < signal.length),
      |signal[k] - amplitude * Real.sin (2 * Real.pi * frequency / rate * k - phase)| ≤
        |amplitude| * (k / 2 ^ 18 + |phase| / 2 ^ 22 + 1 / 2 ^ 20) + 1 / 2 ^ 149 := by
  refine ⟨h.1, fun k hk => ?_⟩
  obtain ⟨a, ha, e⟩ := h.2 k hk
  rw [e]
  have R := radians_error hr hf
  have r0 : 0 < rate := lt_of_lt_of_le (by norm_num) hr
  have b : |2 * Real.pi * frequency / rate| ≤ 6.29 := by
    rw [abs_div, abs_mul, abs_of_pos r0, div_le_iff₀ r0, abs_of_pos (by positivity : 0 < 2 * Real.pi)]
    have := Real.pi_lt_d4
    nlinarith [abs_nonneg frequency]
  clear h e
  generalize radiansPerSample binary32 binary64 frequency rate = ρ at *
  rw [show 2 * Real.pi * frequency / rate * k = k * (2 * Real.pi * frequency / rate) by ring]
  generalize 2 * Real.pi * frequency / rate = y at *
  have k0 : (0 : ℝ) ≤ k := Nat.cast_nonneg k
  -- the angle
  have a1 := ha.error binary32_accurate (by norm_num)
  rw [abs_neg] at a1
  have a2 := binary32_accurate (k : ℝ)
  rw [abs_of_nonneg k0] at a2
  have a3 : |ρ| ≤ 63 / 10 := by
    have := abs_add_le (ρ - y) y
    rw [sub_add_cancel] at this
    norm_num at R b ⊢
    linarith
  have a4 : |binary32 k * ρ - k * y| ≤ k * (128 / 10 * (1 / 2 ^ 24)) + 1 / 2 ^ 145 := by
    rw [show binary32 k * ρ - k * y = (binary32 k - k) * ρ + k * (ρ - y) by ring]
    refine (abs_add_le _ _).trans ?_
    rw [abs_mul, abs_mul, abs_of_nonneg k0]
    have b1 := mul_le_mul a2 a3 (abs_nonneg _) (by positivity)
    have b2 := mul_le_mul_of_nonneg_left R k0
    norm_num at b1 b2 ⊢
    linarith
  have a5 : |binary32 k * ρ| ≤ k * (63 / 10) + 1 / 2 ^ 145 := by
    have b1 := abs_add_le (binary32 k * ρ - k * y) (k * y)
    rw [sub_add_cancel, abs_mul (k : ℝ), abs_of_nonneg k0] at b1
    have b2 := mul_le_mul_of_nonneg_left b k0
    clear a1 a2
    generalize binary32 k * ρ = w at *
    norm_num at a4 b2 ⊢
    linarith
  have a6 : |a - (k * y - phase)| ≤ k * (3 / 2 ^ 20) + |phase| * (1 / 2 ^ 24) + 1 / 2 ^ 140 := by
    have b1 := abs_add_le (a - (binary32 k * ρ + -phase)) (binary32 k * ρ - k * y)
    rw [show a - (binary32 k * ρ + -phase) + (binary32 k * ρ - k * y) = a - (k * y - phase) by ring] at b1
    clear ha a2
    generalize binary32 k * ρ = w at *
    norm_num at a1 a4 a5 ⊢
    linarith
  -- sine, amplitude
  have c1 := Real.abs_sin_sub_sin_le a (k * y - phase)
  have c2 := hs a
  have c3 : |sine a - Real.sin (k * y - phase)| ≤ k * (3 / 2 ^ 20) + |phase| * (1 / 2 ^ 24) + (1 / 2 ^ 22 + 1 / 2 ^ 140) := by
    have := abs_add_le (sine a - Real.sin a) (Real.sin a - Real.sin (k * y - phase))
    rw [sub_add_sub_cancel] at this
    linarith
  have c4 : |sine a| ≤ 1 + 1 / 2 ^ 22 := by
    have := abs_add_le (sine a - Real.sin a) (Real.sin a)
    rw [sub_add_cancel] at this
    have := Real.abs_sin_le_one a
    linarith
  have c5 := binary32_accurate (sine a)
  have c6 : |binary32 (sine a) - Real.sin (k * y - phase)| ≤
      k * (3 / 2 ^ 20) + |phase| * (1 / 2 ^ 24) + 21 / 4 * (1 / 2 ^ 24) := by
    have := abs_add_le (binary32 (sine a) - sine a) (sine a - Real.sin (k * y - phase))
    rw [sub_add_sub_cancel] at this
    norm_num at c3 c4 c5 ⊢
    linarith
  have c7 : |binary32 (sine a)| ≤ 2 := by
    have := abs_add_le (binary32 (sine a) - sine a) (sine a)
    rw [sub_add_cancel] at this
    norm_num at c4 c5 ⊢
    linarith
  have c8 := binary32_accurate (binary32 (sine a) * amplitude)
  rw [abs_mul] at c8
  have A0 := abs_nonneg amplitude
  have c9 := mul_le_mul_of_nonneg_right c6 A0
  rw [← abs_mul] at c9
  have c10 := mul_le_mul_of_nonneg_right c7 A0
  have c11 := abs_add_le (binary32 (binary32 (sine a) * amplitude) - binary32 (sine a) * amplitude)
    ((binary32 (sine a) - Real.sin (k * y - phase)) * amplitude)
  rw [show binary32 (binary32 (sine a) * amplitude) - binary32 (sine a) * amplitude +
    (binary32 (sine a) - Real.sin (k * y - phase)) * amplitude =
    binary32 (binary32 (sine a) * amplitude) - amplitude * Real.sin (k * y - phase) by ring] at c11
  have d1 : 0 ≤ k * |amplitude| := mul_nonneg k0 A0
  have d2 : 0 ≤ |phase| * |amplitude| := mul_nonneg (abs_nonneg _) A0
  clear c6 c5 c7 c3 c1 c2
  generalize (binary32 (sine a) - Real.sin (k * y - phase)) * amplitude = W at *
  norm_num at c8 c9 c10 ⊢
  linarith

/-! ### The hypotheses are met -/

theorem Phasors.exists (m : Machine) (start w : ℂ) : ∃ p, m.Phasors start w p := by
  refine ⟨fun k => Nat.rec start (fun _ z => ⟨m.d (m.d (z.re * w.re) + m.d (-z.im * w.im)),
    m.d (m.d (z.re * w.im) + m.d (z.im * w.re))⟩) k, rfl, fun k => ⟨Or.inl rfl, Or.inl rfl⟩⟩

/-- `float` elements, and a library that rounds correctly. -/
theorem ieee_float :
    (⟨binary64, binary32, fun x => binary64 (Real.cos x), fun x => binary64 (Real.sin x)⟩ : Machine).Ieee (1 / 2 ^ 24) (1 / 2 ^ 150) where
  double := rfl
  cosine := by
    intro x
    refine (binary64_accurate _).trans ?_
    have := Real.abs_cos_le_one x
    have := eta_small
    generalize (1 : ℝ) / 2 ^ 1075 = η at *
    norm_num at *
    linarith
  sine := by
    intro x
    refine (binary64_accurate _).trans ?_
    have := Real.abs_sin_le_one x
    have := eta_small
    generalize (1 : ℝ) / 2 ^ 1075 = η at *
    norm_num at *
    linarith
  element := binary32_accurate
  v0 := by norm_num

/-- A day of 440 Hz at 48 kHz has an error of at most `2 ^ -12`. -/
example : ∃ signal, (⟨binary64, fun x => x, Real.cos, Real.sin⟩ : Machine).SineWaveVector 440 48000 1 (48000 * 86400) signal ∧
    ∀ k (hk : k < signal.length), |signal[k] - Real.sin (2 * Real.pi * 440 / 48000 * k + 1)| ≤ 1 / 2 ^ 12 := by
  obtain ⟨p, hp⟩ := Phasors.exists ⟨binary64, fun x => x, Real.cos, Real.sin⟩
    (Machine.polar ⟨binary64, fun x => x, Real.cos, Real.sin⟩ 1 1)
    (Machine.polar ⟨binary64, fun x => x, Real.cos, Real.sin⟩ 1 (Machine.step ⟨binary64, fun x => x, Real.cos, Real.sin⟩ 440 48000))
  have h : (⟨binary64, fun x => x, Real.cos, Real.sin⟩ : Machine).SineWaveVector 440 48000 1 (48000 * 86400) _ := ⟨p, hp, rfl⟩
  refine ⟨_, h, fun k hk => ?_⟩
  obtain ⟨hl, h⟩ := C109_sine_wave ieee_double (by norm_num) (by norm_num) (by norm_num) h
  refine (h k hk).trans ?_
  have : (k : ℝ) ≤ 4147200000 := by exact_mod_cast (show k ≤ 4147200000 by omega)
  norm_num
  linarith

/-- `GenerateSineEigen` has a result; for a second of 440 Hz at 48 kHz the bound allows an error of up to 0.19 (`k / 2 ^ 18`). -/
example : ∃ signal, SineEigen binary32 binary64 Real.sin 48000 48000 440 1 0 signal ∧
    ∀ k (hk : k < signal.length), |signal[k] - 1 * Real.sin (2 * Real.pi * 440 / 48000 * k - 0)| ≤ 1 / 5 := by
  have h : SineEigen binary32 binary64 Real.sin 48000 48000 440 1 0 ((List.range 48000).map fun k : ℕ => binary32
      (binary32 (Real.sin (binary32 (binary32 k * radiansPerSample binary32 binary64 440 48000 + -0))) * 1)) := by
    refine ⟨by rw [List.length_map, List.length_range], fun k hk => ⟨_, Or.inr rfl, ?_⟩⟩
    simp only [List.getElem_map, List.getElem_range]
  refine ⟨_, h, fun k hk => ?_⟩
  have hk' : k < 48000 := by rwa [List.length_map, List.length_range] at hk
  refine ((C109_eigen (by intro x; simp) (by norm_num) (by norm_num) h).2 k hk).trans ?_
  have : (k : ℝ) ≤ 48000 := by exact_mod_cast hk'.le
  norm_num
  linarith

end

end Verif.FloatSinusoids
