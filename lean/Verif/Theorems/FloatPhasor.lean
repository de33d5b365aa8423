import Verif.Proof.FloatPhasor

/-!
# C99: the phasor rotator in floating point
-/

namespace Verif.FloatPhasor
open Verif.Rounding Verif.Phasor

/-- The machine computes with IEEE 754 `float` and `double`, rounding to nearest, and the cosine and sine of its C
library have an absolute error of at most four units of the last place of 1. -/
structure Machine.Ieee (m : Machine) : Prop where
  float : m.f = binary32
  double : m.d = binary64
  cosine : ∀ x, |m.cosine x - Real.cos x| ≤ 1 / 2 ^ 50
  sine : ∀ x, |m.sine x - Real.sin x| ≤ 1 / 2 ^ 50

theorem Machine.Ieee.small {m : Machine} (h : m.Ieee) : Small m (1 / 2 ^ 24) (1 / 2 ^ 150) where
  f := h.float ▸ binary32_accurate
  d := by
    intro x
    rw [h.double]
    refine (binary64_accurate x).trans ?_
    have := abs_nonneg x
    have e : (1 : ℝ) / 2 ^ 53 ≤ (1 / 2 ^ 24) ^ 2 := by norm_num
    have e2 : (1 : ℝ) / 2 ^ 1075 ≤ 1 / 2 ^ 150 := by
      apply one_div_le_one_div_of_le (by positivity)
      exact pow_le_pow_right₀ (by norm_num) (by norm_num)
    exact add_le_add (mul_le_mul_of_nonneg_right e this) e2
  cos := fun x => (h.cosine x).trans (by norm_num)
  sin := fun x => (h.sine x).trans (by norm_num)
  u0 := by norm_num
  u1 := by norm_num
  eta := by norm_num

/-- Such machines exist. -/
theorem ieee_exists : (⟨binary32, binary64, Real.cos, Real.sin⟩ : Machine).Ieee where
  float := rfl
  double := rfl
  cosine := by intro x; simp
  sine := by intro x; simp

/-- **C99.** The oscillator runs for ever: initialisation succeeds for every nonzero sample rate, and every state has
a next one. -/
theorem C99_total (m : Machine) (frequency rate : ℝ) (hr : rate ≠ 0) (n : ℕ) :
    ∃ o o', m.init frequency rate = some o ∧ m.Run o n o' := by
  unfold Machine.init
  rw [if_neg hr]
  have : ∀ o : Rotator, ∃ o', m.Run o n o' := by
    intro o
    induction n with
    | zero => exact ⟨o, rfl⟩
    | succ n ih =>
      obtain ⟨o'', h⟩ := ih
      by_cases hc : 1000 ≤ o''.counter + 1
      · exact ⟨_, o'', h, _, _, .inl rfl, .inl rfl, by rw [if_pos hc]; exact ⟨_, .inl rfl, rfl⟩⟩
      · exact ⟨_, o'', h, _, _, .inl rfl, .inl rfl, by rw [if_neg hc]⟩
  obtain ⟨o', h⟩ := this _
  exact ⟨_, o', rfl, h⟩

/-- **C99.** The amplitude never drifts: after any number of steps, in IEEE arithmetic and whatever multiplications
and additions the compiler fuses, the phasor is within 1/4000 of the unit circle. -/
theorem C99_amplitude {m : Machine} (hm : m.Ieee) {frequency rate : ℝ} {o o' : Rotator} {n : ℕ}
    (hi : m.init frequency rate = some o) (h : m.Run o n o') :
    |√(Phasor.cos o' ^ 2 + Phasor.sin o' ^ 2) - 1| ≤ 1 / 4000 := by
  have i := run_inv hm.small hi h
  have e : √(Phasor.cos o' ^ 2 + Phasor.sin o' ^ 2) = ‖phasor o'‖ := by
    rw [Complex.norm_def, Complex.normSq_apply]
    simp only [phasor, Phasor.cos, Phasor.sin, pow_two]
  rw [e]
  refine i.amp.trans ?_
  have : (o'.counter : ℝ) ≤ 999 := by
    have := i.count
    have : o'.counter ≤ 999 := by omega
    exact_mod_cast this
  norm_num
  linarith

/-- One more rounding of an approximation. -/
theorem round_again {rnd : ℝ → ℝ} {v η x y e t : ℝ} (h : Accurate rnd v η) (hv : 0 ≤ v) (hx : |x - y| ≤ e * |y| + t) :
    |rnd x - y| ≤ (e + v + v * e) * |y| + ((1 + v) * t + η) := by
  have a := h x
  have b := abs_add_le (rnd x - x) (x - y)
  rw [sub_add_sub_cancel] at b
  have c := abs_add_le (x - y) y
  rw [sub_add_cancel] at c
  have := mul_le_mul_of_nonneg_left (c.trans (add_le_add_left hx _)) hv
  nlinarith

/-- The angle per sample. -/
theorem radians_error {m : Machine} (hm : m.Ieee) {frequency rate : ℝ} (hr : 1 ≤ rate) :
    |m.radians frequency rate - 2 * Real.pi * frequency / rate| ≤
      61 / 10 ^ 9 * |2 * Real.pi * frequency / rate| + 1 / 10 ^ 40 := by
  have s := hm.small
  have r0 : 0 < rate := by linarith
  have pi3 := Real.pi_gt_three
  have p0 : (0 : ℝ) ≤ (1 / 2 ^ 24) ^ 2 := by norm_num
  have a1 : |m.d Real.pi - Real.pi| ≤ 1 / 10 ^ 14 * |Real.pi| + 0 := by
    refine (s.d Real.pi).trans ?_
    rw [abs_of_pos Real.pi_pos]
    norm_num
    linarith
  have a2 : |2 * m.d Real.pi - 2 * Real.pi| ≤ 1 / 10 ^ 14 * |2 * Real.pi| + 0 := by
    rw [← mul_sub, abs_mul, abs_mul, abs_of_pos (two_pos : (0:ℝ) < 2)]
    linarith
  have a3 : |m.d (2 * m.d Real.pi) - 2 * Real.pi| ≤ 3 / 10 ^ 14 * |2 * Real.pi| := by
    refine (round_again s.d p0 a2).trans ?_
    rw [abs_of_pos (by positivity : 0 < 2 * Real.pi)]
    norm_num
    linarith
  have a4 : |m.d (2 * m.d Real.pi) * frequency - 2 * Real.pi * frequency| ≤
      3 / 10 ^ 14 * |2 * Real.pi * frequency| + 0 := by
    rw [← sub_mul, abs_mul, abs_mul _ frequency]
    have := mul_le_mul_of_nonneg_right a3 (abs_nonneg frequency)
    linarith
  have a5 := round_again s.d p0 a4
  unfold Machine.radians
  generalize m.d (m.d (2 * m.d Real.pi) * frequency) = c at a5 ⊢
  have a6 : |c / rate - 2 * Real.pi * frequency / rate| ≤
      5 / 10 ^ 14 * |2 * Real.pi * frequency / rate| + 1 / 2 ^ 150 := by
    rw [← sub_div, abs_div, abs_div, abs_of_pos r0, div_le_iff₀ r0, add_mul, mul_assoc (5 / 10 ^ 14),
      div_mul_cancel₀ _ r0.ne']
    refine a5.trans ?_
    have := abs_nonneg (2 * Real.pi * frequency)
    generalize |2 * Real.pi * frequency| = w at this
    norm_num
    linarith
  have a7 := round_again s.f (by norm_num) (round_again s.d p0 a6)
  refine a7.trans ?_
  have := abs_nonneg (2 * Real.pi * frequency / rate)
  generalize |2 * Real.pi * frequency / rate| = w at this
  norm_num
  linarith

/-- **C99.** Phase and amplitude: after `n` steps, for every `n` and every frequency up to the sample rate (at least
1 Hz), cosine and sine differ from the true ones by at most `1 / 4000 + n / 10 ^ 6`. -/
theorem C99_phase {m : Machine} (hm : m.Ieee) {frequency rate : ℝ} {o o' : Rotator} {n : ℕ}
    (hr : 1 ≤ rate) (hf : |frequency| ≤ rate) (hi : m.init frequency rate = some o) (h : m.Run o n o') :
    |Phasor.cos o' - Real.cos (2 * Real.pi * frequency * n / rate)| ≤ 1 / 4000 + n / 10 ^ 6 ∧
    |Phasor.sin o' - Real.sin (2 * Real.pi * frequency * n / rate)| ≤ 1 / 4000 + n / 10 ^ 6 := by
  have i := run_inv hm.small hi h
  have e := radians_error hm (frequency := frequency) hr
  have r0 : 0 < rate := by linarith
  have b : |2 * Real.pi * frequency / rate| ≤ 6.3 := by
    rw [abs_div, abs_mul, abs_of_pos r0, div_le_iff₀ r0, abs_of_pos (by positivity : 0 < 2 * Real.pi)]
    have := Real.pi_lt_d2
    have := Real.pi_pos
    nlinarith [abs_nonneg frequency]
  have hamp : |‖phasor o'‖ - 1| ≤ 1 / 4000 := by
    refine i.amp.trans ?_
    have : (o'.counter : ℝ) ≤ 999 := by
      have := i.count
      have : o'.counter ≤ 999 := by omega
      exact_mod_cast this
    norm_num
    linarith
  obtain ⟨z0, z1⟩ := abs_le.1 hamp
  have nz : (‖phasor o'‖ : ℂ) ≠ 0 := by
    have : ‖phasor o'‖ ≠ 0 := by linarith
    exact_mod_cast this
  have k : ‖phasor o' - circle (n * m.radians frequency rate)‖ ≤ 1 / 4000 + 10 * (1 / 2 ^ 24) * n := by
    have e1 : phasor o' - phasor o' / ‖phasor o'‖ = (phasor o' / ‖phasor o'‖) * ((‖phasor o'‖ - 1 : ℝ) : ℂ) := by
      push_cast
      field_simp
    have e2 : ‖phasor o' - phasor o' / ‖phasor o'‖‖ ≤ 1 / 4000 := by
      rw [e1, norm_mul, norm_div, Complex.norm_real, Complex.norm_real, Real.norm_of_nonneg (norm_nonneg _),
        div_self (by linarith), one_mul]
      exact hamp
    have := norm_sub_le_norm_sub_add_norm_sub (phasor o') (phasor o' / ‖phasor o'‖)
      (circle (n * m.radians frequency rate))
    have := i.phase
    linarith
  have n0 : (0 : ℝ) ≤ n := Nat.cast_nonneg n
  have ang : |n * m.radians frequency rate - 2 * Real.pi * frequency * n / rate| ≤ n * (39 / 10 ^ 8) := by
    rw [show n * m.radians frequency rate - 2 * Real.pi * frequency * n / rate =
      n * (m.radians frequency rate - 2 * Real.pi * frequency / rate) by ring, abs_mul, abs_of_nonneg n0]
    apply mul_le_mul_of_nonneg_left _ n0
    refine e.trans ?_
    norm_num at b ⊢
    linarith
  constructor
  · have k1 := (Complex.abs_re_le_norm _).trans k
    have k2 := Real.abs_cos_sub_cos_le (n * m.radians frequency rate) (2 * Real.pi * frequency * n / rate)
    have := abs_add_le ((phasor o' - circle (n * m.radians frequency rate)).re)
      (Real.cos (n * m.radians frequency rate) - Real.cos (2 * Real.pi * frequency * n / rate))
    simp only [phasor, circle, Complex.sub_re, sub_add_sub_cancel] at this k1
    unfold Phasor.cos
    refine this.trans ?_
    norm_num at k1 ⊢
    linarith
  · have k1 := (Complex.abs_im_le_norm _).trans k
    have k2 := Real.abs_sin_sub_sin_le (n * m.radians frequency rate) (2 * Real.pi * frequency * n / rate)
    have := abs_add_le ((phasor o' - circle (n * m.radians frequency rate)).im)
      (Real.sin (n * m.radians frequency rate) - Real.sin (2 * Real.pi * frequency * n / rate))
    simp only [phasor, circle, Complex.sub_im, sub_add_sub_cancel] at this k1
    unfold Phasor.sin
    refine this.trans ?_
    norm_num at k1 ⊢
    linarith

/-- A second of 440 Hz at 48 kHz: there is such a run, its amplitude is right and its phase error below 0.05. -/
example : ∃ o o', (⟨binary32, binary64, Real.cos, Real.sin⟩ : Machine).init 440 48000 = some o ∧
    (⟨binary32, binary64, Real.cos, Real.sin⟩ : Machine).Run o 48000 o' ∧
    |Phasor.cos o' - Real.cos (2 * Real.pi * 440 * 48000 / 48000)| ≤ 1 / 20 := by
  obtain ⟨o, o', hi, h⟩ := C99_total ⟨binary32, binary64, Real.cos, Real.sin⟩ 440 48000 (by norm_num) 48000
  refine ⟨o, o', hi, h, ?_⟩
  have := (C99_phase ieee_exists (by norm_num) (by norm_num) hi h).1
  norm_num at this ⊢
  linarith

end Verif.FloatPhasor
