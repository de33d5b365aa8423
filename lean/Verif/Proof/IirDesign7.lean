import Verif.Proof.IirDesign6
import Mathlib.Analysis.SpecialFunctions.Trigonometric.Bounds
import Mathlib.Analysis.SpecialFunctions.Trigonometric.ArctanDeriv

/-!
# Lemmas: the four designs from a prototype
-/

namespace Verif.IirDesign
open Verif.PortableComplex Verif.IirDesign.Spec Verif.PoleZero
open scoped ComplexConjugate

theorem circle {θ : ℝ} (hθ : |θ| < Real.pi) (K : ℝ) :
    Complex.exp (θ * Complex.I) ≠ 0 ∧ Complex.exp (θ * Complex.I) ≠ -1 ∧
    (K : ℂ) * (Complex.exp (θ * Complex.I) - 1) / (Complex.exp (θ * Complex.I) + 1)
      = ((K * Real.tan (θ / 2) : ℝ) : ℂ) * Complex.I := by
  obtain ⟨h1, h2⟩ := abs_lt.1 hθ
  have hc : Real.cos (θ / 2) ≠ 0 := (Real.cos_pos_of_mem_Ioo ⟨by linarith, by linarith⟩).ne'
  have e : Complex.exp (θ * Complex.I) = ((Real.cos (θ / 2) : ℝ) + (Real.sin (θ / 2) : ℝ) * Complex.I) ^ 2 := by
    rw [Complex.ofReal_cos, Complex.ofReal_sin, ← Complex.exp_mul_I, pow_two, ← Complex.exp_add]
    congr 1
    push_cast
    ring
  have hcs : ((Real.cos (θ / 2) : ℝ) : ℂ) ^ 2 + ((Real.sin (θ / 2) : ℝ) : ℂ) ^ 2 = 1 := by
    rw [← Complex.ofReal_pow, ← Complex.ofReal_pow, ← Complex.ofReal_add, Real.cos_sq_add_sin_sq, Complex.ofReal_one]
  have hc' : ((Real.cos (θ / 2) : ℝ) : ℂ) ≠ 0 := by exact_mod_cast hc
  have hx : ((Real.cos (θ / 2) : ℝ) : ℂ) + (Real.sin (θ / 2) : ℝ) * Complex.I ≠ 0 := by
    intro h
    apply hc
    have := congrArg Complex.re h
    rwa [Complex.add_re, Complex.re_ofReal_mul, Complex.I_re, mul_zero, add_zero, Complex.ofReal_re] at this
  have hI := Complex.I_sq
  have es : Complex.exp (θ * Complex.I) + 1 = 2 * (Real.cos (θ / 2) : ℝ)
      * ((Real.cos (θ / 2) : ℝ) + (Real.sin (θ / 2) : ℝ) * Complex.I) := by
    rw [e]; linear_combination ((Real.sin (θ / 2) : ℝ) : ℂ) ^ 2 * hI - hcs
  have em : Complex.exp (θ * Complex.I) - 1 = 2 * Complex.I * (Real.sin (θ / 2) : ℝ)
      * ((Real.cos (θ / 2) : ℝ) + (Real.sin (θ / 2) : ℝ) * Complex.I) := by
    rw [e]; linear_combination (-((Real.sin (θ / 2) : ℝ) : ℂ) ^ 2) * hI + hcs
  refine ⟨Complex.exp_ne_zero _, ?_, ?_⟩
  · intro h
    rw [h, neg_add_cancel] at es
    exact mul_ne_zero (mul_ne_zero two_ne_zero hc') hx es.symm
  · rw [es, em, Real.tan_eq_sin_div_cos]
    generalize Real.cos (θ / 2) = c at *
    generalize Real.sin (θ / 2) = s at *
    push_cast
    rw [mul_comm (s : ℂ)] at hx ⊢
    field_simp

theorem tan_half_ne {θ : ℝ} (hθ : |θ| < Real.pi) (hne : θ ≠ 0) : Real.tan (θ / 2) ≠ 0 := by
  obtain ⟨h1, h2⟩ := abs_lt.1 hθ
  rcases lt_or_gt_of_ne hne with h | h
  · exact (Real.tan_neg_of_neg_of_pi_div_two_lt (by linarith) (by linarith)).ne
  · exact (Real.tan_pos_of_pos_of_lt_pi_div_two (by linarith) (by linarith)).ne'

theorem response_at {cs : List Coeffs} {f : Zpk} {rate : ℝ} (h : Discretizes cs f rate)
    (hp : ∀ r ∈ poles f, r.re < 0) {θ : ℝ} (hθ : |θ| < Real.pi) :
    response cs θ = system f (((2 * rate * Real.tan (θ / 2) : ℝ) : ℂ) * Complex.I) := by
  obtain ⟨h0, h1, e⟩ := circle hθ (2 * rate)
  rw [response, h.same _ h0 h1, e]
  intro p hpp
  rw [e]
  intro hh
  have := hp p hpp
  rw [hh, Complex.re_ofReal_mul, Complex.I_re, mul_zero] at this
  exact lt_irrefl _ this

theorem system_conj {f : Zpk} (hf : RealFilter f) (s : ℂ) : system f (conj s) = conj (system f s) := by
  rw [system_eq, system_eq, map_div₀, map_mul, ps_conj, ps_conj, ps_perm hf.1, ps_perm hf.2, Complex.conj_ofReal]

/-- The response of a real filter at `-w` is as large as at `w`. -/
theorem Proto.even {f : Zpk} {n : ℕ} {H : ℝ → ℝ} (h : Proto f n H) (w : ℝ) : H (-w) = H w := by
  rw [← h.power, ← h.power]
  have e : (((-w : ℝ) : ℂ)) * Complex.I = conj ((w : ℂ) * Complex.I) := by simp
  rw [e, system_conj h.real, Complex.norm_conj]

theorem prewarp_pos {rate hz : ℝ} (h0 : 0 < hz) (h : hz < rate / 2) :
    0 < Real.tan (Real.pi * hz / rate) ∧ 0 < bilinearPrewarp hz rate ∧ 0 < rate := by
  have hr : 0 < rate := by linarith
  have hp := Real.pi_pos
  have ht : 0 < Real.tan (Real.pi * hz / rate) := by
    refine Real.tan_pos_of_pos_of_lt_pi_div_two (by positivity) ?_
    rw [div_lt_iff₀ hr]
    nlinarith
  exact ⟨ht, by rw [bilinearPrewarp]; positivity, hr⟩

theorem prewarp_lt {rate low high : ℝ} (h0 : 0 < low) (hl : low < high) (h : high < rate / 2) :
    Real.tan (Real.pi * low / rate) < Real.tan (Real.pi * high / rate) ∧
    bilinearPrewarp low rate < bilinearPrewarp high rate := by
  have hr : 0 < rate := by linarith
  have hp := Real.pi_pos
  have ht : Real.tan (Real.pi * low / rate) < Real.tan (Real.pi * high / rate) := by
    refine Real.tan_lt_tan_of_nonneg_of_lt_pi_div_two (by positivity) ?_ ?_
    · rw [div_lt_iff₀ hr]
      nlinarith
    · gcongr
  exact ⟨ht, by rw [bilinearPrewarp, bilinearPrewarp]; gcongr⟩

theorem bl_scale {K : ℝ} (hK : K ≠ 0) (v : ℂ) : bl K (K * v) = (1 + v) / (1 - v) := by
  have hK' : (K : ℂ) ≠ 0 := by exact_mod_cast hK
  rw [bl, show (K : ℂ) + K * v = K * (1 + v) by ring, show (K : ℂ) - K * v = K * (1 - v) by ring,
    mul_div_mul_left _ _ hK']

theorem clear_one : Clear 1 := Or.inl Complex.one_im

theorem lowpass_designed {f : Zpk} {n : ℕ} {H : ℝ → ℝ} (h : Proto f n H) (h1 : 1 ≤ n) (q : QSort) {cutoff rate : ℝ}
    (h0 : 0 < cutoff) (hc : cutoff < rate / 2) {maxB : ℤ} (hm : (((n + 1) / 2 : ℕ) : ℤ) ≤ maxB)
    (hsep : ∀ r, r ∈ zeros f ∨ r ∈ poles f → Clear ((1 + (Real.tan (Real.pi * cutoff / rate) : ℂ) * r)
      / (1 - (Real.tan (Real.pi * cutoff / rate) : ℂ) * r))) :
    ∃ cs, designLowpass q f cutoff rate false maxB = .ok cs ∧
      Designed cs ((n + 1) / 2) {θ | |θ| < Real.pi} fun θ => H (lowFreq cutoff rate θ) := by
  obtain ⟨ht, hw, hr⟩ := prewarp_pos h0 hc
  set c := bilinearPrewarp cutoff rate with hcdef
  have hcK : c = 2 * rate * Real.tan (Real.pi * cutoff / rate) := rfl
  have hn : (toLowpass f c).numPoles = n := h.count
  have hnz : (toLowpass f c).numZeros = f.numZeros := rfl
  have hpl : ∀ r ∈ poles (toLowpass f c), r.re < 0 := by
    intro r hr'
    rw [toLowpass_poles] at hr'
    obtain ⟨p, hp, rfl⟩ := List.mem_map.1 hr'
    have := h.poles_left p hp
    simp only [Complex.mul_re, Complex.ofReal_re, Complex.ofReal_im, mul_zero, sub_zero]
    exact mul_neg_of_neg_of_pos this hw
  obtain ⟨cs, e, hd⟩ := discretize_spec q (toLowpass f c) (maxB := maxB) hr (toLowpass_real c h.real)
    (by rw [hn, hnz]; exact h.proper) (by rw [hn]; exact h1)
    (by
      intro r hr'
      rw [toLowpass_zeros] at hr'
      obtain ⟨p, hp, rfl⟩ := List.mem_map.1 hr'
      simp [(h.zeros_im p hp).1])
    hpl
    (by
      intro r hr'
      have : ∃ p, (p ∈ zeros f ∨ p ∈ poles f) ∧ p * (c : ℂ) = r := by
        rw [toLowpass_poles, toLowpass_zeros] at hr'
        rcases hr' with hr' | hr'
        · obtain ⟨p, hp, rfl⟩ := List.mem_map.1 hr'
          exact ⟨p, Or.inl hp, rfl⟩
        · obtain ⟨p, hp, rfl⟩ := List.mem_map.1 hr'
          exact ⟨p, Or.inr hp, rfl⟩
      obtain ⟨p, hp, rfl⟩ := this
      have e : p * (c : ℂ) = ((2 * rate : ℝ) : ℂ) * ((Real.tan (Real.pi * cutoff / rate) : ℝ) * p) := by
        rw [hcK]; push_cast; ring
      rw [e, bl_scale (by positivity)]
      exact hsep p hp)
    (by rw [hn]; exact hm)
  refine ⟨cs, ?_, ?_, hd.stable, fun θ hθ => ?_⟩
  · rw [designLowpass, if_neg (by push Not; exact ⟨h0.le, hc⟩)]
    exact e
  · rw [hd.count, hn]
  · rw [response_at hd hpl hθ, toLowpass_system f hw.ne', ← h.power]
    congr 3
    rw [lowFreq, hcK]
    have ht' : ((Real.tan (Real.pi * cutoff / rate) : ℝ) : ℂ) ≠ 0 := by exact_mod_cast ht.ne'
    have hr' : (rate : ℂ) ≠ 0 := by exact_mod_cast hr.ne'
    push_cast at ht' ⊢
    field_simp

theorem highpass_designed {f : Zpk} {n : ℕ} {H : ℝ → ℝ} (h : Proto f n H) (h1 : 1 ≤ n) (q : QSort) {cutoff rate : ℝ}
    (h0 : 0 < cutoff) (hc : cutoff < rate / 2) {maxB : ℤ} (hm : (((n + 1) / 2 : ℕ) : ℤ) ≤ maxB)
    (hsep : ∀ r, r ∈ zeros f ∨ r ∈ poles f → Clear ((r + (Real.tan (Real.pi * cutoff / rate) : ℂ))
      / (r - (Real.tan (Real.pi * cutoff / rate) : ℂ)))) :
    ∃ cs, designHighpass q f cutoff rate false maxB = .ok cs ∧
      Designed cs ((n + 1) / 2) {θ | |θ| < Real.pi ∧ θ ≠ 0} fun θ => H (highFreq cutoff rate θ) := by
  obtain ⟨ht, hw, hr⟩ := prewarp_pos h0 hc
  set c := bilinearPrewarp cutoff rate with hcdef
  have hcK : c = 2 * rate * Real.tan (Real.pi * cutoff / rate) := rfl
  have hz0 : ∀ r ∈ zeros f, r ≠ 0 := fun r hr => (h.zeros_im r hr).2
  have hp0 : ∀ r ∈ poles f, r ≠ 0 := by
    rintro r hr rfl
    exact absurd (h.poles_left 0 hr) (by simp)
  have hn : (toHighpass f c).numPoles = n := h.count
  have hnz : (toHighpass f c).numZeros = n := by rw [toHighpass_numZeros, h.count, max_eq_right h.proper]
  have hpl : ∀ r ∈ poles (toHighpass f c), r.re < 0 := by
    intro r hr'
    rw [toHighpass_poles c hp0] at hr'
    obtain ⟨p, hp, rfl⟩ := List.mem_map.1 hr'
    exact inv_left c hw (h.poles_left p hp)
  obtain ⟨cs, e, hd⟩ := discretize_spec q (toHighpass f c) (maxB := maxB) hr (toHighpass_real c h.real hz0 hp0)
    (by rw [hn, hnz]) (by rw [hn]; exact h1)
    (by
      intro r hr'
      rw [toHighpass_zeros c hz0, List.mem_append] at hr'
      rcases hr' with hr' | hr'
      · obtain ⟨p, hp, rfl⟩ := List.mem_map.1 hr'
        exact inv_left' c hw (h.zeros_im p hp).1.le
      · rw [(List.mem_replicate.1 hr').2]; simp)
    hpl
    (by
      intro r hr'
      have : (∃ p, (p ∈ zeros f ∨ p ∈ poles f) ∧ p ≠ 0 ∧ (c : ℂ) / p = r) ∨ r = 0 := by
        rw [toHighpass_poles c hp0, toHighpass_zeros c hz0, List.mem_append] at hr'
        rcases hr' with (hr' | hr') | hr'
        · obtain ⟨p, hp, rfl⟩ := List.mem_map.1 hr'
          exact Or.inl ⟨p, Or.inl hp, hz0 p hp, rfl⟩
        · exact Or.inr (List.mem_replicate.1 hr').2
        · obtain ⟨p, hp, rfl⟩ := List.mem_map.1 hr'
          exact Or.inl ⟨p, Or.inr hp, hp0 p hp, rfl⟩
      rcases this with ⟨p, hp, hpn, rfl⟩ | rfl
      · have e : (c : ℂ) / p = ((2 * rate : ℝ) : ℂ) * ((Real.tan (Real.pi * cutoff / rate) : ℝ) / p) := by
          rw [hcK]; push_cast; ring
        rw [e, bl_scale (by positivity)]
        have e2 : (1 + ((Real.tan (Real.pi * cutoff / rate) : ℝ) : ℂ) / p)
            / (1 - ((Real.tan (Real.pi * cutoff / rate) : ℝ) : ℂ) / p)
            = (p + (Real.tan (Real.pi * cutoff / rate) : ℝ)) / (p - (Real.tan (Real.pi * cutoff / rate) : ℝ)) := by
          rw [one_add_div hpn, one_sub_div hpn, div_div_div_cancel_right₀ hpn]
        rw [e2]
        exact hsep p hp
      · have : bl (2 * rate) 0 = 1 := by
          rw [bl, add_zero, sub_zero, div_self]
          exact_mod_cast (by positivity : (2 * rate : ℝ) ≠ 0)
        rw [this]
        exact clear_one)
    (by rw [hn]; exact hm)
  refine ⟨cs, ?_, ?_, hd.stable, ?_⟩
  · rw [designHighpass, if_neg (by push Not; exact ⟨h0.le, hc⟩)]
    exact e
  · rw [hd.count, hn]
  · rintro θ ⟨hθ, hne⟩
    have htan : Real.tan (θ / 2) ≠ 0 := tan_half_ne hθ hne
    have hr' : (rate : ℂ) ≠ 0 := by exact_mod_cast hr.ne'
    have ht' : ((Real.tan (θ / 2) : ℝ) : ℂ) ≠ 0 := by exact_mod_cast htan
    rw [response_at hd hpl hθ, toHighpass_system c h.real (by rw [h.count]; exact h.proper) hz0 hp0
      (mul_ne_zero (by exact_mod_cast (by positivity)) Complex.I_ne_zero), ← h.even, ← h.power]
    congr 3
    rw [highFreq, hcK]
    push_cast at ht' ⊢
    field_simp
    rw [Complex.I_sq]
    try ring

end Verif.IirDesign
