import Verif.Proof.IirDesign9

/-!
# Lemmas: failures and wrong results of the designs
-/

namespace Verif.IirDesign
open Verif.PortableComplex Verif.IirDesign.Spec Verif.PoleZero
open scoped ComplexConjugate

theorem lowpass_error (q : QSort) {f : Zpk} (h1 : 1 ≤ f.numPoles) {cutoff rate : ℝ} {isNull : Bool} {maxB : ℤ}
    (h : ¬ (0 ≤ cutoff ∧ cutoff < rate / 2) ∨ isNull = true ∨ maxB < (((f.numPoles + 1) / 2 : ℕ) : ℤ)) :
    designLowpass q f cutoff rate isNull maxB = .error .fail := by
  unfold designLowpass
  split
  · rfl
  · rename_i hh
    exact discretize_error q _ h1 (h.resolve_left hh)

theorem highpass_error (q : QSort) {f : Zpk} (h1 : 1 ≤ f.numPoles) {cutoff rate : ℝ} {isNull : Bool} {maxB : ℤ}
    (h : ¬ (0 ≤ cutoff ∧ cutoff < rate / 2) ∨ isNull = true ∨ maxB < (((f.numPoles + 1) / 2 : ℕ) : ℤ)) :
    designHighpass q f cutoff rate isNull maxB = .error .fail := by
  unfold designHighpass
  split
  · rfl
  · rename_i hh
    exact discretize_error q _ h1 (h.resolve_left hh)

theorem bandpass_error (q : QSort) {f : Zpk} (h1 : 1 ≤ f.numPoles) (h2 : f.numPoles ≤ 15) (h3 : f.numZeros ≤ f.numPoles)
    {low high rate : ℝ} {isNull : Bool} {maxB : ℤ}
    (h : ¬ (0 ≤ low ∧ low ≤ high ∧ high < rate / 2) ∨ isNull = true ∨ maxB < f.numPoles) :
    designBandpass q f low high rate isNull maxB = .error .fail := by
  unfold designBandpass
  split
  · rfl
  · rename_i hh
    have hn : (toBandpass f (bilinearPrewarp low rate) (bilinearPrewarp high rate)).1.numPoles = 2 * f.numPoles := by
      rw [toBandpass_eq]
      exact (shift_spec (halfBand f (bilinearPrewarp high rate - bilinearPrewarp low rate)) _ h3 h2).2.2.2.2.1
    refine discretize_error q _ (by omega) ?_
    rcases h.resolve_left hh with h | h
    · exact Or.inl h
    · right; rw [hn]; omega

theorem bandstop_error (q : QSort) {f : Zpk} (h1 : 1 ≤ f.numPoles) (h2 : f.numPoles ≤ 15) (h3 : f.numZeros ≤ f.numPoles)
    {low high rate : ℝ} {isNull : Bool} {maxB : ℤ}
    (h : ¬ (0 ≤ low ∧ low ≤ high ∧ high < rate / 2) ∨ isNull = true ∨ maxB < f.numPoles) :
    designBandstop q f low high rate isNull maxB = .error .fail := by
  unfold designBandstop
  split
  · rfl
  · rename_i hh
    have hn : (toBandstop f (bilinearPrewarp low rate) (bilinearPrewarp high rate)).1.numPoles = 2 * f.numPoles := by
      rw [toBandstop_eq]
      refine (shift_spec (toHighpass f ((bilinearPrewarp high rate - bilinearPrewarp low rate) / 2)) _ ?_ h2).2.2.2.2.1
      rw [toHighpass_numZeros, max_eq_right h3]
      exact le_rfl
    refine discretize_error q _ (by omega) ?_
    rcases h.resolve_left hh with h | h
    · exact Or.inl h
    · right; rw [hn]; omega

/-- More than 15 poles: `ZpkDesignBandpass` returns a lowpass filter. -/
theorem bandpass_wrong {f : Zpk} {n : ℕ} {H : ℝ → ℝ} (h : Proto f n H) (h16 : 16 ≤ n) (q : QSort)
    {low high rate : ℝ} (h0 : 0 < low) (hl : low < high) (hc : high < rate / 2) {maxB : ℤ}
    (hm : (((n + 1) / 2 : ℕ) : ℤ) ≤ maxB) {σ : ℝ} (hσ : 0 < σ)
    (hs : ∀ r, r ∈ zeros f ∨ r ∈ poles f → Spread σ r)
    (hb : 100 / 2 ^ 52 < σ * (2 * ((Real.tan (Real.pi * high / rate) - Real.tan (Real.pi * low / rate)) / 2)
      / (1 + ((Real.tan (Real.pi * high / rate) - Real.tan (Real.pi * low / rate)) / 2) ^ 2))) :
    ∃ cs, designBandpass q f low high rate false maxB = .ok cs ∧ cs.length = (n + 1) / 2 ∧
      ‖response cs 0‖ ^ 2 = (2 ^ (n - f.numZeros)) ^ 2 * H 0 := by
  obtain ⟨htl, hwl, hr⟩ := prewarp_pos h0 (hl.trans hc)
  obtain ⟨htlt, hwlt⟩ := prewarp_lt h0 hl hc
  have hlK : bilinearPrewarp low rate = 2 * rate * Real.tan (Real.pi * low / rate) := rfl
  have hhK : bilinearPrewarp high rate = 2 * rate * Real.tan (Real.pi * high / rate) := rfl
  have hbw : 0 < bilinearPrewarp high rate - bilinearPrewarp low rate := sub_pos.2 hwlt
  have e1 : (toBandpass f (bilinearPrewarp low rate) (bilinearPrewarp high rate)).1
      = halfBand f (bilinearPrewarp high rate - bilinearPrewarp low rate) := by
    rw [toBandpass_eq, shift_fails]
    right
    show 15 < f.numPoles
    rw [h.count]; omega
  generalize hbb : bilinearPrewarp high rate - bilinearPrewarp low rate = b at *
  have ez : zeros (halfBand f b) = (zeros f).map (· * ((b / 2 : ℝ) : ℂ)) := toLowpass_zeros f _
  have ep : poles (halfBand f b) = (poles f).map (· * ((b / 2 : ℝ) : ℂ)) := toLowpass_poles f _
  have hpl : ∀ r ∈ poles (halfBand f b), r.re < 0 := by
    intro r hr'
    rw [ep] at hr'
    obtain ⟨p, hp, rfl⟩ := List.mem_map.1 hr'
    rw [mul_comm, Complex.re_ofReal_mul]
    exact mul_neg_of_pos_of_neg (by linarith) (h.poles_left p hp)
  have hzl : ∀ r ∈ zeros (halfBand f b), r.re ≤ 0 := by
    intro r hr'
    rw [ez] at hr'
    obtain ⟨p, hp, rfl⟩ := List.mem_map.1 hr'
    rw [mul_comm, Complex.re_ofReal_mul, (h.zeros_im p hp).1, mul_zero]
  obtain ⟨cs, e, hd⟩ := discretize_spec q (halfBand f b) (maxB := maxB) hr (toLowpass_real _ h.real)
    (by show f.numZeros ≤ f.numPoles; rw [h.count]; exact h.proper)
    (by show 1 ≤ f.numPoles; rw [h.count]; omega) hzl hpl
    (by
      intro r hr'
      have : ∃ p, (p ∈ zeros f ∨ p ∈ poles f) ∧ p * ((b / 2 : ℝ) : ℂ) = r := by
        rw [ez, ep] at hr'
        rcases hr' with hr' | hr'
        · obtain ⟨p, hp, rfl⟩ := List.mem_map.1 hr'
          exact ⟨p, Or.inl hp, rfl⟩
        · obtain ⟨p, hp, rfl⟩ := List.mem_map.1 hr'
          exact ⟨p, Or.inr hp, rfl⟩
      obtain ⟨p, hp, rfl⟩ := this
      have e : p * ((b / 2 : ℝ) : ℂ) = ((2 * rate : ℝ) : ℂ)
          * ((((Real.tan (Real.pi * high / rate) - Real.tan (Real.pi * low / rate)) / 2 : ℝ) : ℂ) * p) := by
        rw [← hbb, hlK, hhK]; push_cast; ring
      rw [e, bl_scale (by positivity)]
      refine clear_low (hs p hp) ?_ (by linarith) hσ hb
      rcases hp with hp | hp
      · exact (h.zeros_im p hp).1.le
      · exact (h.poles_left p hp).le)
    (by show (((f.numPoles + 1) / 2 : ℕ) : ℤ) ≤ maxB; rw [h.count]; exact hm)
  refine ⟨cs, ?_, ?_, ?_⟩
  · rw [designBandpass, if_neg (by push Not; exact ⟨h0.le, hl.le, hc⟩), e1]
    exact e
  · rw [hd.count]
    show (f.numPoles + 1) / 2 = _
    rw [h.count]
  · rw [response_at hd hpl (by rw [abs_zero]; exact Real.pi_pos),
      halfBand_system f hbw.ne' (by rw [h.count]; exact h.proper), norm_mul, mul_pow, norm_pow, h.count]
    have := h.power 0
    rw [Complex.ofReal_zero, zero_mul] at this
    rw [zero_div, Real.tan_zero, mul_zero, Complex.ofReal_zero, zero_mul, mul_zero, zero_div, this]
    norm_num

/-- More than 15 poles: `ZpkDesignBandstop` returns a highpass filter. -/
theorem bandstop_wrong {f : Zpk} {n : ℕ} {H : ℝ → ℝ} (h : Proto f n H) (h16 : 16 ≤ n) (q : QSort)
    {low high rate : ℝ} (h0 : 0 < low) (hl : low < high) (hc : high < rate / 2) {maxB : ℤ}
    (hm : (((n + 1) / 2 : ℕ) : ℤ) ≤ maxB) {σ : ℝ} (hσ : 0 < σ) (hz : zeros f = []) (hnz : f.numZeros = 0)
    (hs : ∀ r, r ∈ zeros f ∨ r ∈ poles f → Spread σ r)
    (hb : 100 / 2 ^ 52 < σ * (2 * ((Real.tan (Real.pi * high / rate) - Real.tan (Real.pi * low / rate)) / 2)
      / (1 + ((Real.tan (Real.pi * high / rate) - Real.tan (Real.pi * low / rate)) / 2) ^ 2))) :
    ∃ cs, designBandstop q f low high rate false maxB = .ok cs ∧ cs.length = (n + 1) / 2 ∧
      response cs 0 = 0 := by
  obtain ⟨htl, hwl, hr⟩ := prewarp_pos h0 (hl.trans hc)
  obtain ⟨htlt, hwlt⟩ := prewarp_lt h0 hl hc
  have hlK : bilinearPrewarp low rate = 2 * rate * Real.tan (Real.pi * low / rate) := rfl
  have hhK : bilinearPrewarp high rate = 2 * rate * Real.tan (Real.pi * high / rate) := rfl
  have hbw : 0 < (bilinearPrewarp high rate - bilinearPrewarp low rate) / 2 := by linarith
  have e1 : (toBandstop f (bilinearPrewarp low rate) (bilinearPrewarp high rate)).1
      = toHighpass f ((bilinearPrewarp high rate - bilinearPrewarp low rate) / 2) := by
    rw [toBandstop_eq, shift_fails]
    right
    show 15 < f.numPoles
    rw [h.count]; omega
  generalize hbb : (bilinearPrewarp high rate - bilinearPrewarp low rate) / 2 = b at *
  have hz0 : ∀ r ∈ zeros f, r ≠ 0 := fun r hr => (h.zeros_im r hr).2
  have hp0 : ∀ r ∈ poles f, r ≠ 0 := by
    rintro r hr rfl
    exact absurd (h.poles_left 0 hr) (by simp)
  have ez : zeros (toHighpass f b) = List.replicate n 0 := by
    rw [toHighpass_zeros b hz0, hz, hnz, h.count]; simp
  have hpl : ∀ r ∈ poles (toHighpass f b), r.re < 0 := by
    intro r hr'
    rw [toHighpass_poles b hp0] at hr'
    obtain ⟨p, hp, rfl⟩ := List.mem_map.1 hr'
    exact inv_left b hbw (h.poles_left p hp)
  obtain ⟨cs, e, hd⟩ := discretize_spec q (toHighpass f b) (maxB := maxB) hr (toHighpass_real b h.real hz0 hp0)
    (by rw [toHighpass_numZeros, hnz]; exact max_le (by omega) le_rfl)
    (by show 1 ≤ f.numPoles; rw [h.count]; omega)
    (by
      intro r hr'
      rw [ez] at hr'
      rw [(List.mem_replicate.1 hr').2]; simp)
    hpl
    (by
      intro r hr'
      rcases hr' with hr' | hr'
      · rw [ez] at hr'
        rw [(List.mem_replicate.1 hr').2]
        have : bl (2 * rate) 0 = 1 := by
          rw [bl, add_zero, sub_zero, div_self]
          exact_mod_cast (by positivity : (2 * rate : ℝ) ≠ 0)
        rw [this]
        exact clear_one
      · rw [toHighpass_poles b hp0] at hr'
        obtain ⟨p, hp, rfl⟩ := List.mem_map.1 hr'
        have e : (b : ℂ) / p = ((2 * rate : ℝ) : ℂ)
            * ((((Real.tan (Real.pi * high / rate) - Real.tan (Real.pi * low / rate)) / 2 : ℝ) : ℂ) * p⁻¹) := by
          rw [← hbb, hlK, hhK]; push_cast; ring
        rw [e, bl_scale (by positivity)]
        refine clear_low (hs p (Or.inr hp)).inv ?_ (by linarith) hσ hb
        rw [show p⁻¹ = ((1 : ℝ) : ℂ) / p by simp]
        exact inv_left' 1 one_pos (h.poles_left p hp).le)
    (by show (((f.numPoles + 1) / 2 : ℕ) : ℤ) ≤ maxB; rw [h.count]; exact hm)
  refine ⟨cs, ?_, ?_, ?_⟩
  · rw [designBandstop, if_neg (by push Not; exact ⟨h0.le, hl.le, hc⟩), e1]
    exact e
  · rw [hd.count]
    show (f.numPoles + 1) / 2 = _
    rw [h.count]
  · rw [response_at hd hpl (by rw [abs_zero]; exact Real.pi_pos), system_eq, ez, ps_replicate, zero_div, Real.tan_zero,
      mul_zero, Complex.ofReal_zero, zero_mul, sub_zero, zero_pow (by omega), mul_zero, zero_div]

theorem band_example {rate : ℝ} (hr : 0 < rate) : Real.tan (Real.pi * (rate / 6) / rate) = 1 / √3 ∧
    Real.tan (Real.pi * (rate / 3) / rate) = √3 := by
  rw [show Real.pi * (rate / 6) / rate = Real.pi / 6 by field_simp,
    show Real.pi * (rate / 3) / rate = Real.pi / 3 by field_simp]
  exact ⟨Real.tan_pi_div_six, Real.tan_pi_div_three⟩

theorem sqrt3 : √3 * √3 = 3 ∧ 0 < √3 := ⟨Real.mul_self_sqrt (by norm_num), by positivity⟩

theorem band_bound {rate : ℝ} (hr : 0 < rate) {σ : ℝ} (h : 1 / 45000 ≤ σ) :
    100 / 2 ^ 52 < σ * (2 * ((Real.tan (Real.pi * (rate / 3) / rate) - Real.tan (Real.pi * (rate / 6) / rate)) / 2)
      / (1 + ((Real.tan (Real.pi * (rate / 3) / rate) - Real.tan (Real.pi * (rate / 6) / rate)) / 2) ^ 2)) := by
  obtain ⟨e1, e2⟩ := band_example hr
  obtain ⟨hs, hp⟩ := sqrt3
  rw [e1, e2]
  have e3 : (√3 - 1 / √3) / 2 = √3 / 3 := by
    rw [div_eq_div_iff (by norm_num) (by norm_num)]
    field_simp
    nlinarith
  rw [e3]
  have e4 : 2 * (√3 / 3) / (1 + (√3 / 3) ^ 2) = √3 / 2 := by
    rw [div_pow, pow_two, hs]
    ring
  rw [e4]
  have : 1 < √3 := by nlinarith
  nlinarith

end Verif.IirDesign
