import Verif.Proof.IirDesign7

/-!
# Lemmas: bandpass and bandstop designs from a prototype
-/

namespace Verif.IirDesign
open Verif.PortableComplex Verif.IirDesign.Spec Verif.PoleZero
open scoped ComplexConjugate

theorem band_scale {K a b : ℝ} (hK : K ≠ 0) {x q : ℂ}
    (h : x ^ 2 - q * (((K * b : ℝ) : ℂ) - ((K * a : ℝ) : ℂ)) * x + ((K * a : ℝ) : ℂ) * ((K * b : ℝ) : ℂ) = 0) :
    ∃ v : ℂ, x = K * v ∧ v ^ 2 - q * ((b : ℂ) - a) * v + a * b = 0 := by
  have hK' : (K : ℂ) ≠ 0 := by exact_mod_cast hK
  refine ⟨x / K, by field_simp, ?_⟩
  have e : (x / K) ^ 2 - q * ((b : ℂ) - a) * (x / K) + a * b
      = (x ^ 2 - q * (((K * b : ℝ) : ℂ) - ((K * a : ℝ) : ℂ)) * x + ((K * a : ℝ) : ℂ) * ((K * b : ℝ) : ℂ)) / K ^ 2 := by
    push_cast
    field_simp
  rw [e, h, zero_div]

theorem bandpass_designed {f : Zpk} {n : ℕ} {H : ℝ → ℝ} (h : Proto f n H) (h1 : 1 ≤ n) (h15 : n ≤ 15) (q : QSort)
    {low high rate : ℝ} (h0 : 0 < low) (hl : low < high) (hc : high < rate / 2) {maxB : ℤ} (hm : (n : ℤ) ≤ maxB)
    (hsep : ∀ r, r ∈ zeros f ∨ r ∈ poles f → ∀ v : ℂ,
      v ^ 2 - r * ((Real.tan (Real.pi * high / rate) : ℂ) - (Real.tan (Real.pi * low / rate) : ℂ)) * v
        + (Real.tan (Real.pi * low / rate) : ℂ) * (Real.tan (Real.pi * high / rate) : ℂ) = 0 →
      Clear ((1 + v) / (1 - v))) :
    ∃ cs, designBandpass q f low high rate false maxB = .ok cs ∧
      Designed cs n {θ | |θ| < Real.pi ∧ θ ≠ 0} fun θ => H (passFreq low high rate θ) := by
  obtain ⟨htl, hwl, hr⟩ := prewarp_pos h0 (hl.trans hc)
  obtain ⟨hth, hwh, -⟩ := prewarp_pos (h0.trans hl) hc
  obtain ⟨htlt, hwlt⟩ := prewarp_lt h0 hl hc
  obtain ⟨-, hreal, hnp, hnz, hpp, hzz, hsys⟩ := toBandpass_spec hwl hwlt h.real (by rw [h.count]; exact h.proper)
    (by rw [h.count]; exact h15)
  have hlK : bilinearPrewarp low rate = 2 * rate * Real.tan (Real.pi * low / rate) := rfl
  have hhK : bilinearPrewarp high rate = 2 * rate * Real.tan (Real.pi * high / rate) := rfl
  generalize hg : (toBandpass f (bilinearPrewarp low rate) (bilinearPrewarp high rate)).1 = g at *
  rw [h.count] at hnp hnz
  have hpl : ∀ r ∈ poles g, r.re < 0 := by
    intro r hr'
    obtain ⟨p, hp, e⟩ := hpp r hr'
    refine ((quad_left (b := bilinearPrewarp high rate - bilinearPrewarp low rate)
      (c := bilinearPrewarp low rate * bilinearPrewarp high rate) (by linarith) (by positivity) ?_).1).2
      (h.poles_left p hp)
    rw [← e]; push_cast; ring
  have hK : (2 * rate : ℝ) ≠ 0 := by positivity
  have hclear : ∀ r p : ℂ, (p ∈ zeros f ∨ p ∈ poles f) →
      r ^ 2 - p * ((bilinearPrewarp high rate : ℂ) - bilinearPrewarp low rate) * r
        + bilinearPrewarp low rate * bilinearPrewarp high rate = 0 → Clear (bl (2 * rate) r) := by
    intro r p hp e
    rw [hlK, hhK] at e
    obtain ⟨v, rfl, hv⟩ := band_scale hK e
    rw [bl_scale hK]
    exact hsep p hp v hv
  obtain ⟨cs, e, hd⟩ := discretize_spec q g (maxB := maxB) hr hreal (by rw [hnp, hnz]; have := h.proper; omega)
    (by rw [hnp]; omega)
    (by
      intro r hr'
      rcases hzz r hr' with rfl | ⟨p, hp, e⟩
      · simp
      · refine ((quad_left (b := bilinearPrewarp high rate - bilinearPrewarp low rate)
          (c := bilinearPrewarp low rate * bilinearPrewarp high rate) (by linarith) (by positivity) ?_).2).2
          (h.zeros_im p hp).1.le
        rw [← e]; push_cast; ring)
    hpl
    (by
      intro r hr'
      rcases hr' with hr' | hr'
      · rcases hzz r hr' with rfl | ⟨p, hp, e⟩
        · have : bl (2 * rate) 0 = 1 := by
            rw [bl, add_zero, sub_zero, div_self]
            exact_mod_cast hK
          rw [this]
          exact clear_one
        · exact hclear r p (Or.inl hp) e
      · obtain ⟨p, hp, e⟩ := hpp r hr'
        exact hclear r p (Or.inr hp) e)
    (by rw [hnp]; omega)
  refine ⟨cs, ?_, ?_, hd.stable, ?_⟩
  · rw [designBandpass, if_neg (by push Not; exact ⟨h0.le, hl.le, hc⟩), hg]
    exact e
  · rw [hd.count, hnp]; omega
  · rintro θ ⟨hθ, hne⟩
    have htan : Real.tan (θ / 2) ≠ 0 := tan_half_ne hθ hne
    have hr' : (rate : ℂ) ≠ 0 := by exact_mod_cast hr.ne'
    have ht' : ((Real.tan (θ / 2) : ℝ) : ℂ) ≠ 0 := by exact_mod_cast htan
    have hne' : (2 * rate * Real.tan (θ / 2) : ℝ) ≠ 0 := mul_ne_zero hK htan
    rw [response_at hd hpl hθ, hsys _ (mul_ne_zero (by exact_mod_cast hne') Complex.I_ne_zero), ← h.power]
    congr 3
    rw [passFreq, hlK, hhK]
    have hd' : ((Real.tan (Real.pi * high / rate) : ℝ) : ℂ) - ((Real.tan (Real.pi * low / rate) : ℝ) : ℂ) ≠ 0 := by
      rw [← Complex.ofReal_sub]
      exact_mod_cast (sub_pos.2 htlt).ne'
    generalize Real.tan (Real.pi * high / rate) = b at *
    generalize Real.tan (Real.pi * low / rate) = a at *
    generalize Real.tan (θ / 2) = t at *
    push_cast
    have hI := Complex.I_sq
    have hIne := Complex.I_ne_zero
    rw [show (2 * (rate : ℂ) * b) - 2 * rate * a = 2 * rate * (b - a) by ring]
    field_simp
    rw [hI]
    ring

theorem bandstop_designed {f : Zpk} {n : ℕ} {H : ℝ → ℝ} (h : Proto f n H) (h1 : 1 ≤ n) (h15 : n ≤ 15) (q : QSort)
    {low high rate : ℝ} (h0 : 0 < low) (hl : low < high) (hc : high < rate / 2) {maxB : ℤ} (hm : (n : ℤ) ≤ maxB)
    (hsep : ∀ r, r ∈ zeros f ∨ r ∈ poles f → ∀ v : ℂ,
      v ^ 2 - ((Real.tan (Real.pi * high / rate) : ℂ) - (Real.tan (Real.pi * low / rate) : ℂ)) / r * v
        + (Real.tan (Real.pi * low / rate) : ℂ) * (Real.tan (Real.pi * high / rate) : ℂ) = 0 →
      Clear ((1 + v) / (1 - v)))
    (hsep0 : ∀ v : ℂ, v ^ 2 + (Real.tan (Real.pi * low / rate) : ℂ) * (Real.tan (Real.pi * high / rate) : ℂ) = 0 →
      Clear ((1 + v) / (1 - v))) :
    ∃ cs, designBandstop q f low high rate false maxB = .ok cs ∧
      Designed cs n {θ | |θ| < Real.pi ∧ passFreq low high rate θ ≠ 0} fun θ => H (stopFreq low high rate θ) := by
  obtain ⟨htl, hwl, hr⟩ := prewarp_pos h0 (hl.trans hc)
  obtain ⟨hth, hwh, -⟩ := prewarp_pos (h0.trans hl) hc
  obtain ⟨htlt, hwlt⟩ := prewarp_lt h0 hl hc
  have hz0 : ∀ r ∈ zeros f, r ≠ 0 := fun r hr => (h.zeros_im r hr).2
  have hp0 : ∀ r ∈ poles f, r ≠ 0 := by
    rintro r hr rfl
    exact absurd (h.poles_left 0 hr) (by simp)
  obtain ⟨-, hreal, hnp, hnz, hpp, hzz, hsys⟩ := toBandstop_spec hwl hwlt h.real hz0 hp0
    (by rw [h.count]; exact h.proper) (by rw [h.count]; exact h15)
  have hlK : bilinearPrewarp low rate = 2 * rate * Real.tan (Real.pi * low / rate) := rfl
  have hhK : bilinearPrewarp high rate = 2 * rate * Real.tan (Real.pi * high / rate) := rfl
  generalize hg : (toBandstop f (bilinearPrewarp low rate) (bilinearPrewarp high rate)).1 = g at *
  rw [h.count] at hnp hnz
  have hleft : ∀ r p : ℂ, r ^ 2 - ((bilinearPrewarp high rate : ℂ) - bilinearPrewarp low rate) / p * r
        + bilinearPrewarp low rate * bilinearPrewarp high rate = 0 →
      (r.re < 0 ↔ (p⁻¹).re < 0) ∧ (r.re ≤ 0 ↔ (p⁻¹).re ≤ 0) := by
    intro r p e
    refine quad_left (b := bilinearPrewarp high rate - bilinearPrewarp low rate)
      (c := bilinearPrewarp low rate * bilinearPrewarp high rate) (by linarith) (by positivity) ?_
    rw [← e]; push_cast; ring
  have hinv : ∀ p : ℂ, p⁻¹ = ((1 : ℝ) : ℂ) / p := by intro p; simp
  have hpl : ∀ r ∈ poles g, r.re < 0 := by
    intro r hr'
    obtain ⟨p, hp, e⟩ := hpp r hr'
    refine (hleft r p e).1.2 ?_
    rw [hinv]
    exact inv_left 1 one_pos (h.poles_left p hp)
  have hK : (2 * rate : ℝ) ≠ 0 := by positivity
  have hclear : ∀ r p : ℂ, (p ∈ zeros f ∨ p ∈ poles f) →
      r ^ 2 - ((bilinearPrewarp high rate : ℂ) - bilinearPrewarp low rate) / p * r
        + bilinearPrewarp low rate * bilinearPrewarp high rate = 0 → Clear (bl (2 * rate) r) := by
    intro r p hp e
    rw [hlK, hhK, div_eq_inv_mul] at e
    obtain ⟨v, rfl, hv⟩ := band_scale hK e
    rw [bl_scale hK]
    refine hsep p hp v ?_
    rw [div_eq_inv_mul]
    exact hv
  obtain ⟨cs, e, hd⟩ := discretize_spec q g (maxB := maxB) hr hreal (by rw [hnp, hnz]) (by rw [hnp]; omega)
    (by
      intro r hr'
      rcases hzz r hr' with e | ⟨p, hp, e⟩
      · refine ((quad_left (q := 0) (b := 1) (c := bilinearPrewarp low rate * bilinearPrewarp high rate) one_pos
          (by positivity) ?_).2).2 (by simp)
        push_cast; linear_combination e
      · refine (hleft r p e).2.2 ?_
        rw [hinv]
        exact inv_left' 1 one_pos (h.zeros_im p hp).1.le)
    hpl
    (by
      intro r hr'
      rcases hr' with hr' | hr'
      · rcases hzz r hr' with e | ⟨p, hp, e⟩
        · rw [hlK, hhK] at e
          obtain ⟨v, rfl, hv⟩ := band_scale (q := 0) (a := Real.tan (Real.pi * low / rate))
            (b := Real.tan (Real.pi * high / rate)) (x := r) hK (by linear_combination e)
          rw [bl_scale hK]
          refine hsep0 v ?_
          linear_combination hv
        · exact hclear r p (Or.inl hp) e
      · obtain ⟨p, hp, e⟩ := hpp r hr'
        exact hclear r p (Or.inr hp) e)
    (by rw [hnp]; omega)
  refine ⟨cs, ?_, ?_, hd.stable, ?_⟩
  · rw [designBandstop, if_neg (by push Not; exact ⟨h0.le, hl.le, hc⟩), hg]
    exact e
  · rw [hd.count, hnp]; omega
  · rintro θ ⟨hθ, hpf⟩
    have hne : θ ≠ 0 := by
      rintro rfl
      apply hpf
      simp [passFreq]
    have htan : Real.tan (θ / 2) ≠ 0 := tan_half_ne hθ hne
    have hr' : (rate : ℂ) ≠ 0 := by exact_mod_cast hr.ne'
    have ht' : ((Real.tan (θ / 2) : ℝ) : ℂ) ≠ 0 := by exact_mod_cast htan
    have hne' : (2 * rate * Real.tan (θ / 2) : ℝ) ≠ 0 := mul_ne_zero hK htan
    have hd' : ((Real.tan (Real.pi * high / rate) : ℝ) : ℂ) - ((Real.tan (Real.pi * low / rate) : ℝ) : ℂ) ≠ 0 := by
      rw [← Complex.ofReal_sub]
      exact_mod_cast (sub_pos.2 htlt).ne'
    have hnum : Real.tan (θ / 2) ^ 2 - Real.tan (Real.pi * low / rate) * Real.tan (Real.pi * high / rate) ≠ 0 := by
      intro hh
      apply hpf
      rw [passFreq, hh, zero_div]
    have hI := Complex.I_sq
    have hIne := Complex.I_ne_zero
    have hnum' : (((Real.tan (θ / 2)) : ℝ) : ℂ) ^ 2 - ((Real.tan (Real.pi * low / rate) : ℝ) : ℂ)
        * ((Real.tan (Real.pi * high / rate) : ℝ) : ℂ) ≠ 0 := by
      exact_mod_cast hnum
    have esq : (((2 * rate * Real.tan (θ / 2) : ℝ) : ℂ) * Complex.I) ^ 2
        + (bilinearPrewarp low rate : ℂ) * (bilinearPrewarp high rate : ℂ) =
        -((2 * rate) ^ 2 * ((((Real.tan (θ / 2)) : ℝ) : ℂ) ^ 2 - ((Real.tan (Real.pi * low / rate) : ℝ) : ℂ)
        * ((Real.tan (Real.pi * high / rate) : ℝ) : ℂ))) := by
      rw [mul_pow, hI, hlK, hhK]
      generalize Real.tan (Real.pi * high / rate) = b
      generalize Real.tan (Real.pi * low / rate) = a
      generalize Real.tan (θ / 2) = t
      push_cast
      ring
    rw [response_at hd hpl hθ, hsys _ (mul_ne_zero (by exact_mod_cast hne') Complex.I_ne_zero), ← h.even, ← h.power]
    · congr 3
      rw [esq, stopFreq, passFreq, hlK, hhK]
      generalize Real.tan (Real.pi * high / rate) = b at *
      generalize Real.tan (Real.pi * low / rate) = a at *
      generalize Real.tan (θ / 2) = t at *
      push_cast
      rw [show (2 * (rate : ℂ) * b) - 2 * rate * a = 2 * rate * (b - a) by ring, inv_div]
      field_simp
    · rw [esq]
      refine neg_ne_zero.2 (mul_ne_zero (pow_ne_zero _ ?_) hnum')
      exact_mod_cast hK

end Verif.IirDesign
