import Verif.Proof.IirDesign10

/-!
# Lemmas: every pole is in a biquad; designs with a cutoff of 0 and with stale roots
-/

namespace Verif.IirDesign
open Verif.PortableComplex Verif.IirDesign.Spec Verif.PoleZero
open scoped ComplexConjugate

theorem factor_roots {a : ℕ → CD} {d : ℕ} (hd : 1 ≤ d) (h : Good a d) {w : ℂ} (hw : w ∈ entries a d) :
    w ^ 2 + (nextQuadraticFactor a ((d : ℤ) - 1)).1.1 * w + (nextQuadraticFactor a ((d : ℤ) - 1)).1.2 = 0 ∨
      w ∈ entries a (d - 2) := by
  match d, hd with
  | 1, _ =>
    left
    have hg : (a 0).imag = 0 := h
    have e : w = (a 0).val := by simpa [entries] using hw
    rw [nextQuadraticFactor, if_neg (by norm_num), if_pos (by norm_num), e]
    have : (a 0).val = ((a 0).real : ℂ) := by
      apply Complex.ext
      · rfl
      · show (a 0).imag = _; rw [hg, Complex.ofReal_im]
    rw [this]
    push_cast
    ring
  | d + 2, _ =>
    rw [show d + 2 - 2 = d from rfl]
    rw [entries_succ, entries_succ, List.mem_append, List.mem_append, List.mem_singleton, List.mem_singleton] at hw
    have e1 : (((d + 2 : ℕ) : ℤ) - 1).toNat = d + 1 := by omega
    have e2 : (((d + 2 : ℕ) : ℤ) - 1 - 1).toNat = d := by omega
    rw [nextQuadraticFactor, if_neg (by omega), if_neg (by omega)]
    dsimp only
    rw [e1, e2]
    have hval : ∀ z : CD, z.val = (z.real : ℂ) + z.imag * Complex.I := fun z => (Complex.re_add_im z.val).symm
    have hI := Complex.I_sq
    obtain ⟨hg, -⟩ := h
    rcases hw with (hw | hw) | hw
    · exact Or.inr hw
    all_goals
      left
      rw [hw, hval]
      rcases hg with ⟨g1, g2⟩ | g
      · rw [g1, g2]
        push_cast
        ring
      · rw [g]
        simp only [PortableComplex.conj]
        push_cast
        linear_combination ((a (d + 1)).imag : ℂ) ^ 2 * hI

theorem biquadsLoop_poles (f : Zpk) (d : ℕ) : Good f.zeros d → Good f.poles d → ∀ p ∈ entries f.poles d,
    ∃ c ∈ biquadsLoop f ((d + 1) / 2) ((d : ℤ) - 1) ((d : ℤ) - 1), p ^ 2 + c.a1 * p + c.a2 = 0 := by
  induction d using Nat.strong_induction_on with
  | _ d ih =>
    intro hz hp p hpp
    by_cases h0 : d = 0
    · subst h0; simp [entries] at hpp
    have e : (d + 1) / 2 = (d - 2 + 1) / 2 + 1 ∨ (d = 1 ∧ (d + 1) / 2 = 0 + 1) := by omega
    have hd : 1 ≤ d := by omega
    have fz := factor_spec hd hz
    have fp := factor_spec hd hp
    have step : ∀ k, (d + 1) / 2 = k + 1 → (∀ p ∈ entries f.poles (d - 2),
        ∃ c ∈ biquadsLoop f k (((d - 2 : ℕ) : ℤ) - 1) (((d - 2 : ℕ) : ℤ) - 1), p ^ 2 + c.a1 * p + c.a2 = 0) →
        ∃ c ∈ biquadsLoop f ((d + 1) / 2) ((d : ℤ) - 1) ((d : ℤ) - 1), p ^ 2 + c.a1 * p + c.a2 = 0 := by
      intro k hk hrec
      rw [hk, biquadsLoop]
      rcases factor_roots hd hp hpp with h | h
      · exact ⟨_, List.mem_cons_self, h⟩
      · obtain ⟨c, hc, hcp⟩ := hrec p h
        refine ⟨c, List.mem_cons_of_mem _ ?_, hcp⟩
        rw [fz.1, fp.1]
        exact hc
    rcases e with e | ⟨e1, e2⟩
    · exact step _ e (ih (d - 2) (by omega) fz.2.1 fp.2.1)
    · refine step _ e2 ?_
      subst e1
      intro p hp'
      simp [entries] at hp'

theorem toBiquads_poles (q : QSort) (f : Zpk) {maxB : ℤ} (hn : f.numZeros = f.numPoles) (h1 : 1 ≤ f.numPoles)
    (hf : RealFilter f) (hc : ∀ r, r ∈ zeros f ∨ r ∈ poles f → Clear r) (hm : (((f.numPoles + 1) / 2 : ℕ) : ℤ) ≤ maxB)
    {cs : List Coeffs} (hcs : zpkToBiquads q f false maxB = .ok cs) :
    ∀ p ∈ poles f, ∃ c ∈ cs, p ^ 2 + c.a1 * p + c.a2 = 0 := by
  obtain ⟨z1, z2⟩ := rootsSort_spec q f.zeros f.numZeros fun r hr => hc r (Or.inl hr)
  obtain ⟨p1, p2⟩ := rootsSort_spec q f.poles f.numPoles fun r hr => hc r (Or.inr hr)
  obtain ⟨Z, hZ⟩ := z1.2 hf.1
  obtain ⟨P, hP⟩ := p1.2 hf.2
  obtain ⟨z3, z4⟩ := z2 Z hZ
  obtain ⟨p3, p4⟩ := p2 P hP
  have hsort : zpkSort q f = some { f with zeros := Z, poles := P } := by
    unfold zpkSort
    rw [hZ]
    dsimp only
    rw [hP]
  unfold zpkToBiquads at hcs
  rw [if_neg (by simp; omega), if_neg (by omega)] at hcs
  dsimp only at hcs
  have hdeg : (if f.numZeros > f.numPoles then f.numZeros else f.numPoles) = f.numPoles := by
    rw [if_neg (by omega)]
  rw [hdeg, if_neg (by omega), hsort] at hcs
  rw [hn] at z4
  have := biquadsLoop_poles { f with zeros := Z, poles := P } f.numPoles (good_of_sorted z4) (good_of_sorted p4)
  rw [← Except.ok.inj hcs]
  intro p hp
  exact this p ((p3.mem_iff).2 hp)

/-- A cutoff of 0. -/
theorem lowpass_zero {f : Zpk} {n : ℕ} {H : ℝ → ℝ} (h : Proto f n H) (h1 : 1 ≤ n) (hz : f.numZeros = 0) (q : QSort)
    {rate : ℝ} (hr : 0 < rate) {maxB : ℤ} (hm : (((n + 1) / 2 : ℕ) : ℤ) ≤ maxB) :
    ∃ cs, designLowpass q f 0 rate false maxB = .ok cs ∧ ¬ Stable cs ∧
      ∀ θ : ℝ, |θ| < Real.pi → θ ≠ 0 → response cs θ = 0 := by
  have hw : bilinearPrewarp 0 rate = 0 := by rw [bilinearPrewarp, mul_zero, zero_div, Real.tan_zero, mul_zero]
  have hp : poles (toLowpass f 0) = List.replicate n 0 := by
    rw [toLowpass_poles]
    simp only [Complex.ofReal_zero, mul_zero, List.map_const']
    rw [poles, entries_length, h.count]
  have hzz : zeros (toLowpass f 0) = [] := by
    have : (toLowpass f 0).numZeros = 0 := hz
    rw [zeros, this]; rfl
  have hK : (((2 * rate : ℝ)) : ℂ) ≠ 0 := by exact_mod_cast (by positivity : (2 * rate : ℝ) ≠ 0)
  obtain ⟨g, eg, gz, gp, gn1, gn2, gg⟩ := bilinear_spec (toLowpass f 0) rate hr (toLowpass_real 0 h.real) (by
    intro r hr'
    rw [hzz, hp] at hr'
    rcases hr' with hr' | hr'
    · exact absurd hr' List.not_mem_nil
    · rw [(List.mem_replicate.1 hr').2]
      exact hK.symm)
  have hnp : (toLowpass f 0).numPoles = n := h.count
  have hnz : (toLowpass f 0).numZeros = 0 := hz
  have gr := bilinear_realFilter (toLowpass f 0) g rate (toLowpass_real 0 h.real) gz gp
  have b0 : bl (2 * rate) 0 = 1 := by rw [bl, add_zero, sub_zero, div_self hK]
  rw [hzz, hnp, hnz, List.map_nil, List.nil_append, Nat.sub_zero] at gz
  rw [hp, hnz, hnp, List.map_replicate, b0, Nat.zero_sub, List.replicate_zero, List.append_nil] at gp
  rw [hnp, hnz, Nat.zero_max] at gn1 gn2
  have gain : g.gain = 0 := by
    have e : (toLowpass f 0).gain = 0 := by
      show f.gain * 0 ^ ((f.numPoles : ℤ) - f.numZeros) = 0
      rw [zero_zpow _ (by rw [hz, h.count]; omega), mul_zero]
    rw [system_eq, e, Complex.ofReal_zero, zero_mul, zero_div] at gg
    exact_mod_cast gg
  have gc : ∀ r, r ∈ zeros g ∨ r ∈ poles g → Clear r := by
    intro r hr'
    rw [gz, gp] at hr'
    left
    rcases hr' with hr' | hr'
    · rw [(List.mem_replicate.1 hr').2]; simp
    · rw [(List.mem_replicate.1 hr').2]; simp
  obtain ⟨cs, ecs, -, ht, -⟩ := toBiquads_spec q g (maxB := maxB) (by rw [gn1, gn2]) (by rw [gn2]; exact h1) gr gc
    (by rw [gn2]; exact hm)
  refine ⟨cs, ?_, ?_, ?_⟩
  · rw [designLowpass, if_neg (by push Not; exact ⟨le_rfl, by linarith⟩), hw, discretizeToBiquads, eg]
    exact ecs
  · obtain ⟨c, hc, hc1⟩ := toBiquads_poles q g (by rw [gn1, gn2]) (by rw [gn2]; exact h1) gr gc
      (by rw [gn2]; exact hm) ecs 1 (by rw [gp]; exact List.mem_replicate.2 ⟨by omega, rfl⟩)
    intro hs
    have := hs c hc 1 hc1
    rw [norm_one] at this
    exact lt_irrefl _ this
  · intro θ hθ hne
    obtain ⟨c0, c1, c2⟩ := circle hθ 1
    rw [response, ht _ c0, system_eq, gain, Complex.ofReal_zero, zero_mul, zero_div]
    intro p hp'
    rw [gp] at hp'
    rw [(List.mem_replicate.1 hp').2]
    intro hh
    rw [← hh, sub_self, mul_zero, zero_div] at c2
    have : (((1 * Real.tan (θ / 2) : ℝ)) : ℂ) ≠ 0 := by
      rw [one_mul]
      exact_mod_cast tan_half_ne hθ hne
    exact mul_ne_zero this Complex.I_ne_zero c2.symm

end Verif.IirDesign
