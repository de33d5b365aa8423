import Verif.Proof.IirElliptic2

/-!
# The elliptic prototype of the portable library: its roots are far from the real axis
-/

namespace Verif.IirElliptic
open Verif.PortableComplex Verif.IirDesign Verif.IirDesign.Spec Verif.Elliptic Verif.Elliptic.Spec Spec
open Verif.EllipticDesign (node modK degreeKp_eq node_bounds proto v0)
open Verif.EllipticDesign.Spec (elliptic)
open scoped ComplexConjugate

variable {k : ℝ} {N : ℕ}

/-- The smallest positive node. -/
theorem sn_node (h : Mod k) (hN : 1 ≤ N) {i : ℕ} (hi : i < N / 2) :
    1 / (N : ℝ) ≤ sn (zarg k N (N - 1 - i)) (k ^ 2) ∧ 0 < zarg k N (N - 1 - i) ∧ zarg k N (N - 1 - i) < K (k ^ 2) := by
  have hpi := Real.pi_pos
  have hN' : (0 : ℝ) < N := by exact_mod_cast hN
  have hK := K_pos h.par
  have hlt := zarg_lt h hN (show N - 1 - i < N by omega)
  set u := zarg k N (N - 1 - i) with hu
  have hge : K (k ^ 2) / N ≤ u := by
    rw [hu, zarg]
    apply div_le_div_of_nonneg_right _ hN'.le
    have : (2 * ((N - 1 - i : ℕ) : ℝ) + 1 - N) ≥ 1 := by
      have : (N : ℝ) ≤ 2 * ((N - 1 - i : ℕ) : ℝ) := by exact_mod_cast (by omega : N ≤ 2 * (N - 1 - i))
      linarith
    nlinarith
  have hu0 : 0 < u := lt_of_lt_of_le (by positivity) hge
  rw [abs_of_pos hu0] at hlt
  refine ⟨?_, hu0, hlt⟩
  have ham : Real.pi / (2 * N) ≤ am u (k ^ 2) := by
    have h1 : F (1 / N * (Real.pi / 2)) (k ^ 2) ≤ 1 / N * K (k ^ 2) :=
      EllipticDesign.F_le h.par (by positivity) (by rw [div_le_one hN']; exact_mod_cast hN)
    have h2 : F (1 / N * (Real.pi / 2)) (k ^ 2) ≤ u := h1.trans (by rw [one_div_mul_eq_div]; exact hge)
    have h3 := (am_strictMono h.par).monotone h2
    simp only [am_F h.par] at h3
    calc Real.pi / (2 * N) = 1 / N * (Real.pi / 2) := by field_simp
      _ ≤ _ := h3
  have ham2 : am u (k ^ 2) < Real.pi / 2 := am_lt h.par hlt
  have h4 : 0 < Real.pi / (2 * N) := by positivity
  have h5 := Real.mul_le_sin (x := am u (k ^ 2)) (by linarith) ham2.le
  calc 1 / (N : ℝ) = 2 / Real.pi * (Real.pi / (2 * N)) := by field_simp
    _ ≤ 2 / Real.pi * am u (k ^ 2) := mul_le_mul_of_nonneg_left ham (by positivity)
    _ ≤ sn u (k ^ 2) := h5

theorem spread_zero (h : Mod k) (hN : 1 ≤ N) {i : ℕ} (hi : i < N / 2) :
    Spread (k / N) ⟨0, 1 / (k * zero k N (N - 1 - i))⟩ := by
  obtain ⟨h1, h2, h3⟩ := sn_node h hN hi
  have hN' : (0 : ℝ) < N := by exact_mod_cast hN
  have hk := h.1
  have hz : zero k N (N - 1 - i) = sn (zarg k N (N - 1 - i)) (k ^ 2) := rfl
  rw [← hz] at h1
  have hz1 : zero k N (N - 1 - i) ≤ 1 := by rw [hz]; exact sn_le_one _ _
  generalize zero k N (N - 1 - i) = x at *
  have hx : 0 < x := lt_of_lt_of_le (by positivity) h1
  have hkx : 0 < k * x := mul_pos hk hx
  have hi0 : 0 < 1 / (k * x) := by positivity
  have e1 : k / N ≤ k * x := by
    calc k / N = k * (1 / N) := by ring
      _ ≤ k * x := mul_le_mul_of_nonneg_left h1 hk.le
  have e2 : k * x ≤ 1 := by nlinarith [h.2]
  right
  rw [← Complex.normSq_eq_norm_sq, Complex.normSq_apply]
  dsimp only
  rw [abs_of_pos hi0, mul_zero, zero_add]
  constructor
  · rw [le_div_iff₀ hkx]
    nlinarith
  · calc k / N * (1 / (k * x) * (1 / (k * x))) ≤ k * x * (1 / (k * x) * (1 / (k * x))) :=
        mul_le_mul_of_nonneg_right e1 (by positivity)
      _ = 1 / (k * x) := by field_simp

theorem spread_pole (h : Mod k) (hN : 1 ≤ N) {V : ℝ} (h0 : 0 < V) (hV : V < K (1 - k ^ 2)) {i : ℕ} (hi : i < N / 2) :
    Spread (k / N) (Complex.I * rootW k N V (N - 1 - i)) := by
  obtain ⟨h1, h2, h3⟩ := sn_node h hN hi
  have hN' : (0 : ℝ) < N := by exact_mod_cast hN
  have hk := h.1
  have hVa : |V| < K (1 - k ^ 2) := by rwa [abs_of_pos h0]
  have hden : 0 < denom (vert (zarg k N (N - 1 - i)) V) (k ^ 2) := denom_pos h.par hVa
  have hdv : denom (vert (zarg k N (N - 1 - i)) V) (k ^ 2) =
    cn V (1 - k ^ 2) ^ 2 + k ^ 2 * sn (zarg k N (N - 1 - i)) (k ^ 2) ^ 2 * sn V (1 - k ^ 2) ^ 2 := rfl
  have hre : (rootW k N V (N - 1 - i)).re = sn (zarg k N (N - 1 - i)) (k ^ 2) * dn V (1 - k ^ 2) /
    denom (vert (zarg k N (N - 1 - i)) V) (k ^ 2) := rfl
  have him : (rootW k N V (N - 1 - i)).im = cn (zarg k N (N - 1 - i)) (k ^ 2) * dn (zarg k N (N - 1 - i)) (k ^ 2) *
    sn V (1 - k ^ 2) * cn V (1 - k ^ 2) / denom (vert (zarg k N (N - 1 - i)) V) (k ^ 2) := rfl
  generalize rootW k N V (N - 1 - i) = W at *
  generalize zarg k N (N - 1 - i) = u at *
  have q1 := cn_sq u (k ^ 2)
  have q2 := cn_sq V (1 - k ^ 2)
  have q3 := dn_sq h.par u
  have q4 := dn_sq h.par.compl V
  have hd1 := dn_pos h.par.compl V
  have hm0 := h.par.1
  have hm1 := h.par.2
  generalize denom (vert u V) (k ^ 2) = D at *
  have hs1 := abs_sn_le u (k ^ 2)
  generalize cn u (k ^ 2) = c at *
  generalize sn u (k ^ 2) = s at *
  generalize dn u (k ^ 2) = d at *
  generalize cn V (1 - k ^ 2) = c1 at *
  generalize sn V (1 - k ^ 2) = t at *
  generalize dn V (1 - k ^ 2) = e at *
  have hs : 0 < s := lt_of_lt_of_le (by positivity) h1
  have hss : s ^ 2 ≤ 1 := by rw [sq_le_one_iff_abs_le_one]; exact hs1
  have ht : t ^ 2 ≤ 1 := by nlinarith [sq_nonneg c1]
  -- `dn V ≥ k`
  have hke : k ≤ e := by
    refine le_of_sq_le_sq ?_ hd1.le
    rw [q4]
    nlinarith
  have hnum : k / N ≤ s * e := by
    calc k / N = 1 / N * k := by ring
      _ ≤ s * e := mul_le_mul h1 hke hk.le hs.le
  have hD1 : D ≤ 1 := by
    rw [hdv, q2]
    have : k ^ 2 * s ^ 2 * t ^ 2 ≤ 1 * t ^ 2 := by
      apply mul_le_mul_of_nonneg_right _ (sq_nonneg t)
      nlinarith [mul_nonneg hm0.le (sq_nonneg s)]
    linarith
  have hW : 0 < W.re := by rw [hre]; positivity
  -- the norm: `(s² c1² + t²) / D`
  have hnorm : W.re * W.re + W.im * W.im = (s ^ 2 * c1 ^ 2 + t ^ 2) / D := by
    rw [hre, him]
    have key : (s * e) ^ 2 + (c * d * t * c1) ^ 2 = (s ^ 2 * c1 ^ 2 + t ^ 2) * D := by
      have : (c * d * t * c1) ^ 2 = c ^ 2 * d ^ 2 * t ^ 2 * c1 ^ 2 := by ring
      rw [this, mul_pow, q1, q2, q3, q4, hdv, q2]
      ring
    have hD := hden.ne'
    field_simp
    linarith
  right
  have e1 : (Complex.I * W).im = W.re := by simp
  rw [e1, norm_mul, Complex.norm_I, one_mul, abs_of_pos hW, ← Complex.normSq_eq_norm_sq, Complex.normSq_apply, hnorm, hre]
  constructor
  · rw [le_div_iff₀ hden]
    have : k / N * D ≤ k / N * 1 := mul_le_mul_of_nonneg_left hD1 (by positivity)
    linarith
  · rw [mul_div_assoc']
    apply div_le_div_of_nonneg_right _ hden.le
    have h5 : s ^ 2 * c1 ^ 2 + t ^ 2 ≤ 1 := by
      have : s ^ 2 * c1 ^ 2 ≤ 1 * c1 ^ 2 := mul_le_mul_of_nonneg_right hss (sq_nonneg _)
      linarith
    have : k / N * (s ^ 2 * c1 ^ 2 + t ^ 2) ≤ k / N * 1 := mul_le_mul_of_nonneg_left h5 (by positivity)
    linarith

/-- `k^order ≥ k1`. -/
theorem modK_ge (hN : 1 ≤ N) {rp rs : ℝ} (hp : 0 < rp) (hps : rp < rs) :
    EllipticDesign.epsilon rp / EllipticDesign.epsilon rs ≤ modK N rp rs ^ N := by
  have hk := EllipticDesign.modK_mod hN hp hps
  rw [← EllipticDesign.modK_modulus hN hp hps, modulus]
  have h1 := amp_pos hk hN
  have h2 := amp_le (N := N) hk
  have h3 : amp (modK N rp rs) N ^ 2 ≤ 1 := pow_le_one₀ h1.le h2
  have h5 : 0 < modK N rp rs ^ N := pow_pos hk.1 N
  nlinarith

theorem ratio_ge {rp rs : ℝ} (hp : 2 / 10 ^ 5 ≤ rp) (hps : rp < rs) (hs : rs ≤ 120) :
    2 / 10 ^ 9 ≤ EllipticDesign.epsilon rp / EllipticDesign.epsilon rs := by
  have hp0 : 0 < rp := lt_of_lt_of_le (by norm_num) hp
  obtain ⟨a1, a2⟩ := EllipticDesign.epsilon_pos hp0
  obtain ⟨b1, b2⟩ := EllipticDesign.epsilon_pos (hp0.trans hps)
  have h1 : EllipticDesign.epsilon rs ≤ 10 ^ 6 := by
    refine le_of_sq_le_sq ?_ (by norm_num)
    have : (10 : ℝ) ^ (rs / 10) ≤ (10 : ℝ) ^ ((12 : ℕ) : ℝ) := by
      apply Real.rpow_le_rpow_of_exponent_le (by norm_num)
      push_cast
      linarith
    rw [Real.rpow_natCast] at this
    linarith
  have h2 : 2 / 10 ^ 3 ≤ EllipticDesign.epsilon rp := by
    refine le_of_sq_le_sq ?_ a1.le
    have h3 : (2 : ℝ) ≤ Real.log 10 := by
      have : (2 : ℝ) * 1 ≤ Real.log 10 := by
        have e : Real.exp (2 * 1) ≤ 10 := by
          rw [two_mul, Real.exp_add]
          have := Real.exp_one_lt_d9
          nlinarith [Real.exp_pos 1]
        have := Real.log_le_log (Real.exp_pos _) e
        rwa [Real.log_exp] at this
      linarith
    have h4 : 1 + 4 / 10 ^ 6 ≤ (10 : ℝ) ^ (rp / 10) := by
      rw [Real.rpow_def_of_pos (by norm_num)]
      have := Real.add_one_le_exp (Real.log 10 * (rp / 10))
      nlinarith
    nlinarith
  rw [le_div_iff₀ b1]
  linarith

theorem modK_lower (h1 : 2 ≤ N) (h30 : N ≤ 30) {rp rs : ℝ} (hp : 2 / 10 ^ 5 ≤ rp) (hps : rp < rs) (hs : rs ≤ 120) :
    1 / 45000 ≤ modK N rp rs / N := by
  have hp0 : 0 < rp := lt_of_lt_of_le (by norm_num) hp
  have hk := EllipticDesign.modK_mod (N := N) (by omega) hp0 hps
  have h2 := (ratio_ge hp hps hs).trans (modK_ge (N := N) (by omega) hp0 hps)
  have hN : (0 : ℝ) < N := by
    have : 0 < N := by omega
    exact_mod_cast this
  rw [le_div_iff₀ hN]
  by_contra hc
  push Not at hc
  have h3 : modK N rp rs ^ N < (1 / 45000 * (N : ℝ)) ^ N := pow_lt_pow_left₀ hc hk.1.le (by omega)
  have h4 : (1 / 45000 * (N : ℝ)) ^ N ≤ 2 / 10 ^ 9 := by
    clear h3 hc h2 hk hN
    interval_cases N <;> norm_num
  linarith

theorem elliptic_sep (hN : 1 ≤ N) (h30 : N ≤ 30) {rp rs : ℝ} (hp : 2 / 10 ^ 5 ≤ rp) (hps : rp < rs) (hs : rs ≤ 120) (mem : Zpk)
    {f : Zpk} (hf : prototype exact N rp rs mem = .ok f) {r : ℂ} (h : r ∈ zeros f ∨ r ∈ poles f) : Spread (1 / 45000) r := by
  have hp0 : 0 < rp := lt_of_lt_of_le (by norm_num) hp
  have hk := EllipticDesign.modK_mod hN hp0 hps
  obtain ⟨f1, f2, -⟩ := EllipticDesign.v0_facts hN hp0 hps
  rw [prototype_eq hN h30 hp0 hps] at hf
  obtain ⟨hz, hpo⟩ := assemble_shape (ε := EllipticDesign.epsilon rp) hk hN f1 f2 mem
  rw [← Except.ok.inj hf, hz, hpo, List.mem_append] at h
  have hlow : ∀ i < N / 2, 1 / 45000 ≤ modK N rp rs / N := fun i hi => modK_lower (by omega) h30 hp hps hs
  rcases h with h | h | h
  · obtain ⟨i, hi, h | h⟩ := pairs_mem h
    · rw [h]; exact ((spread_zero hk hN hi).mono (hlow i hi)).conj
    · rw [h]; exact (spread_zero hk hN hi).mono (hlow i hi)
  · split_ifs at h
    · rw [List.mem_singleton.1 h]
      exact Or.inl (Complex.ofReal_im _)
    · simp at h
  · obtain ⟨i, hi, h | h⟩ := pairs_mem h
    · rw [h]; exact ((spread_pole hk hN f1 f2 hi).mono (hlow i hi)).conj
    · rw [h]; exact (spread_pole hk hN f1 f2 hi).mono (hlow i hi)

/-- Only odd orders have a real pole. -/
theorem elliptic_real (hN : 1 ≤ N) (h30 : N ≤ 30) {rp rs : ℝ} (hp : 0 < rp) (hps : rp < rs) (mem : Zpk) {f : Zpk}
    (hf : prototype exact N rp rs mem = .ok f) {p : ℝ} (h : (p : ℂ) ∈ poles f) : N % 2 = 1 := by
  have hk := EllipticDesign.modK_mod hN hp hps
  obtain ⟨f1, f2, -⟩ := EllipticDesign.v0_facts hN hp hps
  rw [prototype_eq hN h30 hp hps] at hf
  obtain ⟨-, hpo⟩ := assemble_shape (ε := EllipticDesign.epsilon rp) hk hN f1 f2 mem
  rw [← Except.ok.inj hf, hpo, List.mem_append] at h
  have hN' : (0 : ℝ) < N := by exact_mod_cast hN
  have key : ∀ i < N / 2, (Complex.I * rootW (modK N rp rs) N (v0 N rp rs * K (modK N rp rs ^ 2)) (N - 1 - i)).im ≠ 0 := by
    intro i hi
    have h1 : 0 < (rootW (modK N rp rs) N (v0 N rp rs * K (modK N rp rs ^ 2)) (N - 1 - i)).re := by
      obtain ⟨a1, a2, a3⟩ := sn_node hk hN hi
      have hre : (rootW (modK N rp rs) N (v0 N rp rs * K (modK N rp rs ^ 2)) (N - 1 - i)).re =
        sn (zarg (modK N rp rs) N (N - 1 - i)) (modK N rp rs ^ 2) * dn (v0 N rp rs * K (modK N rp rs ^ 2)) (1 - modK N rp rs ^ 2) /
        denom (vert (zarg (modK N rp rs) N (N - 1 - i)) (v0 N rp rs * K (modK N rp rs ^ 2))) (modK N rp rs ^ 2) := rfl
      rw [hre]
      have b1 : 0 < sn (zarg (modK N rp rs) N (N - 1 - i)) (modK N rp rs ^ 2) := lt_of_lt_of_le (by positivity) a1
      exact div_pos (mul_pos b1 (dn_pos hk.par.compl _)) (denom_pos hk.par (by rwa [abs_of_pos f1]))
    simpa using h1.ne'
  rcases h with h | h
  · by_contra hc
    rw [if_neg hc] at h
    simp at h
  · exfalso
    obtain ⟨i, hi, h | h⟩ := pairs_mem h
    · have := congrArg Complex.im h
      rw [Complex.ofReal_im, Complex.conj_im] at this
      exact key i hi (neg_eq_zero.1 this.symm)
    · have := congrArg Complex.im h
      rw [Complex.ofReal_im] at this
      exact key i hi this.symm

end Verif.IirElliptic
