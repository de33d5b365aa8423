import Verif.Proof.EllipticTransform

/-! # The transformation on vertical lines and the degree equation -/

namespace Verif.Elliptic
open Verif.Elliptic.Spec Polynomial

variable {k : ℝ} {N : ℕ}

theorem K_compl_pos {m : ℝ} (h : Par m) : 0 < K (1 - m) := K_pos h.compl

theorem Sn_vert_zero {m : ℝ} (h : Par m) (x : ℝ) : Sn (vert x 0) m = sn x m := by
  have hc := h.compl
  rw [Sn, denom]
  simp only [vert, sn_zero hc, cn_zero hc, dn_zero hc]
  apply Complex.ext <;> simp

theorem Pn_vert_zero {m : ℝ} (h : Par m) (x : ℝ) : Pn (vert x 0) m = pn x m := by
  have hc := h.compl
  rw [Pn, Cn, Dn, denom, pn]
  simp only [vert, sn_zero hc, cn_zero hc, dn_zero hc]
  apply Complex.ext <;> simp

theorem Sn_im (x v m : ℝ) : (Sn (vert x v) m).im = cn x m * dn x m * sn v (1 - m) * cn v (1 - m) / denom (vert x v) m := rfl

theorem Sn_re (x v m : ℝ) : (Sn (vert x v) m).re = sn x m * dn v (1 - m) / denom (vert x v) m := rfl

theorem Sn_im_pos {m : ℝ} (h : Par m) {x v : ℝ} (hx : |x| < K m) (h0 : 0 < v) (hv : v < K (1 - m)) :
    0 < (Sn (vert x v) m).im := by
  have hv' : |v| < K (1 - m) := by rwa [abs_of_pos h0]
  rw [Sn_im]
  have h1 := cn_pos h hx
  have h2 := dn_pos h x
  have h3 := sn_pos h.compl h0 (by linarith)
  have h4 := cn_pos h.compl hv'
  have h5 := denom_pos h (x := x) hv'
  positivity

theorem zarg_lt (h : Mod k) (hN : 1 ≤ N) {j : ℕ} (hj : j < N) : |zarg k N j| < K (k ^ 2) := by
  have hK := K_pos h.par
  have hN0 : (0 : ℝ) < N := by positivity
  have h1 : (j : ℝ) + 1 ≤ N := by exact_mod_cast hj
  have h3 : (0 : ℝ) ≤ j := by positivity
  rw [abs_lt, zarg, lt_div_iff₀ hN0, div_lt_iff₀ hN0]
  constructor <;> nlinarith

theorem denQ_aeval (z : ℂ) : aeval z (denQ k N) = ∏ j ∈ Finset.range N, (1 - k * zero k N j * z) := by
  rw [denQ, map_prod]
  simp

theorem numP_aeval (z : ℂ) : aeval z (numP k N) = ∏ j ∈ Finset.range N, (z - zero k N j) := by
  rw [numP, map_prod]
  simp

theorem denQ_ne_of_im {z : ℂ} (hz : z.im ≠ 0) : aeval z (denQ k N) ≠ 0 := by
  rw [denQ_aeval]
  refine Finset.prod_ne_zero_iff.2 fun j _ => ?_
  intro hc
  have h1 := congrArg Complex.im hc
  have h2 := congrArg Complex.re hc
  simp at h1 h2
  rcases h1 with (h1 | h1) | h1
  · rw [h1] at h2; simp at h2
  · rw [h1] at h2; simp at h2
  · exact hz h1

theorem denQ_path (h : Mod k) (hN : 1 ≤ N) {j : ℕ} (hj : j < N) {v : ℝ} (h0 : 0 ≤ v) (hv : v < K (1 - k ^ 2)) :
    aeval (Sn (vert (zarg k N j) v) (k ^ 2)) (denQ k N) ≠ 0 := by
  rcases h0.eq_or_lt with h1 | h1
  · rw [← h1, Sn_vert_zero h.par, aeval_ofReal]
    exact Complex.ofReal_ne_zero.2 (denQ_pos h hN (abs_sn_le _ _)).ne'
  · exact denQ_ne_of_im (Sn_im_pos h.par (zarg_lt h hN hj) h1 hv).ne'

theorem isn_zero {m : ℝ} (h : Par m) : isn 0 m = 0 := by rw [isn, sn_zero h.compl]; simp

theorem imag_path (h : Mod k) (hN : 1 ≤ N) {j : ℕ} (hj : j < N) {v : ℝ} (h0 : 0 ≤ v) (hv : v < K (1 - k ^ 2))
    (hv1 : mult k N h hN * v < K (1 - modulus k N ^ 2)) :
    aeval (Sn (vert (zarg k N j) v) (k ^ 2)) (numP k N) * cn (mult k N h hN * v) (1 - modulus k N ^ 2) =
      sgn k N h hN j * (Complex.I * sn (mult k N h hN * v) (1 - modulus k N ^ 2)) *
        (amp k N * aeval (Sn (vert (zarg k N j) v) (k ^ 2)) (denQ k N)) := by
  have hm := (modulus_mod h hN).par
  have hl := mult_pos h hN
  have hA : (amp k N : ℂ) ≠ 0 := Complex.ofReal_ne_zero.2 (amp_pos h hN).ne'
  have b1 : ∀ t ∈ Set.Icc 0 v, |t| < K (1 - k ^ 2) := fun t ht => by
    rw [abs_of_nonneg ht.1]; exact ht.2.trans_lt hv
  have b2 : ∀ t ∈ Set.Icc 0 v, |mult k N h hN * t| < K (1 - modulus k N ^ 2) := fun t ht => by
    rw [abs_of_nonneg (mul_nonneg hl.le ht.1)]
    exact (mul_le_mul_of_nonneg_left ht.2 hl.le).trans_lt hv1
  have hs : ∀ t : ℝ, HasDerivAt (fun t : ℝ => mult k N h hN * t) (mult k N h hN) t := fun t => by
    simpa using (hasDerivAt_id t).const_mul (mult k N h hN)
  have key := transform h hN hj (a := Complex.I) (T := v) (W := fun v => Sn (vert (zarg k N j) v) (k ^ 2))
    (S := fun v => Pn (vert (zarg k N j) v) (k ^ 2))
    (x := fun v => isn (mult k N h hN * v) (modulus k N ^ 2))
    (X := fun v => icn (mult k N h hN * v) (modulus k N ^ 2) * idn (mult k N h hN * v) (modulus k N ^ 2))
    (fun t ht => Sn_deriv h.par _ (b1 t ht)) (fun t ht => Pn_deriv h.par _ (b1 t ht))
    (fun t ht => Pn_sq h.par (b1 t ht))
    (fun t ht => denQ_path h hN hj ht.1 (ht.2.trans_lt hv))
    (fun t ht => by
      have := (isn_deriv hm (b2 t ht)).scomp t (hs t)
      refine HasDerivAt.congr_deriv this ?_
      rw [Complex.real_smul]
      ring)
    (fun t ht => by
      have := ((icn_deriv hm (b2 t ht)).mul (idn_deriv hm (b2 t ht))).scomp t (hs t)
      refine HasDerivAt.congr_deriv this ?_
      rw [Complex.real_smul]
      have e1 := icn_sq hm (b2 t ht)
      have e2 := idn_sq hm (b2 t ht)
      linear_combination -(mult k N h hN : ℂ) * Complex.I * isn (mult k N h hN * t) (modulus k N ^ 2) *
        (e2 + (modulus k N ^ 2 : ℝ) * e1))
    (by simp only [Sn_vert_zero h.par]; rfl) (by simp only [Pn_vert_zero h.par])
    (by simp only [mul_zero, isn_zero hm])
    (by simp only [mul_zero, icn, idn, cn_zero hm.compl, dn_zero hm.compl]; simp) v ⟨h0, le_rfl⟩
  have hq := denQ_path h hN hj h0 hv
  have hc := cn_ne hm (b2 v ⟨h0, le_rfl⟩)
  rw [ratio, isn, div_eq_iff (mul_ne_zero hA hq)] at key
  rw [key]
  field_simp

theorem Sn_eq_complex (x v m : ℝ) : Sn (vert x v) m =
    ((sn x m * dn v (1 - m) : ℝ) + (cn x m * dn x m * sn v (1 - m) * cn v (1 - m) : ℝ) * Complex.I) /
      (denom (vert x v) m : ℝ) := by
  rw [Sn, mk_eq]
  simp only [vert]
  push_cast
  ring

theorem Sn_continuousAt {m : ℝ} (h : Par m) {x v : ℝ} (hd : denom (vert x v) m ≠ 0) :
    ContinuousAt (fun v => Sn (vert x v) m) v := by
  have hs := sn_continuous h.compl
  have hc := cn_continuous h.compl
  have hdn := dn_continuous h.compl
  simp only [Sn_eq_complex]
  refine ContinuousAt.div ?_ ?_ (Complex.ofReal_ne_zero.2 hd)
  · refine Continuous.continuousAt ?_
    fun_prop
  · refine Continuous.continuousAt ?_
    simp only [denom, vert]
    fun_prop

theorem denom_K {m : ℝ} (h : Par m) (x : ℝ) : denom (vert x (K (1 - m))) m = m * sn x m ^ 2 := by
  rw [denom]
  simp only [vert, cn_K h.compl, sn_K h.compl]
  ring

theorem dn_K_compl (h : Mod k) : dn (K (1 - k ^ 2)) (1 - k ^ 2) = k := by
  rw [dn, sn_K h.par.compl]
  rw [show 1 - (1 - k ^ 2) * 1 ^ 2 = k ^ 2 by ring, Real.sqrt_sq h.1.le]

theorem Sn_K (h : Mod k) {x : ℝ} (hx : sn x (k ^ 2) ≠ 0) :
    Sn (vert x (K (1 - k ^ 2))) (k ^ 2) = (1 / (k * sn x (k ^ 2)) : ℝ) := by
  have hk := h.1.ne'
  apply Complex.ext
  · rw [Sn_re, denom_K h.par, dn_K_compl h, Complex.ofReal_re]
    field_simp
  · rw [Sn_im, cn_K h.par.compl, Complex.ofReal_im]
    simp

theorem modulus_one (h : Mod k) : modulus k 1 = k := by
  rw [modulus, amp]
  simp [sn_K h.par]

/-- Continuity of both sides of `imag_path` at the end of the interval. -/
theorem imag_path_end (h : Mod k) (hN : 1 ≤ N) {j : ℕ} (hj : j < N) {V : ℝ} (hV : 0 < V) (hv : V ≤ K (1 - k ^ 2))
    (hv1 : mult k N h hN * V ≤ K (1 - modulus k N ^ 2)) (hd : denom (vert (zarg k N j) V) (k ^ 2) ≠ 0) :
    aeval (Sn (vert (zarg k N j) V) (k ^ 2)) (numP k N) * cn (mult k N h hN * V) (1 - modulus k N ^ 2) =
      sgn k N h hN j * (Complex.I * sn (mult k N h hN * V) (1 - modulus k N ^ 2)) *
        (amp k N * aeval (Sn (vert (zarg k N j) V) (k ^ 2)) (denQ k N)) := by
  have hm := (modulus_mod h hN).par
  have hl := mult_pos h hN
  have hS := Sn_continuousAt h.par hd
  have hs := sn_continuous hm.compl
  have hc := cn_continuous hm.compl
  have cP : ContinuousAt (fun v => aeval (Sn (vert (zarg k N j) v) (k ^ 2)) (numP k N)) V :=
    ContinuousAt.comp (g := fun z : ℂ => aeval z (numP k N)) ((numP k N).continuous_aeval.continuousAt) hS
  have cQ : ContinuousAt (fun v => aeval (Sn (vert (zarg k N j) v) (k ^ 2)) (denQ k N)) V :=
    ContinuousAt.comp (g := fun z : ℂ => aeval z (denQ k N)) ((denQ k N).continuous_aeval.continuousAt) hS
  have c1 : ContinuousAt (fun v => (cn (mult k N h hN * v) (1 - modulus k N ^ 2) : ℂ)) V := by
    refine Continuous.continuousAt ?_
    exact Complex.continuous_ofReal.comp (hc.comp (continuous_const.mul continuous_id))
  have c2 : ContinuousAt (fun v => (sgn k N h hN j : ℂ) *
      (Complex.I * (sn (mult k N h hN * v) (1 - modulus k N ^ 2) : ℂ))) V := by
    refine Continuous.continuousAt ?_
    exact continuous_const.mul (continuous_const.mul
      (Complex.continuous_ofReal.comp (hs.comp (continuous_const.mul continuous_id))))
  have l1 := (cP.mul c1).tendsto.mono_left (nhdsWithin_le_nhds (s := Set.Iio V))
  have l2 := (c2.mul (cQ.const_mul (amp k N : ℂ))).tendsto.mono_left (nhdsWithin_le_nhds (s := Set.Iio V))
  refine tendsto_nhds_unique l1 (l2.congr' ?_)
  filter_upwards [Ioo_mem_nhdsLT hV] with t ht
  refine (imag_path h hN hj ht.1.le (ht.2.trans_le hv) ?_).symm
  exact (mul_lt_mul_of_pos_left ht.2 hl).trans_le hv1

theorem mult_K' (h : Mod k) (hN : 1 ≤ N) : mult k N h hN * K (1 - k ^ 2) = K (1 - modulus k N ^ 2) := by
  have hm := (modulus_mod h hN).par
  have hl := mult_pos h hN
  have hK := K_pos h.par
  have hK' := K_compl_pos h.par
  have hK1 := K_compl_pos hm
  have hN0 : (0 : ℝ) < N := by positivity
  rcases hN.eq_or_lt with h1 | h1
  · subst h1
    have e1 := mult_K h hN
    rw [modulus_one h] at e1 ⊢
    rw [Nat.cast_one, div_one] at e1
    have : mult k 1 h hN = 1 := by
      have : (mult k 1 h hN - 1) * K (k ^ 2) = 0 := by linarith
      rcases mul_eq_zero.1 this with h2 | h2
      · linarith
      · exact absurd h2 hK.ne'
    rw [this, one_mul]
  · have hj : 0 < N := by omega
    have hs0 : zero k N 0 ≠ 0 := by
      have hz : zarg k N 0 < 0 := by
        rw [zarg]
        refine div_neg_of_neg_of_pos (mul_neg_of_neg_of_pos ?_ hK) hN0
        have : (2 : ℝ) ≤ N := by exact_mod_cast h1
        push_cast
        linarith
      have := sn_pos h.par (u := -zarg k N 0) (by linarith) (by have := (abs_lt.1 (zarg_lt h hN hj)).1; linarith)
      rw [sn_neg h.par] at this
      rw [zero]
      intro hc
      rw [hc] at this
      norm_num at this
    rcases lt_trichotomy (mult k N h hN * K (1 - k ^ 2)) (K (1 - modulus k N ^ 2)) with h2 | h2 | h2
    · exfalso
      have hd : denom (vert (zarg k N 0) (K (1 - k ^ 2))) (k ^ 2) ≠ 0 := by
        rw [denom_K h.par]
        exact mul_ne_zero h.par.1.ne' (pow_ne_zero 2 hs0)
      have key := imag_path_end h hN hj hK' le_rfl h2.le hd
      rw [Sn_K h hs0, aeval_ofReal, aeval_ofReal] at key
      have e1 := numP_inv (N := N) h hs0
      have e2 := denQ_inv (N := N) h hs0
      rw [numP_zero hj] at e2
      have e3 : (denQ k N).eval (1 / (k * zero k N 0)) = 0 :=
        (mul_eq_zero.1 e2).resolve_right (pow_ne_zero N hs0)
      rw [zero] at e3 e1
      rw [e3] at key
      simp only [Complex.ofReal_zero, mul_zero] at key
      have hc := cn_pos hm.compl (u := mult k N h hN * K (1 - k ^ 2)) (by rwa [abs_of_pos (by positivity)])
      rcases mul_eq_zero.1 key with h3 | h3
      · rw [Complex.ofReal_eq_zero.1 h3, zero_mul] at e1
        exact (denQ_pos h hN (abs_sn_le _ _)).ne e1
      · exact hc.ne' (Complex.ofReal_eq_zero.1 h3)
    · exact h2
    · exfalso
      set V := K (1 - modulus k N ^ 2) / mult k N h hN with hV
      have hV0 : 0 < V := by positivity
      have hV1 : mult k N h hN * V = K (1 - modulus k N ^ 2) := by rw [hV]; field_simp
      have hV2 : V < K (1 - k ^ 2) := by rw [hV, div_lt_iff₀ hl]; linarith
      have key := imag_path_end h hN hj hV0 hV2.le hV1.le
        (denom_pos h.par (by rwa [abs_of_pos hV0])).ne'
      rw [hV1, cn_K hm.compl, sn_K hm.compl] at key
      simp only [Complex.ofReal_zero, mul_zero, Complex.ofReal_one, mul_one] at key
      have hσ : (sgn k N h hN 0 : ℂ) ≠ 0 := by
        intro hc
        have := sgn_sq h hN hj
        rw [Complex.ofReal_eq_zero.1 hc] at this
        norm_num at this
      have := key.symm
      rcases mul_eq_zero.1 this with h3 | h3
      · exact mul_ne_zero hσ Complex.I_ne_zero h3
      · rcases mul_eq_zero.1 h3 with h4 | h4
        · exact (amp_pos h hN).ne' (Complex.ofReal_eq_zero.1 h4)
        · exact denQ_path h hN hj hV0.le hV2 h4

/-! ### The degree equation -/

theorem K_strictMono {m m' : ℝ} (h : Par m) (h' : Par m') (hmm : m < m') : K m < K m' := by
  rw [K, K, F, F]
  have hp : (0 : ℝ) < Real.pi / 2 := by have := Real.pi_pos; positivity
  refine intervalIntegral.integral_lt_integral_of_continuousOn_of_le_of_exists_lt hp
    (integrand_cont h.1.le h.2).continuousOn (integrand_cont h'.1.le h'.2).continuousOn ?_ ?_
  · intro t _
    have h1 := integrand_pos h'.1.le h'.2 t
    refine one_div_le_one_div_of_le (Real.sqrt_pos.2 h1) (Real.sqrt_le_sqrt ?_)
    nlinarith [sq_nonneg (Real.sin t)]
  · refine ⟨Real.pi / 2, ⟨hp.le, le_rfl⟩, ?_⟩
    have h1 := integrand_pos h'.1.le h'.2 (Real.pi / 2)
    refine one_div_lt_one_div_of_lt (Real.sqrt_pos.2 h1) (Real.sqrt_lt_sqrt h1.le ?_)
    rw [Real.sin_pi_div_two]
    linarith

theorem ratio_inj {m m' : ℝ} (h : Par m) (h' : Par m') (he : K (1 - m) * K m' = K (1 - m') * K m) : m = m' := by
  have key : ∀ {m m' : ℝ}, Par m → Par m' → m < m' → K (1 - m') * K m < K (1 - m) * K m' := by
    intro m m' h h' hmm
    have h1 := K_strictMono h h' hmm
    have h2 := K_strictMono h'.compl h.compl (by linarith)
    exact mul_lt_mul'' h2 h1 (K_pos h'.compl).le (K_pos h).le
  rcases lt_trichotomy m m' with h1 | h1 | h1
  · have := key h h' h1; linarith
  · exact h1
  · have := key h' h h1; linarith

/-- The degree equation is met by the modulus of the elliptic rational function. -/
theorem degree_modulus (h : Mod k) (hN : 1 ≤ N) :
    K (1 - modulus k N ^ 2) * K (k ^ 2) = N * K (1 - k ^ 2) * K (modulus k N ^ 2) := by
  have h1 := mult_K h hN
  have h2 := mult_K' h hN
  have hN0 : (0 : ℝ) < N := by positivity
  rw [← h1, ← h2]
  field_simp

/-- The complementary modulus. -/
noncomputable def comp (k : ℝ) : ℝ := √(1 - k ^ 2)

theorem Mod.compl (h : Mod k) : Mod (comp k) := by
  have h1 := h.par
  refine ⟨Real.sqrt_pos.2 (by linarith [h1.2]), ?_⟩
  rw [comp, Real.sqrt_lt' one_pos]
  linarith [h1.1]

theorem comp_sq (h : Mod k) : comp k ^ 2 = 1 - k ^ 2 := Real.sq_sqrt (by linarith [h.par.2])

/-- The formula for the solution of the degree equation inverts `modulus`. -/
theorem degree_solved {k₁ : ℝ} (h : Mod k₁) (hN : 1 ≤ N) :
    modulus (comp (modulus (comp k₁) N)) N = k₁ := by
  have hc := h.compl
  have hkp := modulus_mod hc hN
  have hk := hkp.compl
  have hT := modulus_mod hk hN
  have e1 := degree_modulus hc hN
  have e2 := degree_modulus hk hN
  have hN0 : (0 : ℝ) < N := by positivity
  rw [comp_sq h, show 1 - (1 - k₁ ^ 2) = k₁ ^ 2 by ring] at e1
  rw [comp_sq hkp, show ∀ x : ℝ, 1 - (1 - x) = x by intro x; ring] at e2
  set kp := modulus (comp k₁) N
  set T := modulus (comp kp) N
  have p1 := K_pos h.par
  have p2 := K_pos h.par.compl
  have p3 := K_pos hkp.par
  have p4 := K_pos hkp.par.compl
  have hsq : T ^ 2 = k₁ ^ 2 := by
    refine ratio_inj hT.par h.par ?_
    have : (K (1 - T ^ 2) * K (k₁ ^ 2)) * (N * K (kp ^ 2) * K (1 - kp ^ 2)) =
        (K (1 - k₁ ^ 2) * K (T ^ 2)) * (N * K (kp ^ 2) * K (1 - kp ^ 2)) := by
      linear_combination (N * K (kp ^ 2) * K (k₁ ^ 2)) * e2 - (N * K (kp ^ 2) * K (T ^ 2)) * e1
    exact mul_right_cancel₀ (by positivity) this
  exact (sq_eq_sq₀ hT.1.le h.1.le).1 hsq

end Verif.Elliptic
