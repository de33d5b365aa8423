import Verif.Proof.EllipticResponse2

/-!
# The prototype of the code: moduli, poles, gain and bounds
-/

namespace Verif.EllipticDesign
open Verif.PoleZero Verif.PoleZero.Spec Verif.Elliptic Verif.Elliptic.Spec Spec
open Verif.IirDesign (ps nrm)

variable {k : ℝ} {N : ℕ}

/-! ### The selectivity parameters -/

theorem epsilon_pos {r : ℝ} (hr : 0 < r) : 0 < epsilon r ∧ 1 + epsilon r ^ 2 = (10 : ℝ) ^ (r / 10) := by
  have h : 0 < (10 : ℝ) ^ (r / 10) - 1 := by
    have := Real.one_lt_rpow (x := (10 : ℝ)) (z := r / 10) (by norm_num) (by positivity)
    linarith
  refine ⟨Real.sqrt_pos.2 h, ?_⟩
  rw [epsilon, Real.sq_sqrt h.le]; ring

theorem epsilon_lt {r s : ℝ} (hr : 0 < r) (hrs : r < s) : epsilon r < epsilon s := by
  apply Real.sqrt_lt_sqrt
  · have := (epsilon_pos hr).2
    have := sq_nonneg (epsilon r)
    linarith
  · have := Real.rpow_lt_rpow_of_exponent_lt (x := (10 : ℝ)) (by norm_num) (show r / 10 < s / 10 by linarith)
    linarith

theorem ten_neg (r : ℝ) : (10 : ℝ) ^ (-r / 10) = 1 / (10 : ℝ) ^ (r / 10) := by
  rw [neg_div, Real.rpow_neg (by norm_num), one_div]

theorem selectivity {rp rs : ℝ} (hp : 0 < rp) (hps : rp < rs) : Mod (epsilon rp / epsilon rs) := by
  have h1 := (epsilon_pos hp).1
  have h2 := epsilon_lt hp hps
  refine ⟨div_pos h1 (h1.trans h2), ?_⟩
  rw [div_lt_one (h1.trans h2)]; exact h2

/-- The modulus `k` of the prototype. -/
noncomputable def modK (N : ℕ) (rp rs : ℝ) : ℝ := comp (modulus (comp (epsilon rp / epsilon rs)) N)

theorem modK_mod (hN : 1 ≤ N) {rp rs : ℝ} (hp : 0 < rp) (hps : rp < rs) : Mod (modK N rp rs) :=
  (modulus_mod (selectivity hp hps).compl hN).compl

theorem modK_modulus (hN : 1 ≤ N) {rp rs : ℝ} (hp : 0 < rp) (hps : rp < rs) :
    modulus (modK N rp rs) N = epsilon rp / epsilon rs := degree_solved (selectivity hp hps) hN

theorem modK_degree (hN : 1 ≤ N) {rp rs : ℝ} (hp : 0 < rp) (hps : rp < rs) :
    DegreeEquation N (modK N rp rs) (epsilon rp / epsilon rs) := by
  have h := degree_modulus (modK_mod hN hp hps) hN
  rw [modK_modulus hN hp hps] at h
  have h1 := K_pos (modK_mod hN hp hps).par
  have h2 := K_pos (selectivity hp hps).par
  rw [DegreeEquation]
  generalize K ((epsilon rp / epsilon rs) ^ 2) = A at *
  generalize K (1 - (epsilon rp / epsilon rs) ^ 2) = B at *
  field_simp
  linarith

/-- `v0`. -/
noncomputable def v0 (N : ℕ) (rp rs : ℝ) : ℝ :=
  F (Real.arctan (1 / epsilon rp)) (1 - (epsilon rp / epsilon rs) ^ 2) / (N * K ((epsilon rp / epsilon rs) ^ 2))

noncomputable def proto (N : ℕ) (rp rs : ℝ) : PZ :=
  assemble exact N (epsilon rp) (modK N rp rs) (K (modK N rp rs ^ 2)) (v0 N rp rs)

theorem exact_K {m : ℝ} (h : Par m) : exact.K m = some (K m) := if_pos ⟨h.1.le, h.2⟩

theorem exact_inverse {m : ℝ} (h : Par m) (x : ℝ) :
    (inverseJacobiSN exact ⟨0, x⟩ m).im = F (Real.arctan x) (1 - m) := by
  rw [inverseJacobiSN, casin_imag]
  show (Fc _ m).im = _
  rw [Fc_imag h, Real.sinh_arsinh]
  simp

theorem prototype_eq (hN : 1 ≤ N) {rp rs : ℝ} (hp : 0 < rp) (hps : rp < rs) :
    prototype exact N rp rs = .ok (proto N rp rs) := by
  have hk1 := selectivity hp hps
  have hk := modK_mod hN hp hps
  have e1 : √(1 - epsilon rp / epsilon rs * (epsilon rp / epsilon rs)) = comp (epsilon rp / epsilon rs) := by
    rw [comp, pow_two]
  have e2 : degreeKp exact N (comp (epsilon rp / epsilon rs)) (K (comp (epsilon rp / epsilon rs) ^ 2)) =
      modulus (comp (epsilon rp / epsilon rs)) N := degreeKp_eq hk1.compl hN
  have hkp := modulus_mod hk1.compl hN
  have e3 : √(1 - modulus (comp (epsilon rp / epsilon rs)) N * modulus (comp (epsilon rp / epsilon rs)) N) =
      modK N rp rs := by
    rw [← pow_two]; rfl
  unfold prototype
  rw [if_neg (by push Not; exact ⟨hps, hN, hp, hp.trans hps⟩)]
  simp only []
  rw [e1, exact_K hk1.par, exact_K hk1.compl.par]
  simp only []
  rw [e2, if_neg (by rw [← pow_two]; exact not_lt.2 hkp.par.2.le), e3, exact_K hk.par]
  simp only []
  rw [exact_inverse hk1.par]
  rfl

/-! ### The poles -/

theorem v0_facts (hN : 1 ≤ N) {rp rs : ℝ} (hp : 0 < rp) (hps : rp < rs) :
    0 < v0 N rp rs * K (modK N rp rs ^ 2) ∧ v0 N rp rs * K (modK N rp rs ^ 2) < K (1 - modK N rp rs ^ 2) ∧
    mult (modK N rp rs) N (modK_mod hN hp hps) hN * (v0 N rp rs * K (modK N rp rs ^ 2)) <
      K (1 - modulus (modK N rp rs) N ^ 2) ∧
    epsilon rp * sn (mult (modK N rp rs) N (modK_mod hN hp hps) hN * (v0 N rp rs * K (modK N rp rs ^ 2)))
        (1 - modulus (modK N rp rs) N ^ 2) =
      cn (mult (modK N rp rs) N (modK_mod hN hp hps) hN * (v0 N rp rs * K (modK N rp rs ^ 2)))
        (1 - modulus (modK N rp rs) N ^ 2) := by
  have hk := modK_mod hN hp hps
  have hk1 := selectivity hp hps
  have he := (epsilon_pos hp).1
  have h1 := mult_K hk hN
  have h2 := mult_K' hk hN
  have hm := mult_pos hk hN
  have hN' : (0 : ℝ) < N := by exact_mod_cast hN
  have hK := K_pos hk.par
  have hK1 := K_pos hk1.par
  rw [modK_modulus hN hp hps] at *
  have hF : 0 < F (Real.arctan (1 / epsilon rp)) (1 - (epsilon rp / epsilon rs) ^ 2) := by
    have : F 0 (1 - (epsilon rp / epsilon rs) ^ 2) = 0 := by simp [F]
    rw [← this]
    apply F_strictMono hk1.par.compl.1.le hk1.par.compl.2
    rw [← Real.arctan_zero]
    exact Real.arctan_strictMono (by positivity)
  have hFK : F (Real.arctan (1 / epsilon rp)) (1 - (epsilon rp / epsilon rs) ^ 2) < K (1 - (epsilon rp / epsilon rs) ^ 2) :=
    F_strictMono hk1.par.compl.1.le hk1.par.compl.2 (Real.arctan_lt_pi_div_two _)
  have hv : mult (modK N rp rs) N hk hN * (v0 N rp rs * K (modK N rp rs ^ 2)) =
      F (Real.arctan (1 / epsilon rp)) (1 - (epsilon rp / epsilon rs) ^ 2) := by
    rw [v0, ← h1]
    field_simp
  have hpos : 0 < v0 N rp rs * K (modK N rp rs ^ 2) := mul_pos (div_pos hF (mul_pos hN' hK1)) hK
  refine ⟨hpos, ?_, ?_, ?_⟩
  · have : mult (modK N rp rs) N hk hN * (v0 N rp rs * K (modK N rp rs ^ 2)) <
        mult (modK N rp rs) N hk hN * K (1 - modK N rp rs ^ 2) := by rw [hv, h2]; exact hFK
    exact lt_of_mul_lt_mul_left this hm.le
  · rw [hv]; exact hFK
  · rw [hv, sn, cn, am_F hk1.par.compl, Real.sin_arctan, Real.cos_arctan]
    field_simp

theorem proto_power (hN : 1 ≤ N) {rp rs : ℝ} (hp : 0 < rp) (hps : rp < rs) (w : ℝ) :
    ‖analogSystem (proto N rp rs) (w * Complex.I)‖ ^ 2 = elliptic N (modK N rp rs) (epsilon rp) w := by
  obtain ⟨f1, f2, f3, f4⟩ := v0_facts hN hp hps
  exact assemble_power (modK_mod hN hp hps) hN (epsilon_pos hp).1 f1 f2 f3 f4 w

theorem proto_length (hN : 1 ≤ N) {rp rs : ℝ} (hp : 0 < rp) (hps : rp < rs) :
    (proto N rp rs).pairedPoles.length = N / 2 ∧ (proto N rp rs).lonePoles.length = N % 2 ∧
    (proto N rp rs).pairedZeros.length = N / 2 ∧ (proto N rp rs).loneZeros = [] := by
  obtain ⟨f1, f2, -, -⟩ := v0_facts hN hp hps
  obtain ⟨s1, s2, s3, s4, -⟩ := assemble_shape (ε := epsilon rp) (modK_mod hN hp hps) hN f1 f2
  unfold proto
  rw [s1, s2, s3, s4]
  refine ⟨by simp, ?_, by simp, rfl⟩
  split_ifs with h
  · simp [h]
  · simp; omega

theorem proto_degree (hN : 1 ≤ N) {rp rs : ℝ} (hp : 0 < rp) (hps : rp < rs) :
    (proto N rp rs).relativeDegree = (N % 2 : ℕ) ∧ (proto N rp rs).polesDegree = N := by
  obtain ⟨l1, l2, l3, l4⟩ := proto_length hN hp hps
  have : (proto N rp rs).polesDegree = N := by
    unfold PZ.polesDegree
    rw [l1, l2]; omega
  refine ⟨?_, this⟩
  unfold PZ.relativeDegree
  rw [this]
  unfold PZ.zerosDegree
  rw [l3, l4]
  simp only [List.length_nil]
  omega

theorem F_le {m : ℝ} (h : Par m) {x : ℝ} (h0 : 0 ≤ x) (h1 : x ≤ 1) : F (x * (Real.pi / 2)) m ≤ x * K m := by
  have hpi := Real.pi_pos
  have e := intervalIntegral.mul_integral_comp_mul_left (a := 0) (b := Real.pi / 2)
    (f := fun t => 1 / √(1 - m * Real.sin t ^ 2)) x
  rw [mul_zero] at e
  rw [F, ← e, K, F]
  apply mul_le_mul_of_nonneg_left _ h0
  have hc := integrand_cont h.1.le h.2
  apply intervalIntegral.integral_mono_on (by positivity)
  · exact (hc.comp (continuous_const.mul continuous_id)).intervalIntegrable _ _
  · exact hc.intervalIntegrable _ _
  · intro t ht
    have hp := integrand_pos h.1.le h.2 t
    apply one_div_le_one_div_of_le (Real.sqrt_pos.2 hp)
    apply Real.sqrt_le_sqrt
    have h2 : x * t ≤ t := by nlinarith [ht.1]
    have h3 : 0 ≤ x * t := mul_nonneg h0 ht.1
    have h4 : Real.sin (x * t) ≤ Real.sin t :=
      Real.sin_le_sin_of_le_of_le_pi_div_two (by linarith) ht.2 h2
    have h5 : 0 ≤ Real.sin (x * t) := Real.sin_nonneg_of_nonneg_of_le_pi h3 (by linarith [ht.2])
    have h6 := pow_le_pow_left₀ h5 h4 2
    have := mul_le_mul_of_nonneg_left h6 h.1.le
    linarith

theorem margin_rootW (h : Mod k) (hN : 1 ≤ N) (h45 : N ≤ 45000) {V : ℝ} (h0 : 0 < V) (hV : V < K (1 - k ^ 2)) {i : ℕ}
    (hi : i < N / 2) : Margin (Complex.I * rootW k N V (N - 1 - i)) := by
  have hpi := Real.pi_pos
  have hN' : (0 : ℝ) < N := by exact_mod_cast hN
  have hx : 0 < Real.pi / (2 * N) := by positivity
  have hK := K_pos h.par
  have hj : N - 1 - i < N := by omega
  have hlt := zarg_lt h hN hj
  set u := zarg k N (N - 1 - i) with hu
  have hge : K (k ^ 2) / N ≤ u := by
    rw [hu, zarg]
    apply div_le_div_of_nonneg_right _ hN'.le
    have : (2 * ((N - 1 - i : ℕ) : ℝ) + 1 - N) ≥ 1 := by
      have : (N : ℝ) ≤ 2 * ((N - 1 - i : ℕ) : ℝ) := by exact_mod_cast (by omega : N ≤ 2 * (N - 1 - i))
      linarith
    nlinarith
  have hu0 : 0 < u := lt_of_lt_of_le (by positivity) hge
  rw [abs_of_pos hu0] at hlt
  -- the amplitude
  have ham : Real.pi / (2 * N) ≤ am u (k ^ 2) := by
    have h1 : F (1 / N * (Real.pi / 2)) (k ^ 2) ≤ 1 / N * K (k ^ 2) :=
      F_le h.par (by positivity) (by rw [div_le_one hN']; exact_mod_cast hN)
    have h2 : F (1 / N * (Real.pi / 2)) (k ^ 2) ≤ u := h1.trans (by rw [one_div_mul_eq_div]; exact hge)
    have h3 := (am_strictMono h.par).monotone h2
    simp only [am_F h.par] at h3
    calc Real.pi / (2 * N) = 1 / N * (Real.pi / 2) := by field_simp
      _ ≤ _ := h3
  have ham2 : am u (k ^ 2) < Real.pi / 2 := am_lt h.par hlt
  have hcc : cn u (k ^ 2) ≤ Real.cos (Real.pi / (2 * N)) :=
    Real.cos_le_cos_of_nonneg_of_le_pi hx.le (by linarith) ham
  -- the direction of the pole
  have hden : 0 < denom (vert u V) (k ^ 2) := denom_pos h.par (by rw [abs_of_pos h0]; exact hV)
  have him : 0 < (rootW k N V (N - 1 - i)).im := rootW_im_pos h hN h0 hV hj
  have hdir : (rootW k N V (N - 1 - i)).im ≤ cn u (k ^ 2) * ‖rootW k N V (N - 1 - i)‖ := by
    have hc : 0 < cn u (k ^ 2) := cn_pos h.par (by rw [abs_of_pos hu0]; exact hlt)
    have hs : 0 < sn u (k ^ 2) := sn_pos h.par hu0 (by linarith)
    have hs1 : 0 < sn V (1 - k ^ 2) := sn_pos h.par.compl h0 (by linarith [K_pos h.par.compl])
    have hc1 : 0 < cn V (1 - k ^ 2) := cn_pos h.par.compl (by rw [abs_of_pos h0]; exact hV)
    have hd := dn_pos h.par u
    have hd1 := dn_pos h.par.compl V
    have q1 := cn_sq u (k ^ 2)
    have q2 := cn_sq V (1 - k ^ 2)
    have q3 := dn_sq h.par u
    have q4 := dn_sq h.par.compl V
    have hre : (rootW k N V (N - 1 - i)).re = sn u (k ^ 2) * dn V (1 - k ^ 2) / denom (vert u V) (k ^ 2) := rfl
    have him' : (rootW k N V (N - 1 - i)).im =
        cn u (k ^ 2) * dn u (k ^ 2) * sn V (1 - k ^ 2) * cn V (1 - k ^ 2) / denom (vert u V) (k ^ 2) := rfl
    apply abs_le_of_sq_le_sq' _ (mul_nonneg hc.le (norm_nonneg _)) |>.2
    rw [mul_pow, ← Complex.normSq_eq_norm_sq, Complex.normSq_apply, ← pow_two, ← pow_two, hre, him']
    generalize denom (vert u V) (k ^ 2) = D at *
    have hk0 := h.par.1
    have hk1 := h.par.2
    generalize k ^ 2 = M at *
    generalize cn u M = c at *
    generalize sn u M = s at *
    generalize dn u M = d at *
    generalize cn V (1 - M) = c1 at *
    generalize sn V (1 - M) = s1 at *
    generalize dn V (1 - M) = d1 at *
    rw [div_pow, div_pow, ← add_div, mul_div_assoc']
    apply div_le_div_of_nonneg_right _ (by positivity)
    -- `c² (s² d1² + (c d s1 c1)²) - (c d s1 c1)² = c² s² (d1² - (d s1 c1)²)`
    have key : (d * s1 * c1) ^ 2 ≤ d1 ^ 2 := by
      have a1 : d ^ 2 ≤ 1 := by rw [q3]; nlinarith [mul_pos hk0 (pow_pos hs 2)]
      have a2 : s1 ^ 2 ≤ 1 := by nlinarith [sq_nonneg c1]
      have a3 : c1 ^ 2 ≤ d1 ^ 2 := by rw [q2, q4]; nlinarith [mul_pos hk0 (pow_pos hs1 2)]
      calc (d * s1 * c1) ^ 2 = d ^ 2 * s1 ^ 2 * c1 ^ 2 := by ring
        _ ≤ 1 * 1 * c1 ^ 2 := by
          apply mul_le_mul_of_nonneg_right _ (sq_nonneg _)
          exact mul_le_mul a1 a2 (sq_nonneg _) zero_le_one
        _ ≤ d1 ^ 2 := by linarith
    have h6 := mul_le_mul_of_nonneg_left key (mul_nonneg (sq_nonneg c) (sq_nonneg s))
    have e1 : s ^ 2 = 1 - c ^ 2 := by linarith
    have e2 : (c * d * s1 * c1) ^ 2 = c ^ 2 * (d * s1 * c1) ^ 2 := by ring
    have e3 : (s * d1) ^ 2 = s ^ 2 * d1 ^ 2 := mul_pow _ _ _
    rw [e2, e3]
    generalize (d * s1 * c1) ^ 2 = X at *
    generalize d1 ^ 2 = Y at *
    rw [e1] at h6 ⊢
    linarith
  have hnorm : 0 < ‖rootW k N V (N - 1 - i)‖ := norm_pos_iff.2 (by intro h0; rw [h0] at him; simp at him)
  unfold Margin
  rw [norm_mul, Complex.norm_I, one_mul]
  have hre : (Complex.I * rootW k N V (N - 1 - i)).re = -(rootW k N V (N - 1 - i)).im := by simp
  rw [hre, neg_div]
  have hq : (rootW k N V (N - 1 - i)).im / ‖rootW k N V (N - 1 - i)‖ ≤ cn u (k ^ 2) := by
    rw [div_le_iff₀ hnorm]; exact hdir
  have hN1 : (1 : ℝ) ≤ N := by exact_mod_cast hN
  have hc2 := Real.cos_le_one_sub_mul_cos_sq (x := Real.pi / (2 * N)) (by
    rw [abs_of_pos hx, div_le_iff₀ (by positivity)]
    nlinarith)
  have e : 2 / Real.pi ^ 2 * (Real.pi / (2 * N)) ^ 2 = 1 / (2 * (N : ℝ) ^ 2) := by field_simp
  rw [e] at hc2
  have hN45 : (N : ℝ) ≤ 45000 := by exact_mod_cast h45
  have h3 : (N : ℝ) ^ 2 ≤ 45000 ^ 2 := pow_le_pow_left₀ hN'.le hN45 2
  have h4 : 1 / (2 * (45000 : ℝ) ^ 2) ≤ 1 / (2 * (N : ℝ) ^ 2) := by
    apply one_div_le_one_div_of_le (by positivity)
    linarith
  have h5 : (24 / 10 ^ 11 : ℝ) < 1 / (2 * (45000 : ℝ) ^ 2) := by norm_num
  linarith

theorem proto_prototype (hN : 1 ≤ N) {rp rs : ℝ} (hp : 0 < rp) (hps : rp < rs) : Prototype (proto N rp rs) := by
  obtain ⟨f1, f2, -, -⟩ := v0_facts hN hp hps
  have hk := modK_mod hN hp hps
  obtain ⟨s1, s2, s3, s4, g, g0, g1, -⟩ := assemble_shape (ε := epsilon rp) hk hN f1 f2
  have him : ∀ j < N, (Complex.I * rootW (modK N rp rs) N (v0 N rp rs * K (modK N rp rs ^ 2)) j).re < 0 := by
    intro j hj
    have := rootW_im_pos hk hN f1 f2 hj
    simpa using this
  refine ⟨?_, ?_, ?_, ?_, ?_, ?_⟩
  · unfold proto
    rw [g1]
    split_ifs
    · exact div_nonneg g0 (Real.sqrt_nonneg _)
    · exact g0
  · rw [(proto_degree hN hp hps).1]
    exact Int.natCast_nonneg _
  · unfold proto
    rw [s4]
    intro p hp
    split_ifs at hp
    · rw [List.mem_singleton.1 hp]
      exact him _ (by omega)
    · simp at hp
  · unfold proto
    rw [s1]; simp
  · unfold proto
    rw [s3]
    intro p hp
    obtain ⟨i, hi, rfl⟩ := List.mem_map.1 hp
    exact him _ (by omega)
  · unfold proto
    rw [s2]
    intro p hp
    obtain ⟨i, hi, rfl⟩ := List.mem_map.1 hp
    refine ⟨le_rfl, ?_⟩
    have hz := zero_upper hk hN (List.mem_range.1 hi)
    intro h0
    have := congrArg Complex.im h0
    simp at this
    rcases this with h | h
    · exact hz.ne' h
    · exact hk.1.ne' h

theorem proto_regular (hN : 1 ≤ N) (h45 : N ≤ 45000) {rp rs : ℝ} (hp : 0 < rp) (hps : rp < rs) :
    Regular (proto N rp rs) := by
  obtain ⟨f1, f2, -, -⟩ := v0_facts hN hp hps
  have hk := modK_mod hN hp hps
  obtain ⟨l1, l2, l3, l4⟩ := proto_length hN hp hps
  obtain ⟨s1, s2, s3, s4, -⟩ := assemble_shape (ε := epsilon rp) hk hN f1 f2
  refine ⟨proto_prototype hN hp hps, by omega, l4, ?_, ?_, by rw [(proto_degree hN hp hps).2]; omega⟩
  · unfold proto
    rw [s2]
    intro p hp
    obtain ⟨i, hi, rfl⟩ := List.mem_map.1 hp
    rfl
  · unfold proto
    rw [s3]
    intro p hp
    obtain ⟨i, hi, rfl⟩ := List.mem_map.1 hp
    exact margin_rootW hk hN h45 f1 f2 (List.mem_range.1 hi)

/-! ### The response -/

theorem extD_ne (h : Mod k) (hN : 1 ≤ N) {x : ℝ} (hx : 1 < |x|) : (extD k N).eval x ≠ 0 := by
  rw [extD_eval]
  apply Finset.prod_ne_zero_iff.2
  intro j hj
  rw [Finset.mem_Ico] at hj
  have := ext_lt h hN (j := j) (by omega) hj.2
  intro h0
  rw [sub_eq_zero.1 h0] at hx
  linarith

theorem extE_ne (h : Mod k) (hN : 1 ≤ N) {x : ℝ} (hx : k * |x| < 1) : (extE k N).eval x ≠ 0 := by
  rw [extE_eval]
  apply Finset.prod_ne_zero_iff.2
  intro j hj
  rw [Finset.mem_Ico] at hj
  have h1 := ext_lt h hN (j := j) (by omega) hj.2
  intro h0
  have h2 : |k * ext k N j * x| < 1 := by
    rw [abs_mul, abs_mul, abs_of_pos h.1]
    calc k * |ext k N j| * |x| = |ext k N j| * (k * |x|) := by ring
      _ ≤ 1 * (k * |x|) := mul_le_mul_of_nonneg_right h1.le (mul_nonneg h.1.le (abs_nonneg _))
      _ < 1 := by linarith
  have h3 : k * ext k N j * x = 1 := by linarith
  rw [h3] at h2
  simp at h2

theorem respG_pos (h : Mod k) (hN : 1 ≤ N) {ε : ℝ} (he : 0 < ε) (x : ℝ) : 0 < (respG k N ε).eval x := by
  have hA := amp_pos h hN
  have e : (respG k N ε).eval x = amp k N ^ 2 * (denQ k N).eval x ^ 2 + ε ^ 2 * (numP k N).eval x ^ 2 := by
    simp [respG]
  rw [e]
  by_cases hP : (numP k N).eval x = 0
  · have hQ : (denQ k N).eval x ≠ 0 := by
      rw [numP_eval, Finset.prod_eq_zero_iff] at hP
      obtain ⟨j, hj, h0⟩ := hP
      rw [Finset.mem_range] at hj
      rw [sub_eq_zero.1 h0]
      exact (denQ_pos h hN (zero_lt h hN hj).le).ne'
    positivity
  · positivity

theorem elliptic_cmp (h : Mod k) (hN : 1 ≤ N) {ε : ℝ} (he : 0 < ε) (x : ℝ) :
    (|x| ≤ 1 → 1 / (1 + ε ^ 2) ≤ elliptic N k ε x) ∧ (1 < |x| → elliptic N k ε x < 1 / (1 + ε ^ 2)) ∧
    (k * |x| < 1 → 1 / (1 + (ε / modulus k N) ^ 2) < elliptic N k ε x) ∧
    (1 ≤ k * |x| → elliptic N k ε x ≤ 1 / (1 + (ε / modulus k N) ^ 2)) ∧ 0 ≤ elliptic N k ε x ∧ elliptic N k ε x ≤ 1 := by
  have hA := amp_pos h hN
  have hL := lead_pos h hN
  have hm := (modulus_mod h hN).1
  have hR := respG_pos h hN he x
  have e : (respG k N ε).eval x = amp k N ^ 2 * (denQ k N).eval x ^ 2 + ε ^ 2 * (numP k N).eval x ^ 2 := by
    simp [respG]
  have hP := passG_eval h hN x
  have eP : (passG k N).eval x = amp k N ^ 2 * (denQ k N).eval x ^ 2 - (numP k N).eval x ^ 2 := by simp [passG]
  have hS : (stopG k N).eval x = amp k N ^ 2 * lead k N * ((1 - k ^ 2 * x ^ 2) * (extE k N).eval x ^ 2) := by
    rw [stopG_eq h hN]; simp
  have eS : (stopG k N).eval x = amp k N ^ 2 * (denQ k N).eval x ^ 2 - modulus k N ^ 2 * (numP k N).eval x ^ 2 := by
    simp [stopG]
  rw [elliptic_eq h hN]
  have hx : x ^ 2 = |x| ^ 2 := (sq_abs x).symm
  have hx0 := abs_nonneg x
  rw [hx] at hP hS
  have hD := @extD_ne k N h hN x
  have hE := @extE_ne k N h hN x
  generalize (respG k N ε).eval x = R at *
  generalize (passG k N).eval x = G at *
  generalize (stopG k N).eval x = S at *
  generalize (numP k N).eval x = P at *
  generalize (denQ k N).eval x = Q at *
  generalize (extD k N).eval x = D at *
  generalize (extE k N).eval x = E at *
  generalize modulus k N = M at *
  generalize |x| = y at *
  have hk := h.1
  have he2 : 0 < 1 + ε ^ 2 := by positivity
  have he3 : 0 < 1 + (ε / M) ^ 2 := by positivity
  have eM : (ε / M) ^ 2 * M ^ 2 = ε ^ 2 := by rw [div_pow]; field_simp
  refine ⟨?_, ?_, ?_, ?_, ?_, ?_⟩
  · intro h1
    have hG : 0 ≤ G := by
      rw [hP]
      exact mul_nonneg hL.le (mul_nonneg (by nlinarith) (sq_nonneg _))
    rw [div_le_div_iff₀ he2 hR, e]
    nlinarith [mul_nonneg (sq_nonneg ε) hG]
  · intro h1
    have hD := hD h1
    have hG : G < 0 := by
      rw [hP]
      have : 0 < (y ^ 2 - 1) * D ^ 2 := mul_pos (by nlinarith) (by positivity)
      nlinarith
    rw [div_lt_div_iff₀ hR he2, e]
    nlinarith [mul_pos (pow_pos he 2) (neg_pos.2 hG)]
  · intro h1
    have hE := hE h1
    have hG : 0 < S := by
      rw [hS]
      have : 0 < 1 - k ^ 2 * y ^ 2 := by
        have : (k * y) ^ 2 < 1 := by have := mul_nonneg hk.le hx0; nlinarith
        nlinarith
      positivity
    rw [div_lt_div_iff₀ he3 hR, e]
    have h7 := mul_pos (pow_pos (div_pos he hm) 2) hG
    rw [eS, mul_sub, ← mul_assoc, ← mul_assoc, eM] at h7
    linarith
  · intro h1
    have hG : S ≤ 0 := by
      rw [hS]
      have : 1 - k ^ 2 * y ^ 2 ≤ 0 := by nlinarith
      have h3 : (1 - k ^ 2 * y ^ 2) * E ^ 2 ≤ 0 := mul_nonpos_of_nonpos_of_nonneg this (sq_nonneg _)
      exact mul_nonpos_of_nonneg_of_nonpos (by positivity) h3
    rw [div_le_div_iff₀ hR he3, e]
    have h7 := mul_nonneg (pow_pos (div_pos he hm) 2).le (neg_nonneg.2 hG)
    rw [eS, mul_neg, mul_sub, ← mul_assoc, ← mul_assoc, eM] at h7
    linarith
  · positivity
  · rw [div_le_one hR, e]
    have : 0 ≤ ε ^ 2 * P ^ 2 := by positivity
    linarith

theorem elliptic_even (h : Mod k) (hN : 1 ≤ N) (ε x : ℝ) : elliptic N k ε (-x) = elliptic N k ε x := by
  have h1 : (numP k N).eval (-x) ^ 2 = (numP k N).eval x ^ 2 := by
    rw [numP_eval' h hN (-x), numP_eval, ← Finset.prod_pow, ← Finset.prod_pow]
    exact Finset.prod_congr rfl fun j _ => by ring
  have h2 : (denQ k N).eval (-x) = (denQ k N).eval x := by
    rw [denQ_eval' h hN (-x), denQ_eval]
    exact Finset.prod_congr rfl fun j _ => by ring
  rw [elliptic_eq h hN, elliptic_eq h hN]
  simp only [respG, Polynomial.eval_add, Polynomial.eval_mul, Polynomial.eval_C, Polynomial.eval_pow, h1, h2]

theorem proto_bounds (hN : 1 ≤ N) {rp rs : ℝ} (hp : 0 < rp) (hps : rp < rs) (x : ℝ) :
    (|x| ≤ 1 → (10 : ℝ) ^ (-rp / 10) ≤ elliptic N (modK N rp rs) (epsilon rp) x) ∧
    (1 < |x| → elliptic N (modK N rp rs) (epsilon rp) x < (10 : ℝ) ^ (-rp / 10)) ∧
    (modK N rp rs * |x| < 1 → (10 : ℝ) ^ (-rs / 10) < elliptic N (modK N rp rs) (epsilon rp) x) ∧
    (1 ≤ modK N rp rs * |x| → elliptic N (modK N rp rs) (epsilon rp) x ≤ (10 : ℝ) ^ (-rs / 10)) ∧
    0 ≤ elliptic N (modK N rp rs) (epsilon rp) x ∧ elliptic N (modK N rp rs) (epsilon rp) x ≤ 1 := by
  have h := elliptic_cmp (modK_mod hN hp hps) hN (epsilon_pos hp).1 x
  have h1 := (epsilon_pos hp).1
  have h2 := epsilon_pos (hp.trans hps)
  rw [modK_modulus hN hp hps, show epsilon rp / (epsilon rp / epsilon rs) = epsilon rs by
    have := h2.1; field_simp, h2.2, (epsilon_pos hp).2, ← ten_neg, ← ten_neg] at h
  exact h

theorem proto_gain_even (hN : 1 ≤ N) (h2 : N % 2 = 0) {rp rs : ℝ} (hp : 0 < rp) (hps : rp < rs) :
    (proto N rp rs).gain ^ 2 = (10 : ℝ) ^ (-rs / 10) := by
  obtain ⟨f1, f2, f3, f4⟩ := v0_facts hN hp hps
  have hk := modK_mod hN hp hps
  obtain ⟨s1, s2, s3, s4, g, g0, g1, g2⟩ := assemble_shape (ε := epsilon rp) hk hN f1 f2
  have he := (epsilon_pos hp).1
  have hes := (epsilon_pos (hp.trans hps)).1
  obtain ⟨c, hc, hcc, hG⟩ := respG_factor hk hN he f1 f2 f3 f4
  obtain ⟨Z, hZ, hZZ, hz⟩ := nrm_zeros hk hN
  have hp0 := nrm_poles hk hN s3 s4 0
  have hz0 := hz _ s1 s2 0
  have hG0 := hG 0
  have hA := amp_pos hk hN
  have hQ0 : (denQ (modK N rp rs) N).eval 0 = 1 := by rw [denQ_eval]; simp
  have hP0 := numP_at_zero hk hN
  rw [if_pos h2] at hP0
  have hR0 : (respG (modK N rp rs) N (epsilon rp)).eval 0 = amp (modK N rp rs) N ^ 2 * (1 + epsilon rp ^ 2) := by
    rw [respG]
    simp only [Polynomial.eval_add, Polynomial.eval_mul, Polynomial.eval_C, Polynomial.eval_pow, hQ0, hP0]
    ring
  have hm := modK_modulus hN hp hps
  have hcoef : c = (epsilon rp / epsilon rs) ^ 2 + epsilon rp ^ 2 := by
    rw [hcc, respG_coeff, ← hm, modulus, mul_pow, hP0]
    ring
  have hZv : Z = (modK N rp rs) ^ (2 * N) * amp (modK N rp rs) N ^ 2 := by
    have hf := prod_fold (fun j => (modK N rp rs * zero (modK N rp rs) N j) ^ 2) N
    rw [if_neg (by omega), one_mul] at hf
    rw [hZZ]
    have e1 : ∏ i ∈ Finset.range (N / 2), (modK N rp rs * zero (modK N rp rs) N (N - 1 - i)) ^ 4 =
        ∏ i ∈ Finset.range (N / 2), ((modK N rp rs * zero (modK N rp rs) N i) ^ 2 *
          (modK N rp rs * zero (modK N rp rs) N (N - 1 - i)) ^ 2) := by
      apply Finset.prod_congr rfl
      intro i hi
      rw [Finset.mem_range] at hi
      rw [zero_reflect hk hN (show i < N by omega)]
      ring
    rw [e1, ← hf, ← hP0, numP_eval, ← Finset.prod_pow]
    have e2 : modK N rp rs ^ (2 * N) = ∏ j ∈ Finset.range N, modK N rp rs ^ 2 := by simp [pow_mul]
    rw [e2, ← Finset.prod_mul_distrib]
    exact Finset.prod_congr rfl fun j _ => by ring
  rw [hR0] at hG0
  rw [hQ0] at hz0
  have hgain : (proto N rp rs).gain ^ 2 = g ^ 2 / (1 + epsilon rp ^ 2) := by
    unfold proto
    rw [g1, if_pos h2, div_pow, Real.sq_sqrt (by positivity)]
  have hp1 : nrm (poles (assemble exact N (epsilon rp) (modK N rp rs) (K (modK N rp rs ^ 2)) (v0 N rp rs))) 0 =
      amp (modK N rp rs) N ^ 2 * (1 + epsilon rp ^ 2) / c := by
    rw [hp0]
    field_simp
    linarith
  have hz1 : nrm (zeros (assemble exact N (epsilon rp) (modK N rp rs) (K (modK N rp rs ^ 2)) (v0 N rp rs))) 0 = 1 / Z := by
    field_simp
    linarith
  rw [hgain, g2, hp1, hz1, ten_neg, ← (epsilon_pos (hp.trans hps)).2]
  have hmm : Z * amp (modK N rp rs) N ^ 2 = (epsilon rp / epsilon rs) ^ 2 := by
    rw [hZv, ← hm, modulus]; ring
  have : amp (modK N rp rs) N ^ 2 * (1 + epsilon rp ^ 2) / c / (1 / Z) / (1 + epsilon rp ^ 2) =
      Z * amp (modK N rp rs) N ^ 2 / c := by field_simp
  rw [this, hmm, hcoef]
  field_simp

end Verif.EllipticDesign
