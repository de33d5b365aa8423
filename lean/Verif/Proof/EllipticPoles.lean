import Verif.Proof.EllipticDegree

/-! # The poles of the elliptic response -/

namespace Verif.Elliptic
open Verif.Elliptic.Spec Polynomial

variable {k : ℝ} {N : ℕ}

/-- The poles, turned by `i`. -/
noncomputable def rootW (k : ℝ) (N : ℕ) (V : ℝ) (j : ℕ) : ℂ := Sn (vert (zarg k N j) V) (k ^ 2)

theorem rootW_im_pos (h : Mod k) (hN : 1 ≤ N) {V : ℝ} (h0 : 0 < V) (hV : V < K (1 - k ^ 2)) {j : ℕ} (hj : j < N) :
    0 < (rootW k N V j).im := Sn_im_pos h.par (zarg_lt h hN hj) h0 hV

theorem resp_mono {m s1 c1 a b : ℝ} (hk1 : 0 < m) (hk2 : m < 1) (hs1 : 0 < s1) (hc1 : 0 < c1) (ha : 0 ≤ a) (hab : a < b)
    (hb : b < 1) : (1 - b) * (1 - m * b) * (c1 ^ 2 + m * a * s1 ^ 2) ^ 2 <
      (1 - a) * (1 - m * a) * (c1 ^ 2 + m * b * s1 ^ 2) ^ 2 := by
  have hs2 : 0 < s1 ^ 2 := by positivity
  have hc2 : 0 < c1 ^ 2 := by positivity
  have hmab : m * a < m * b := mul_lt_mul_of_pos_left hab hk1
  have hmb : m * b < 1 := by nlinarith
  have x1 : (1 - b) * (1 - m * b) < (1 - a) * (1 - m * a) :=
    mul_lt_mul'' (by linarith) (by linarith) (by linarith) (by linarith)
  have x2 : (c1 ^ 2 + m * a * s1 ^ 2) ^ 2 < (c1 ^ 2 + m * b * s1 ^ 2) ^ 2 := by
    apply pow_lt_pow_left₀ _ (by positivity) two_ne_zero
    have := mul_lt_mul_of_pos_right hmab hs2
    linarith
  have x3 : 0 < (1 - b) * (1 - m * b) := mul_pos (by linarith) (by linarith)
  exact mul_lt_mul'' x1 x2 x3.le (by positivity)

theorem rootW_inj (h : Mod k) (hN : 1 ≤ N) {V : ℝ} (h0 : 0 < V) (hV : V < K (1 - k ^ 2)) {i j : ℕ} (hi : i < N)
    (hj : j < N) (hij : i ≠ j) : rootW k N V i ≠ rootW k N V j := by
  intro he
  have hz := zero_inj h hN hi hj hij
  have hp := h.par
  have hre : sn (zarg k N i) (k ^ 2) * dn V (1 - k ^ 2) / denom (vert (zarg k N i) V) (k ^ 2) =
    sn (zarg k N j) (k ^ 2) * dn V (1 - k ^ 2) / denom (vert (zarg k N j) V) (k ^ 2) := congrArg Complex.re he
  have him : pn (zarg k N i) (k ^ 2) * sn V (1 - k ^ 2) * cn V (1 - k ^ 2) / denom (vert (zarg k N i) V) (k ^ 2) =
    pn (zarg k N j) (k ^ 2) * sn V (1 - k ^ 2) * cn V (1 - k ^ 2) / denom (vert (zarg k N j) V) (k ^ 2) :=
    congrArg Complex.im he
  have hVa : |V| < K (1 - k ^ 2) := by rwa [abs_of_pos h0]
  have hdi := denom_pos hp (x := zarg k N i) hVa
  have hdj := denom_pos hp (x := zarg k N j) hVa
  have hs1 : 0 < sn V (1 - k ^ 2) := sn_pos hp.compl h0 (by linarith [K_pos hp.compl])
  have hc1 : 0 < cn V (1 - k ^ 2) := cn_pos hp.compl hVa
  have hd1 : 0 < dn V (1 - k ^ 2) := dn_pos hp.compl V
  have ei : denom (vert (zarg k N i) V) (k ^ 2) = cn V (1 - k ^ 2) ^ 2 + k ^ 2 * zero k N i ^ 2 * sn V (1 - k ^ 2) ^ 2 := rfl
  have ej : denom (vert (zarg k N j) V) (k ^ 2) = cn V (1 - k ^ 2) ^ 2 + k ^ 2 * zero k N j ^ 2 * sn V (1 - k ^ 2) ^ 2 := rfl
  rw [ei] at hre him hdi
  rw [ej] at hre him hdj
  have qi := pn_sq hp (zarg k N i)
  have qj := pn_sq hp (zarg k N j)
  change pn (zarg k N i) (k ^ 2) ^ 2 = (1 - zero k N i ^ 2) * (1 - k ^ 2 * zero k N i ^ 2) at qi
  change pn (zarg k N j) (k ^ 2) ^ 2 = (1 - zero k N j ^ 2) * (1 - k ^ 2 * zero k N j ^ 2) at qj
  change zero k N i * _ / _ = zero k N j * _ / _ at hre
  have zi : zero k N i ^ 2 < 1 := by
    have := zero_lt h hN hi; rw [← sq_abs]; nlinarith [abs_nonneg (zero k N i)]
  have zj : zero k N j ^ 2 < 1 := by
    have := zero_lt h hN hj; rw [← sq_abs]; nlinarith [abs_nonneg (zero k N j)]
  generalize zero k N i = s at *
  generalize zero k N j = t at *
  generalize pn (zarg k N i) (k ^ 2) = p at *
  generalize pn (zarg k N j) (k ^ 2) = q at *
  generalize sn V (1 - k ^ 2) = s1 at *
  generalize cn V (1 - k ^ 2) = c1 at *
  generalize dn V (1 - k ^ 2) = d1 at *
  have hk1 := hp.1
  have hk2 := hp.2
  generalize k ^ 2 = m at *
  have h1 : p * (c1 ^ 2 + m * t ^ 2 * s1 ^ 2) = q * (c1 ^ 2 + m * s ^ 2 * s1 ^ 2) := by
    field_simp at him
    linarith
  have h2 : (1 - s ^ 2) * (1 - m * s ^ 2) * (c1 ^ 2 + m * t ^ 2 * s1 ^ 2) ^ 2 =
      (1 - t ^ 2) * (1 - m * t ^ 2) * (c1 ^ 2 + m * s ^ 2 * s1 ^ 2) ^ 2 := by
    rw [← qi, ← qj, ← mul_pow, h1, mul_pow]
  have mono := fun a b => resp_mono (a := a) (b := b) hk1 hk2 hs1 hc1
  have hst : s ^ 2 = t ^ 2 := by
    rcases lt_trichotomy (s ^ 2) (t ^ 2) with hl | hl | hl
    · have := mono _ _ (sq_nonneg s) hl zj
      linarith
    · exact hl
    · have := mono _ _ (sq_nonneg t) hl zi
      linarith
  rw [hst] at hre
  apply hz
  field_simp at hre
  exact hre

/-- `A² Q² + ε² P²`: zero where the response is infinite. -/
noncomputable def respG (k : ℝ) (N : ℕ) (ε : ℝ) : ℝ[X] := C (amp k N ^ 2) * denQ k N ^ 2 + C (ε ^ 2) * numP k N ^ 2

theorem respG_root (h : Mod k) (hN : 1 ≤ N) {V ε : ℝ} (h0 : 0 < V) (hV : V < K (1 - k ^ 2))
    (hv1 : mult k N h hN * V < K (1 - modulus k N ^ 2))
    (he : ε * sn (mult k N h hN * V) (1 - modulus k N ^ 2) = cn (mult k N h hN * V) (1 - modulus k N ^ 2))
    {j : ℕ} (hj : j < N) : aeval (rootW k N V j) (respG k N ε) = 0 := by
  have hm := mult_pos h hN
  have hpar := (modulus_mod h hN).par
  have hs : 0 < sn (mult k N h hN * V) (1 - modulus k N ^ 2) :=
    sn_pos hpar.compl (mul_pos hm h0) (by linarith [K_pos hpar.compl])
  have e := imag_path h hN hj h0.le hV hv1
  rw [← he] at e
  have hs' : (sn (mult k N h hN * V) (1 - modulus k N ^ 2) : ℂ) ≠ 0 := by exact_mod_cast hs.ne'
  have e2 : (ε : ℂ) * aeval (rootW k N V j) (numP k N) = sgn k N h hN j * Complex.I * (amp k N *
      aeval (rootW k N V j) (denQ k N)) := by
    apply mul_right_cancel₀ hs'
    unfold rootW
    push_cast at e
    linear_combination e
  have hsg : (sgn k N h hN j : ℂ) ^ 2 = 1 := by exact_mod_cast sgn_sq h hN hj
  rw [respG]
  simp only [map_add, map_mul, map_pow, aeval_C]
  simp only [Complex.coe_algebraMap]
  have e3 := congrArg (· ^ 2) e2
  simp only [mul_pow, hsg, Complex.I_sq] at e3
  linear_combination e3

theorem respG_natDegree {ε : ℝ} : (respG k N ε).natDegree ≤ 2 * N := by
  unfold respG
  refine (natDegree_add_le _ _).trans (max_le ?_ ?_)
  · refine (natDegree_C_mul_le _ _).trans (natDegree_pow_le.trans ?_)
    exact Nat.mul_le_mul_left 2 denQ_natDegree
  · refine (natDegree_C_mul_le _ _).trans (natDegree_pow_le.trans ?_)
    rw [numP_natDegree]

theorem respG_coeff_pos {ε : ℝ} (he : 0 < ε) : 0 < (respG k N ε).coeff (2 * N) := by
  unfold respG
  rw [coeff_add, coeff_C_mul, coeff_C_mul]
  have h1 : (numP k N ^ 2).coeff (2 * N) = 1 := by
    have := (numP_monic (k := k) (N := N)).pow 2
    rw [Monic, leadingCoeff, Monic.natDegree_pow numP_monic, numP_natDegree] at this
    exact this
  have h2 : (denQ k N ^ 2).coeff (2 * N) = (denQ k N).coeff N ^ 2 :=
    coeff_pow_of_natDegree_le denQ_natDegree
  rw [h1, h2]
  have : 0 < ε ^ 2 := by positivity
  nlinarith [mul_nonneg (sq_nonneg (amp k N)) (sq_nonneg ((denQ k N).coeff N))]

theorem respG_coeff {ε : ℝ} : (respG k N ε).coeff (2 * N) = amp k N ^ 2 * (k ^ N * (numP k N).eval 0) ^ 2 + ε ^ 2 := by
  unfold respG
  rw [coeff_add, coeff_C_mul, coeff_C_mul]
  have h1 : (numP k N ^ 2).coeff (2 * N) = 1 := by
    have := (numP_monic (k := k) (N := N)).pow 2
    rw [Monic, leadingCoeff, Monic.natDegree_pow numP_monic, numP_natDegree] at this
    exact this
  have h2 : (denQ k N ^ 2).coeff (2 * N) = (denQ k N).coeff N ^ 2 :=
    coeff_pow_of_natDegree_le denQ_natDegree
  have h3 : (denQ k N).coeff N = k ^ N * (numP k N).eval 0 := by
    have := coeff_prod_of_natDegree_le (Finset.range N) (fun j => (1 - C (k * zero k N j) * X : ℝ[X])) 1 (by
      intro j _
      refine (natDegree_sub_le _ _).trans (max_le (by simp) ((natDegree_C_mul_le _ _).trans (by simp))))
    rw [Finset.card_range, mul_one] at this
    rw [denQ, this, numP_eval]
    have e : k ^ N = ∏ j ∈ Finset.range N, k := by simp
    rw [e, ← Finset.prod_mul_distrib]
    apply Finset.prod_congr rfl
    intro j _
    rw [coeff_sub, coeff_C_mul, coeff_X_one, coeff_one, if_neg (by norm_num)]
    ring
  rw [h1, h2, h3]
  ring

theorem coprime_subC {a b : ℂ} (hab : a ≠ b) : IsCoprime (X - C a : ℂ[X]) (X - C b) :=
  isCoprime_X_sub_C_of_isUnit_sub (sub_ne_zero.2 hab).isUnit

/-- The response in factored form. -/
theorem respG_factor (h : Mod k) (hN : 1 ≤ N) {V ε : ℝ} (he0 : 0 < ε) (h0 : 0 < V) (hV : V < K (1 - k ^ 2))
    (hv1 : mult k N h hN * V < K (1 - modulus k N ^ 2))
    (he : ε * sn (mult k N h hN * V) (1 - modulus k N ^ 2) = cn (mult k N h hN * V) (1 - modulus k N ^ 2)) :
    ∃ c : ℝ, 0 < c ∧ c = (respG k N ε).coeff (2 * N) ∧
      ∀ x : ℝ, (respG k N ε).eval x = c * ∏ j ∈ Finset.range N, ‖(x : ℂ) - rootW k N V j‖ ^ 2 := by
  set p : ℂ[X] := (respG k N ε).map (algebraMap ℝ ℂ) with hp
  have hroot : ∀ j < N, p.eval (rootW k N V j) = 0 := by
    intro j hj
    rw [hp, eval_map_algebraMap]
    exact respG_root h hN h0 hV hv1 he hj
  have hroot' : ∀ j < N, p.eval ((starRingEnd ℂ) (rootW k N V j)) = 0 := by
    intro j hj
    have := respG_root h hN h0 hV hv1 he hj
    rw [hp, eval_map_algebraMap]
    rw [aeval_conj, this, map_zero]
  set w : ℕ → ℂ := fun j => if j < N then rootW k N V j else (starRingEnd ℂ) (rootW k N V (j - N)) with hw
  have hwim : ∀ j, j < N → 0 < (w j).im := fun j hj => by
    simp only [hw, if_pos hj]
    exact rootW_im_pos h hN h0 hV hj
  have hwim' : ∀ j, j < 2 * N → N ≤ j → (w j).im < 0 := fun j hj hj' => by
    simp only [hw, if_neg (not_lt.2 hj'), Complex.conj_im]
    have := rootW_im_pos h hN h0 hV (show j - N < N by omega)
    linarith
  have hdvd : ∏ j ∈ Finset.range (2 * N), (X - C (w j)) ∣ p := by
    apply Finset.prod_dvd_of_coprime
    · intro i hi j hj hij
      simp only [Finset.coe_range, Set.mem_Iio] at hi hj
      apply coprime_subC
      by_cases h1 : i < N <;> by_cases h2 : j < N
      · simp only [hw, if_pos h1, if_pos h2]
        exact rootW_inj h hN h0 hV h1 h2 hij
      · intro e
        have a := hwim i h1
        have b := hwim' j hj (not_lt.1 h2)
        rw [e] at a
        linarith
      · intro e
        have a := hwim j h2
        have b := hwim' i hi (not_lt.1 h1)
        rw [e] at b
        linarith
      · simp only [hw, if_neg h1, if_neg h2]
        intro e
        exact rootW_inj h hN h0 hV (show i - N < N by omega) (show j - N < N by omega) (by omega)
          ((starRingEnd ℂ).injective e)
    · intro j hj
      rw [dvd_iff_isRoot, IsRoot]
      have hj := Finset.mem_range.1 hj
      by_cases h1 : j < N
      · simp only [hw, if_pos h1]
        exact hroot j h1
      · simp only [hw, if_neg h1]
        exact hroot' _ (by omega)
  obtain ⟨q, hq⟩ := hdvd
  have hmon : (∏ j ∈ Finset.range (2 * N), (X - C (w j))).Monic := monic_prod_of_monic _ _ fun j _ => monic_X_sub_C _
  have hdeg : (∏ j ∈ Finset.range (2 * N), (X - C (w j))).natDegree = 2 * N := by
    rw [natDegree_prod_of_monic _ _ fun j _ => monic_X_sub_C _]
    simp
  have hpn : p.natDegree ≤ 2 * N := (natDegree_map_le).trans respG_natDegree
  have hc := respG_coeff_pos (k := k) (N := N) he0
  have hp0 : p ≠ 0 := by
    intro h0
    have : p.coeff (2 * N) = 0 := by rw [h0, coeff_zero]
    rw [hp, coeff_map] at this
    simp at this
    linarith
  have hq0 : q ≠ 0 := by rintro rfl; simp at hq; exact hp0 hq
  have hqd : q.natDegree = 0 := by
    have := hmon.natDegree_mul' hq0
    rw [← hq, hdeg] at this
    omega
  obtain ⟨b, rfl⟩ := natDegree_eq_zero.1 hqd
  have hb : b = ((respG k N ε).coeff (2 * N) : ℂ) := by
    have h1 : p.coeff (2 * N) = ((respG k N ε).coeff (2 * N) : ℂ) := by rw [hp, coeff_map]; rfl
    rw [← h1, hq, coeff_mul_C]
    have : (∏ j ∈ Finset.range (2 * N), (X - C (w j))).coeff (2 * N) = 1 := by
      have := hmon
      rw [Monic, leadingCoeff, hdeg] at this
      exact this
    rw [this, one_mul]
  refine ⟨_, hc, rfl, fun x => ?_⟩
  have e : (((respG k N ε).eval x : ℝ) : ℂ) = p.eval (x : ℂ) := by
    rw [hp, eval_map_algebraMap, aeval_ofReal]
  have e2 : p.eval (x : ℂ) = (∏ j ∈ Finset.range N, ((x : ℂ) - rootW k N V j)) *
      (∏ j ∈ Finset.range N, ((x : ℂ) - (starRingEnd ℂ) (rootW k N V j))) * b := by
    rw [hq, eval_mul, eval_C, eval_prod, two_mul, Finset.prod_range_add]
    congr 2
    · apply Finset.prod_congr rfl
      intro j hj
      simp only [eval_sub, eval_X, eval_C, hw, if_pos (Finset.mem_range.1 hj)]
    · apply Finset.prod_congr rfl
      intro j hj
      simp only [eval_sub, eval_X, eval_C, hw, if_neg (show ¬ N + j < N by omega), Nat.add_sub_cancel_left]
  have e3 : (∏ j ∈ Finset.range N, ((x : ℂ) - rootW k N V j)) *
      (∏ j ∈ Finset.range N, ((x : ℂ) - (starRingEnd ℂ) (rootW k N V j))) =
      ((∏ j ∈ Finset.range N, ‖(x : ℂ) - rootW k N V j‖ ^ 2 : ℝ) : ℂ) := by
    rw [← Finset.prod_mul_distrib, Complex.ofReal_prod]
    apply Finset.prod_congr rfl
    intro j _
    rw [← Complex.conj_ofReal x, ← map_sub, Complex.conj_ofReal, Complex.mul_conj, Complex.normSq_eq_norm_sq]
  have : (((respG k N ε).eval x : ℝ) : ℂ) =
      (((respG k N ε).coeff (2 * N) * ∏ j ∈ Finset.range N, ‖(x : ℂ) - rootW k N V j‖ ^ 2 : ℝ) : ℂ) := by
    rw [e, e2, e3, hb]
    push_cast
    ring
  exact_mod_cast this

end Verif.Elliptic
