import Verif.Proof.EllipticRational2
import Verif.Proof.JacobiComplex

/-! # The transformation of `sn` by the elliptic rational function, and the degree equation -/

namespace Verif.Elliptic
open Verif.Elliptic.Spec Polynomial

variable {k : ℝ} {N : ℕ}

/-- The value of `Y` at the zero `j`. -/
noncomputable def sgn (k : ℝ) (N : ℕ) (h : Mod k) (hN : 1 ≤ N) (j : ℕ) : ℝ :=
  (wron k N).eval (zero k N j) * pn (zarg k N j) (k ^ 2) /
    (mult k N h hN * amp k N * (denQ k N).eval (zero k N j) ^ 2)

theorem sgn_sq (h : Mod k) (hN : 1 ≤ N) {j : ℕ} (hj : j < N) : sgn k N h hN j ^ 2 = 1 := by
  have h1 := congrArg (eval (zero k N j)) (first_order h hN)
  have h2 := pn_sq h.par (zarg k N j)
  have hz : sn (zarg k N j) (k ^ 2) = zero k N j := rfl
  rw [hz] at h2
  rw [passG, stopG] at h1
  simp only [eval_sub, eval_mul, eval_C, eval_pow, eval_one, eval_X, numP_zero hj] at h1
  have h3 := (denQ_pos h hN (zero_lt h hN hj).le).ne'
  have h4 := (amp_pos h hN).ne'
  have h5 := (mult_pos h hN).ne'
  rw [sgn]
  generalize mult k N h hN = l at *
  rw [div_pow, div_eq_one_iff_eq (by positivity), mul_pow, h2]
  have : amp k N ^ 2 * ((wron k N).eval (zero k N j) ^ 2 * ((1 - zero k N j ^ 2) * (1 - k ^ 2 * zero k N j ^ 2))) =
      amp k N ^ 2 * (l * amp k N * (denQ k N).eval (zero k N j) ^ 2) ^ 2 := by
    linear_combination h1
  exact mul_left_cancel₀ (pow_ne_zero 2 h4) this

theorem aeval_ofReal (p : ℝ[X]) (x : ℝ) : aeval (x : ℂ) p = ((p.eval x : ℝ) : ℂ) := by
  rw [aeval_def]
  exact eval₂_at_apply (algebraMap ℝ ℂ) x

theorem aeval_deriv (p : ℝ[X]) {W : ℝ → ℂ} {w' : ℂ} {t : ℝ} (hW : HasDerivAt W w' t) :
    HasDerivAt (fun t => aeval (W t) p) (aeval (W t) (derivative p) * w') t := by
  have h1 : HasDerivAt (fun z : ℂ => aeval z p) (aeval (W t) (derivative p)) (W t) := p.hasDerivAt_aeval (W t)
  have := h1.scomp t hW
  rw [smul_eq_mul, mul_comm] at this
  exact this

/-- The elliptic rational function. -/
noncomputable def ratio (k : ℝ) (N : ℕ) (z : ℂ) : ℂ := aeval z (numP k N) / (amp k N * aeval z (denQ k N))

theorem transform (h : Mod k) (hN : 1 ≤ N) {j : ℕ} (hj : j < N) {a : ℂ} {T : ℝ} {W S x X : ℝ → ℂ}
    (hW : ∀ t ∈ Set.Icc 0 T, HasDerivAt W (a * S t) t)
    (hS : ∀ t ∈ Set.Icc 0 T, HasDerivAt S (a * -(W t * (1 + (k ^ 2 : ℝ) - 2 * (k ^ 2 : ℝ) * W t ^ 2))) t)
    (hsq : ∀ t ∈ Set.Icc 0 T, S t ^ 2 = (1 - W t ^ 2) * (1 - (k ^ 2 : ℝ) * W t ^ 2))
    (hq : ∀ t ∈ Set.Icc 0 T, aeval (W t) (denQ k N) ≠ 0)
    (hx : ∀ t ∈ Set.Icc 0 T, HasDerivAt x (a * mult k N h hN * X t) t)
    (hX : ∀ t ∈ Set.Icc 0 T, HasDerivAt X
      (a * mult k N h hN * -(x t * (1 + (modulus k N ^ 2 : ℝ) - 2 * (modulus k N ^ 2 : ℝ) * x t ^ 2))) t)
    (hW0 : W 0 = zero k N j) (hS0 : S 0 = pn (zarg k N j) (k ^ 2)) (hx0 : x 0 = 0) (hX0 : X 0 = 1) :
    ∀ t ∈ Set.Icc 0 T, ratio k N (W t) = sgn k N h hN j * x t := by
  have hA : (amp k N : ℂ) ≠ 0 := Complex.ofReal_ne_zero.2 (amp_pos h hN).ne'
  have hl : (mult k N h hN : ℂ) ≠ 0 := Complex.ofReal_ne_zero.2 (mult_pos h hN).ne'
  set σ := sgn k N h hN j with hσ
  have hσ2 : (σ : ℂ) ^ 2 = 1 := by exact_mod_cast sgn_sq h hN hj
  refine sn_unique (𝕜 := ℂ) (a := a * mult k N h hN) (κ := ((modulus k N ^ 2 : ℝ) : ℂ)) (T := T)
    (y := fun t => ratio k N (W t))
    (Y := fun t => aeval (W t) (wron k N) * S t / (mult k N h hN * amp k N * aeval (W t) (denQ k N) ^ 2))
    (x := fun t => σ * x t) (X := fun t => σ * X t) ?_ ?_ ?_ ?_ ?_ ?_
  · intro t ht
    have h1 := (aeval_deriv (numP k N) (hW t ht)).div ((aeval_deriv (denQ k N) (hW t ht)).const_mul (amp k N : ℂ))
      (mul_ne_zero hA (hq t ht))
    refine HasDerivAt.congr_deriv h1 ?_
    have h2 : aeval (W t) (wron k N) = aeval (W t) (derivative (numP k N)) * aeval (W t) (denQ k N) -
        aeval (W t) (numP k N) * aeval (W t) (derivative (denQ k N)) := by
      rw [wron]; simp
    have hq' := hq t ht
    rw [h2]
    field_simp
  · intro t ht
    have h1 := ((aeval_deriv (wron k N) (hW t ht)).mul (hS t ht)).div
      (((aeval_deriv (denQ k N) (hW t ht)).pow 2).const_mul (mult k N h hN * amp k N : ℂ))
      (mul_ne_zero (mul_ne_zero hl hA) (pow_ne_zero 2 (hq t ht)))
    refine HasDerivAt.congr_deriv h1 ?_
    have h2 := congrArg (aeval (W t)) (second_order h hN)
    simp only [map_mul, map_sub, map_add, map_neg, map_pow, aeval_C, aeval_X, map_one, map_ofNat,
      Complex.coe_algebraMap] at h2
    have h3 := hsq t ht
    have hq' := hq t ht
    simp only [Pi.mul_apply, Pi.pow_apply]
    rw [ratio]
    push_cast at *
    generalize aeval (W t) (derivative (wron k N)) = W' at *
    generalize aeval (W t) (derivative (denQ k N)) = Q' at *
    generalize aeval (W t) (wron k N) = V at *
    generalize aeval (W t) (denQ k N) = Q at *
    generalize aeval (W t) (numP k N) = P at *
    generalize (mult k N h hN : ℂ) = l at *
    generalize (amp k N : ℂ) = A at *
    generalize (modulus k N : ℂ) = κ at *
    generalize (k : ℂ) = c at *
    generalize S t = s at *
    generalize W t = w at *
    rw [div_eq_iff (by positivity)]
    field_simp
    linear_combination a * h2 + a * A ^ 2 * (W' * Q - 2 * V * Q') * h3
  · intro t ht
    refine HasDerivAt.congr_deriv ((hx t ht).const_mul (σ : ℂ)) ?_
    ring
  · intro t ht
    refine HasDerivAt.congr_deriv ((hX t ht).const_mul (σ : ℂ)) ?_
    rw [mul_pow, hσ2]
    ring
  · show ratio k N (W 0) = σ * x 0
    rw [hx0, hW0, ratio]
    have : aeval ((zero k N j : ℝ) : ℂ) (numP k N) = (((numP k N).eval (zero k N j) : ℝ) : ℂ) :=
      aeval_ofReal _ _
    rw [this, numP_zero hj]
    simp
  · show aeval (W 0) (wron k N) * S 0 / (mult k N h hN * amp k N * aeval (W 0) (denQ k N) ^ 2) = σ * X 0
    have e : ∀ p : ℝ[X], aeval ((zero k N j : ℝ) : ℂ) p = ((p.eval (zero k N j) : ℝ) : ℂ) := fun p => aeval_ofReal p _
    rw [hX0, hW0, hS0, e, e, hσ, sgn]
    push_cast
    ring

/-! ### The real path -/

theorem ofReal_deriv {f : ℝ → ℝ} {f' t : ℝ} (hf : HasDerivAt f f' t) : HasDerivAt (fun t => (f t : ℂ)) (f' : ℂ) t :=
  hf.ofReal_comp

theorem real_path (h : Mod k) (hN : 1 ≤ N) {j : ℕ} (hj : j < N) {u : ℝ} (hu : 0 ≤ u) :
    (numP k N).eval (sn (zarg k N j + u) (k ^ 2)) = sgn k N h hN j * sn (mult k N h hN * u) (modulus k N ^ 2) *
      (amp k N * (denQ k N).eval (sn (zarg k N j + u) (k ^ 2))) := by
  have hm := (modulus_mod h hN).par
  have hA := (amp_pos h hN).ne'
  have hQ : ∀ u, (denQ k N).eval (sn u (k ^ 2)) ≠ 0 := fun u => (denQ_pos h hN (abs_sn_le _ _)).ne'
  have key := transform h hN hj (a := 1) (T := u) (W := fun u => (sn (zarg k N j + u) (k ^ 2) : ℂ))
    (S := fun u => (pn (zarg k N j + u) (k ^ 2) : ℂ))
    (x := fun u => (sn (mult k N h hN * u) (modulus k N ^ 2) : ℂ))
    (X := fun u => (pn (mult k N h hN * u) (modulus k N ^ 2) : ℂ))
    (fun t _ => by
      rw [one_mul]
      exact ofReal_deriv ((sn_deriv h.par (zarg k N j + t)).comp_const_add (zarg k N j) t))
    (fun t _ => by
      refine HasDerivAt.congr_deriv (ofReal_deriv ((pn_deriv h.par (zarg k N j + t)).comp_const_add (zarg k N j) t)) ?_
      push_cast
      ring)
    (fun t _ => by exact_mod_cast pn_sq h.par (zarg k N j + t))
    (fun t _ => by rw [aeval_ofReal]; exact Complex.ofReal_ne_zero.2 (hQ _))
    (fun t _ => by
      have := (sn_deriv hm (mult k N h hN * t)).comp t ((hasDerivAt_id t).const_mul (mult k N h hN))
      refine HasDerivAt.congr_deriv (ofReal_deriv this) ?_
      rw [pn]
      push_cast
      ring)
    (fun t _ => by
      have := (pn_deriv hm (mult k N h hN * t)).comp t ((hasDerivAt_id t).const_mul (mult k N h hN))
      refine HasDerivAt.congr_deriv (ofReal_deriv this) ?_
      push_cast
      ring)
    (by simp [zero]) (by simp) (by simp [sn_zero hm]) (by simp [pn, cn_zero hm, dn_zero hm]) u ⟨hu, le_rfl⟩
  rw [ratio, aeval_ofReal, aeval_ofReal, div_eq_iff
    (mul_ne_zero (Complex.ofReal_ne_zero.2 hA) (Complex.ofReal_ne_zero.2 (hQ _)))] at key
  exact_mod_cast key

theorem real_path_sq (h : Mod k) (hN : 1 ≤ N) {j : ℕ} (hj : j < N) {u : ℝ} (hu : 0 ≤ u) :
    (passG k N).eval (sn (zarg k N j + u) (k ^ 2)) =
      (amp k N * (denQ k N).eval (sn (zarg k N j + u) (k ^ 2))) ^ 2 *
        (1 - sn (mult k N h hN * u) (modulus k N ^ 2) ^ 2) := by
  have h1 := real_path h hN hj hu
  have h2 := sgn_sq h hN hj
  rw [passG]
  simp only [eval_sub, eval_mul, eval_C, eval_pow]
  rw [h1]
  linear_combination -(sn (mult k N h hN * u) (modulus k N ^ 2) *
    (amp k N * (denQ k N).eval (sn (zarg k N j + u) (k ^ 2)))) ^ 2 * h2

theorem passG_pos (h : Mod k) (hN : 1 ≤ N) {x : ℝ} (h1 : -1 < x) (h2 : x < ext k N (N - 1)) :
    0 < (passG k N).eval x := by
  have hx1 : x < 1 := by
    refine h2.trans_le ?_
    exact sn_le_one _ _
  rw [passG_eval h hN]
  have h3 := lead_pos h hN
  have h4 : 0 < 1 - x ^ 2 := by nlinarith
  have h5 : (extD k N).eval x ≠ 0 := by
    rw [extD_eval]
    refine Finset.prod_ne_zero_iff.2 fun j hj => sub_ne_zero.2 ?_
    rw [Finset.mem_Ico] at hj
    refine (h2.trans_le ?_).ne
    rcases Nat.lt_or_ge j (N - 1) with h6 | h6
    · exact (ext_strictAnti h hN h6 (by omega)).le
    · rw [show j = N - 1 by omega]
  positivity

theorem mult_K (h : Mod k) (hN : 1 ≤ N) : mult k N h hN * (K (k ^ 2) / N) = K (modulus k N ^ 2) := by
  have hm := (modulus_mod h hN).par
  have hl := mult_pos h hN
  have hK := K_pos h.par
  have hK1 := K_pos hm
  have hN0 : (0 : ℝ) < N := by positivity
  have hj : 0 < N := by omega
  have e0 : zarg k N 0 + K (k ^ 2) / N = earg k N (N - 1) := by
    rw [zarg, earg, Nat.cast_sub hN]
    push_cast
    field_simp
    ring
  rcases lt_trichotomy (mult k N h hN * (K (k ^ 2) / N)) (K (modulus k N ^ 2)) with h1 | h1 | h1
  · exfalso
    have h2 := real_path_sq h hN hj (u := K (k ^ 2) / N) (by positivity)
    have h3 := passG_ext h hN (N - 1)
    rw [ext, ← e0, h2] at h3
    have h4 : sn (mult k N h hN * (K (k ^ 2) / N)) (modulus k N ^ 2) < 1 := by
      rw [← sn_K hm]
      exact sn_strictMono hm (by have : 0 < mult k N h hN * (K (k ^ 2) / N) := by positivity
                                 linarith) h1 le_rfl
    have h5 : 0 < sn (mult k N h hN * (K (k ^ 2) / N)) (modulus k N ^ 2) :=
      sn_pos hm (by positivity) (by linarith)
    have h6 : 0 < amp k N * (denQ k N).eval (sn (zarg k N 0 + K (k ^ 2) / N) (k ^ 2)) :=
      mul_pos (amp_pos h hN) (denQ_pos h hN (abs_sn_le _ _))
    have : 0 < (amp k N * (denQ k N).eval (sn (zarg k N 0 + K (k ^ 2) / N) (k ^ 2))) ^ 2 *
        (1 - sn (mult k N h hN * (K (k ^ 2) / N)) (modulus k N ^ 2) ^ 2) :=
      mul_pos (pow_pos h6 2) (by nlinarith)
    linarith
  · exact h1
  · exfalso
    set u := K (modulus k N ^ 2) / mult k N h hN with hu
    have hu0 : 0 < u := by positivity
    have hu1 : mult k N h hN * u = K (modulus k N ^ 2) := by rw [hu]; field_simp
    have hu2 : u < K (k ^ 2) / N := by
      rw [hu, div_lt_iff₀ hl]; linarith
    have h2 := real_path_sq h hN hj hu0.le
    rw [hu1, sn_K hm] at h2
    have h3 : 0 < (passG k N).eval (sn (zarg k N 0 + u) (k ^ 2)) := by
      have hz : -K (k ^ 2) < zarg k N 0 := by
        rw [zarg, lt_div_iff₀ hN0]
        push_cast
        nlinarith
      have hz2 : earg k N (N - 1) ≤ K (k ^ 2) := by
        rw [earg, div_le_iff₀ hN0]
        have : (0 : ℝ) ≤ ((N - 1 : ℕ) : ℝ) := by positivity
        nlinarith
      refine passG_pos h hN ?_ ?_
      · rw [← sn_K h.par, ← sn_neg h.par]
        exact sn_strictMono h.par le_rfl (by linarith) (by linarith)
      · exact sn_strictMono h.par (by linarith) (by linarith) hz2
    rw [h2] at h3
    norm_num at h3

end Verif.Elliptic
