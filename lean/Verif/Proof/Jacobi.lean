import Verif.Spec.Jacobi
import Verif.Proof.Elliptic
import Mathlib.Analysis.SpecialFunctions.Trigonometric.Deriv

/-! # Jacobi's elliptic functions of a real variable: derivatives, symmetries, addition theorem -/

namespace Verif.Elliptic
open Verif.Elliptic.Spec

/-- The parameters considered. -/
def Par (m : ℝ) : Prop := 0 < m ∧ m < 1

theorem Par.compl {m : ℝ} (h : Par m) : Par (1 - m) := ⟨by linarith [h.2], by linarith [h.1]⟩

variable {m : ℝ}

theorem F_continuous (h : Par m) : Continuous fun φ => F φ m :=
  continuous_iff_continuousAt.2 fun φ => (F_deriv h.1.le h.2 φ).continuousAt

theorem F_surjective (h : Par m) : Function.Surjective fun φ => F φ m := by
  apply (F_continuous h).surjective
  · refine Filter.tendsto_atTop_mono' _ ?_ Filter.tendsto_id
    filter_upwards [Filter.eventually_ge_atTop 0] with φ hφ
    exact (F_small h.1.le h.2 hφ).1
  · refine Filter.tendsto_atBot_mono' _ ?_ Filter.tendsto_id
    filter_upwards [Filter.eventually_le_atBot 0] with φ hφ
    have := (F_small h.1.le h.2 (φ := -φ) (by linarith)).1
    rw [F_neg] at this
    simp only [id]
    linarith

theorem F_am (h : Par m) (u : ℝ) : F (am u m) m = u := Function.rightInverse_invFun (F_surjective h) u

theorem am_F (h : Par m) (φ : ℝ) : am (F φ m) m = φ :=
  Function.leftInverse_invFun (F_strictMono h.1.le h.2).injective φ

theorem am_strictMono (h : Par m) : StrictMono fun u => am u m := by
  intro u v huv
  by_contra hc
  have := (F_strictMono h.1.le h.2).monotone (not_lt.1 hc)
  simp only [F_am h] at this
  linarith

theorem am_continuous (h : Par m) : Continuous fun u => am u m :=
  (am_strictMono h).monotone.continuous_of_surjective fun φ => ⟨F φ m, am_F h φ⟩

theorem sn_sq_le (u m : ℝ) : sn u m ^ 2 ≤ 1 := Real.sin_sq_le_one _

theorem dn_arg_pos (h : Par m) (u : ℝ) : 0 < 1 - m * sn u m ^ 2 := integrand_pos h.1.le h.2 _

theorem dn_pos (h : Par m) (u : ℝ) : 0 < dn u m := Real.sqrt_pos.2 (dn_arg_pos h u)

theorem dn_sq (h : Par m) (u : ℝ) : dn u m ^ 2 = 1 - m * sn u m ^ 2 := Real.sq_sqrt (dn_arg_pos h u).le

theorem cn_sq (u m : ℝ) : cn u m ^ 2 = 1 - sn u m ^ 2 := Real.cos_sq' _

theorem am_deriv (h : Par m) (u : ℝ) : HasDerivAt (fun u => am u m) (dn u m) u := by
  have hd := F_deriv h.1.le h.2 (am u m)
  have h2 : HasDerivAt (fun u => am u m) (1 / √(1 - m * Real.sin (am u m) ^ 2))⁻¹ u :=
    hd.of_local_left_inverse (am_continuous h).continuousAt
      (by have := dn_pos h u; rw [dn, sn] at this; positivity) (Filter.Eventually.of_forall fun v => F_am h v)
  convert h2 using 1
  rw [dn, sn, one_div, inv_inv]

theorem sn_deriv (h : Par m) (u : ℝ) : HasDerivAt (fun u => sn u m) (cn u m * dn u m) u := by
  have := (Real.hasDerivAt_sin (am u m)).comp u (am_deriv h u)
  exact this

theorem cn_deriv (h : Par m) (u : ℝ) : HasDerivAt (fun u => cn u m) (-(sn u m * dn u m)) u := by
  have := (Real.hasDerivAt_cos (am u m)).comp u (am_deriv h u)
  rw [neg_mul] at this
  exact this

theorem dn_deriv (h : Par m) (u : ℝ) : HasDerivAt (fun u => dn u m) (-(m * sn u m * cn u m)) u := by
  have h1 : HasDerivAt (fun u => 1 - m * sn u m ^ 2) (-(m * (2 * sn u m * (cn u m * dn u m)))) u := by
    have := (((sn_deriv h u).pow 2).const_mul m).const_sub 1
    simpa using this
  have h2 := h1.sqrt (dn_arg_pos h u).ne'
  refine HasDerivAt.congr_deriv h2 ?_
  have := dn_pos h u
  have he : √(1 - m * sn u m ^ 2) = dn u m := rfl
  rw [he]
  field_simp

theorem sn_continuous (h : Par m) : Continuous fun u => sn u m :=
  continuous_iff_continuousAt.2 fun u => (sn_deriv h u).continuousAt

theorem cn_continuous (h : Par m) : Continuous fun u => cn u m :=
  continuous_iff_continuousAt.2 fun u => (cn_deriv h u).continuousAt

theorem dn_continuous (h : Par m) : Continuous fun u => dn u m :=
  continuous_iff_continuousAt.2 fun u => (dn_deriv h u).continuousAt

/-! ### Symmetries -/

theorem am_neg (h : Par m) (u : ℝ) : am (-u) m = -am u m := by
  apply (F_strictMono h.1.le h.2).injective
  simp only [F_am h, F_neg]

theorem am_zero (h : Par m) : am 0 m = 0 := by
  have := am_F h 0
  rwa [F_zero] at this

theorem am_K (h : Par m) : am (K m) m = Real.pi / 2 := am_F h _

theorem K_pos (h : Par m) : 0 < K m := by
  have := F_strictMono h.1.le h.2 (show (0 : ℝ) < Real.pi / 2 by have := Real.pi_pos; positivity)
  simp only [F_zero] at this
  exact this

theorem F_add_pi (h : Par m) (φ : ℝ) : F (φ + Real.pi) m = F φ m + 2 * K m := by
  have hd : ∀ φ, HasDerivAt (fun φ => F (φ + Real.pi) m - F φ m) 0 φ := by
    intro φ
    have h1 := (F_deriv h.1.le h.2 (φ + Real.pi)).comp_add_const φ Real.pi
    have := h1.sub (F_deriv h.1.le h.2 φ)
    rw [Real.sin_add_pi, neg_sq, sub_self] at this
    exact this
  have hc := is_const_of_deriv_eq_zero (fun φ => (hd φ).differentiableAt) (fun φ => (hd φ).deriv) φ (-(Real.pi / 2))
  simp only [F_neg] at hc
  rw [show -(Real.pi / 2) + Real.pi = Real.pi / 2 by ring, ← K] at hc
  linarith

theorem am_add_two_K (h : Par m) (u : ℝ) : am (u + 2 * K m) m = am u m + Real.pi := by
  apply (F_strictMono h.1.le h.2).injective
  simp only [F_am h, F_add_pi h]

theorem sn_neg (h : Par m) (u : ℝ) : sn (-u) m = -sn u m := by rw [sn, am_neg h, Real.sin_neg, sn]
theorem cn_neg (h : Par m) (u : ℝ) : cn (-u) m = cn u m := by rw [cn, am_neg h, Real.cos_neg, cn]
theorem dn_neg (h : Par m) (u : ℝ) : dn (-u) m = dn u m := by rw [dn, sn_neg h, neg_sq, dn]
theorem sn_zero (h : Par m) : sn 0 m = 0 := by rw [sn, am_zero h, Real.sin_zero]
theorem cn_zero (h : Par m) : cn 0 m = 1 := by rw [cn, am_zero h, Real.cos_zero]
theorem dn_zero (h : Par m) : dn 0 m = 1 := by rw [dn, sn_zero h]; norm_num
theorem sn_K (h : Par m) : sn (K m) m = 1 := by rw [sn, am_K h, Real.sin_pi_div_two]
theorem cn_K (h : Par m) : cn (K m) m = 0 := by rw [cn, am_K h, Real.cos_pi_div_two]
theorem sn_add_two_K (h : Par m) (u : ℝ) : sn (u + 2 * K m) m = -sn u m := by
  rw [sn, am_add_two_K h, Real.sin_add_pi, sn]

theorem sn_two_K_sub (h : Par m) (u : ℝ) : sn (2 * K m - u) m = sn u m := by
  rw [show 2 * K m - u = -u + 2 * K m by ring, sn_add_two_K h, sn_neg h, neg_neg]

theorem am_lt (h : Par m) {u : ℝ} (hu : u < K m) : am u m < Real.pi / 2 := by
  rw [← am_K h]; exact am_strictMono h hu

theorem cn_pos (h : Par m) {u : ℝ} (hu : |u| < K m) : 0 < cn u m := by
  obtain ⟨h1, h2⟩ := abs_lt.1 hu
  refine Real.cos_pos_of_mem_Ioo ⟨?_, am_lt h h2⟩
  have := am_lt h (u := -u) (by linarith)
  rw [am_neg h] at this
  linarith

theorem sn_pos (h : Par m) {u : ℝ} (h0 : 0 < u) (hu : u < 2 * K m) : 0 < sn u m := by
  refine Real.sin_pos_of_pos_of_lt_pi ?_ ?_
  · rw [← am_zero h]; exact am_strictMono h h0
  · have := am_strictMono h hu
    have h2 := am_add_two_K h 0
    rw [zero_add, am_zero h, zero_add] at h2
    simp only at this
    linarith

theorem sn_strictMono (h : Par m) {u v : ℝ} (hu : -K m ≤ u) (huv : u < v) (hv : v ≤ K m) : sn u m < sn v m := by
  have h1 : am (-K m) m = -(Real.pi / 2) := by rw [am_neg h, am_K h]
  refine Real.sin_lt_sin_of_lt_of_le_pi_div_two ?_ ?_ (am_strictMono h huv)
  · rw [← h1]; exact (am_strictMono h).monotone hu
  · rw [← am_K h]; exact (am_strictMono h).monotone hv

/-! ### Addition theorem -/

/-- The derivative of `sn`, a function of its own here. -/
noncomputable def pn (u m : ℝ) : ℝ := cn u m * dn u m

theorem pn_sq (h : Par m) (u : ℝ) : pn u m ^ 2 = (1 - sn u m ^ 2) * (1 - m * sn u m ^ 2) := by
  rw [pn, mul_pow, cn_sq, dn_sq h]

theorem pn_deriv (h : Par m) (u : ℝ) : HasDerivAt (fun u => pn u m) (-(sn u m * (1 + m - 2 * m * sn u m ^ 2))) u := by
  have := (cn_deriv h u).mul (dn_deriv h u)
  refine HasDerivAt.congr_deriv this ?_
  have h1 := cn_sq u m
  have h2 := dn_sq h u
  linear_combination -m * sn u m * h1 - sn u m * h2

theorem sn_denom_pos (h : Par m) (u v : ℝ) : 0 < 1 - m * sn u m ^ 2 * sn v m ^ 2 := by
  have h1 := sn_sq_le u m
  have h2 := sn_sq_le v m
  have h3 : sn u m ^ 2 * sn v m ^ 2 ≤ 1 * 1 := mul_le_mul h1 h2 (sq_nonneg _) zero_le_one
  have := h.1
  have := h.2
  nlinarith

theorem sn_add (h : Par m) (u v : ℝ) :
    sn (u + v) m = (sn u m * pn v m + sn v m * pn u m) / (1 - m * sn u m ^ 2 * sn v m ^ 2) := by
  set a := u + v with ha
  have hd : ∀ t, HasDerivAt (fun t => (sn (a - t) m * pn t m + sn t m * pn (a - t) m) / (1 - m * sn (a - t) m ^ 2 * sn t m ^ 2)) 0 t := by
    intro t
    have x1 : HasDerivAt (fun t => sn (a - t) m) (-pn (a - t) m) t := (sn_deriv h (a - t)).comp_const_sub a t
    have x2 : HasDerivAt (fun t => pn (a - t) m) (sn (a - t) m * (1 + m - 2 * m * sn (a - t) m ^ 2)) t := by
      have := (pn_deriv h (a - t)).comp_const_sub a t
      rwa [neg_neg] at this
    have y1 : HasDerivAt (fun t => sn t m) (pn t m) t := sn_deriv h t
    have y2 := pn_deriv h t
    have hn := (x1.mul y2).add (y1.mul x2)
    have hden := ((((x1.pow 2).const_mul m).mul (y1.pow 2))).const_sub 1
    have hdp := (sn_denom_pos h (a - t) t).ne'
    have hq := hn.div hden hdp
    refine HasDerivAt.congr_deriv hq ?_
    rw [div_eq_zero_iff]
    left
    have px := pn_sq h (a - t)
    have py := pn_sq h t
    simp only [Pi.mul_apply, Pi.pow_apply, Pi.add_apply, Nat.cast_ofNat]
    generalize sn (a - t) m = x at *
    generalize sn t m = y at *
    generalize pn (a - t) m = X at *
    generalize pn t m = Y at *
    linear_combination -2 * m * x * y * y ^ 2 * px + 2 * m * x * y * x ^ 2 * py
  have hc := is_const_of_deriv_eq_zero (fun t => (hd t).differentiableAt) (fun t => (hd t).deriv) v 0
  simp only [sub_zero, sn_zero h, ha, add_sub_cancel_right] at hc
  rw [hc, ha]
  simp [pn, cn_zero h, dn_zero h]

end Verif.Elliptic
