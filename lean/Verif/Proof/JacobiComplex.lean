import Verif.Proof.Jacobi
import Mathlib.Analysis.Complex.RealDeriv
import Mathlib.Analysis.ODE.ExistUnique
import Mathlib.Analysis.RCLike.Basic

/-! # Jacobi's elliptic functions on vertical lines; a uniqueness theorem for their differential equation -/

namespace Verif.Elliptic
open Verif.Elliptic.Spec Complex

variable {m : ℝ}

/-- `sn`, `cn` and `dn` of an imaginary number. -/
noncomputable def isn (v m : ℝ) : ℂ := I * sn v (1 - m) / cn v (1 - m)
noncomputable def icn (v m : ℝ) : ℂ := 1 / cn v (1 - m)
noncomputable def idn (v m : ℝ) : ℂ := dn v (1 - m) / cn v (1 - m)

theorem cn_ne (h : Par m) {v : ℝ} (hv : |v| < K (1 - m)) : (cn v (1 - m) : ℂ) ≠ 0 :=
  ofReal_ne_zero.2 (cn_pos h.compl hv).ne'

theorem ccn_sq (v m : ℝ) : (cn v m : ℂ) ^ 2 = 1 - (sn v m : ℂ) ^ 2 := by exact_mod_cast cn_sq v m

theorem cdn_sq (h : Par m) (v : ℝ) : (dn v m : ℂ) ^ 2 = 1 - m * (sn v m : ℂ) ^ 2 := by exact_mod_cast dn_sq h v

theorem icn_sq (h : Par m) {v : ℝ} (hv : |v| < K (1 - m)) : icn v m ^ 2 = 1 - isn v m ^ 2 := by
  have h1 := cn_ne h hv
  have h2 := ccn_sq v (1 - m)
  rw [icn, isn]
  field_simp
  rw [I_sq]
  linear_combination -h2

theorem idn_sq (h : Par m) {v : ℝ} (hv : |v| < K (1 - m)) : idn v m ^ 2 = 1 - m * isn v m ^ 2 := by
  have h1 := cn_ne h hv
  have h2 := ccn_sq v (1 - m)
  have h3 := cdn_sq h.compl v
  push_cast at h3
  rw [idn, isn]
  field_simp
  rw [I_sq]
  linear_combination h3 - h2

theorem isn_deriv (h : Par m) {v : ℝ} (hv : |v| < K (1 - m)) :
    HasDerivAt (fun v => isn v m) (I * (icn v m * idn v m)) v := by
  have h1 := cn_ne h hv
  have h2 := ccn_sq v (1 - m)
  have a := ((sn_deriv h.compl v).ofReal_comp.const_mul I).div (cn_deriv h.compl v).ofReal_comp h1
  refine HasDerivAt.congr_deriv a ?_
  rw [icn, idn]
  push_cast
  field_simp
  linear_combination (dn v (1 - m) : ℂ) * h2

theorem icn_deriv (h : Par m) {v : ℝ} (hv : |v| < K (1 - m)) :
    HasDerivAt (fun v => icn v m) (I * -(isn v m * idn v m)) v := by
  have h1 := cn_ne h hv
  have a := (hasDerivAt_const v (1 : ℂ)).div (cn_deriv h.compl v).ofReal_comp h1
  refine HasDerivAt.congr_deriv a ?_
  rw [isn, idn]
  push_cast
  field_simp
  rw [I_sq]
  ring

theorem idn_deriv (h : Par m) {v : ℝ} (hv : |v| < K (1 - m)) :
    HasDerivAt (fun v => idn v m) (I * -(m * isn v m * icn v m)) v := by
  have h1 := cn_ne h hv
  have h2 := ccn_sq v (1 - m)
  have h3 := cdn_sq h.compl v
  push_cast at h3
  have a := (dn_deriv h.compl v).ofReal_comp.div (cn_deriv h.compl v).ofReal_comp h1
  refine HasDerivAt.congr_deriv a ?_
  rw [isn, icn]
  push_cast
  field_simp
  rw [I_sq]
  linear_combination (sn v (1 - m) : ℂ) * (h3 - (1 - m) * h2)

/-- `x + i v` -/
noncomputable def vert (x v : ℝ) : ℂ := ⟨x, v⟩

/-- The derivative of `Sn`. -/
noncomputable def Pn (z : ℂ) (m : ℝ) : ℂ := Cn z m * Dn z m

theorem denom_pos (h : Par m) {x v : ℝ} (hv : |v| < K (1 - m)) : 0 < denom (vert x v) m := by
  have := cn_pos h.compl hv
  have := h.1
  rw [denom]
  show 0 < cn v (1 - m) ^ 2 + m * sn x m ^ 2 * sn v (1 - m) ^ 2
  positivity

/-- The denominator of the addition theorem. -/
noncomputable def den (x v m : ℝ) : ℂ := 1 - m * (sn x m : ℂ) ^ 2 * isn v m ^ 2

theorem den_eq (h : Par m) {x v : ℝ} (hv : |v| < K (1 - m)) :
    den x v m = (denom (vert x v) m : ℂ) / (cn v (1 - m) : ℂ) ^ 2 := by
  have h1 := cn_ne h hv
  rw [den, isn, denom]
  simp only [vert]
  push_cast
  field_simp
  rw [I_sq]
  ring

theorem den_ne (h : Par m) {x v : ℝ} (hv : |v| < K (1 - m)) : den x v m ≠ 0 := by
  rw [den_eq h hv]
  exact div_ne_zero (ofReal_ne_zero.2 (denom_pos h hv).ne') (pow_ne_zero _ (cn_ne h hv))

theorem mk_eq (a b : ℝ) : (⟨a, b⟩ : ℂ) = a + b * I := by rw [mk_eq_add_mul_I]

theorem Sn_vert (h : Par m) {x v : ℝ} (hv : |v| < K (1 - m)) :
    Sn (vert x v) m = (sn x m * icn v m * idn v m + isn v m * cn x m * dn x m) / den x v m := by
  have h1 := cn_ne h hv
  have h2 : (denom (vert x v) m : ℂ) ≠ 0 := ofReal_ne_zero.2 (denom_pos h hv).ne'
  rw [den_eq h hv, Sn, mk_eq, isn, icn, idn]
  simp only [vert] at h2 ⊢
  push_cast
  field_simp

theorem Cn_vert (h : Par m) {x v : ℝ} (hv : |v| < K (1 - m)) :
    Cn (vert x v) m = (cn x m * icn v m - sn x m * dn x m * isn v m * idn v m) / den x v m := by
  have h1 := cn_ne h hv
  have h2 : (denom (vert x v) m : ℂ) ≠ 0 := ofReal_ne_zero.2 (denom_pos h hv).ne'
  rw [den_eq h hv, Cn, mk_eq, isn, icn, idn]
  simp only [vert] at h2 ⊢
  push_cast
  field_simp
  ring

theorem Dn_vert (h : Par m) {x v : ℝ} (hv : |v| < K (1 - m)) :
    Dn (vert x v) m = (dn x m * idn v m - m * sn x m * cn x m * isn v m * icn v m) / den x v m := by
  have h1 := cn_ne h hv
  have h2 : (denom (vert x v) m : ℂ) ≠ 0 := ofReal_ne_zero.2 (denom_pos h hv).ne'
  rw [den_eq h hv, Dn, mk_eq, isn, icn, idn]
  simp only [vert] at h2 ⊢
  push_cast
  field_simp
  ring

theorem Cn_sq (h : Par m) {x v : ℝ} (hv : |v| < K (1 - m)) :
    Cn (vert x v) m ^ 2 = 1 - Sn (vert x v) m ^ 2 := by
  have h1 := den_ne h (x := x) hv
  rw [Cn_vert h hv, Sn_vert h hv]
  have hc := ccn_sq x m
  have hd := cdn_sq h x
  have hg := icn_sq h hv
  have he := idn_sq h hv
  have hD : den x v m = 1 - m * (sn x m : ℂ) ^ 2 * isn v m ^ 2 := rfl
  generalize (sn x m : ℂ) = s at *
  generalize (cn x m : ℂ) = c at *
  generalize (dn x m : ℂ) = d at *
  generalize isn v m = b at *
  generalize icn v m = g at *
  generalize idn v m = e at *
  generalize (m : ℂ) = m at *
  generalize den x v _ = D at *
  field_simp
  subst hD
  linear_combination ((1)*g^2 + (1)*d^2*b^2)*hc + ((1)*b^2 + (-1)*s^2*b^2 + (1)*s^2*b^2*e^2)*hd + ((1) + (-1)*s^2 + (1)*s^2*e^2)*hg + ((1)*s^2 + (-1)*s^4*b^2*m)*he

theorem Dn_sq (h : Par m) {x v : ℝ} (hv : |v| < K (1 - m)) :
    Dn (vert x v) m ^ 2 = 1 - m * Sn (vert x v) m ^ 2 := by
  have h1 := den_ne h (x := x) hv
  rw [Dn_vert h hv, Sn_vert h hv]
  have hc := ccn_sq x m
  have hd := cdn_sq h x
  have hg := icn_sq h hv
  have he := idn_sq h hv
  have hD : den x v m = 1 - m * (sn x m : ℂ) ^ 2 * isn v m ^ 2 := rfl
  generalize (sn x m : ℂ) = s at *
  generalize (cn x m : ℂ) = c at *
  generalize (dn x m : ℂ) = d at *
  generalize isn v m = b at *
  generalize icn v m = g at *
  generalize idn v m = e at *
  generalize (m : ℂ) = m at *
  generalize den x v _ = D at *
  field_simp
  subst hD
  linear_combination ((1)*d^2*b^2*m + (1)*s^2*b^2*g^2*m^2)*hc + ((1)*e^2 + (1)*b^2*m + (-1)*s^2*b^2*m)*hd + ((1)*s^2*e^2*m + (1)*s^2*b^2*m^2 + (-1)*s^4*b^2*m^2)*hg + ((1) + (-1)*s^2*b^2*m)*he

theorem lt_nhds {v κ : ℝ} (hv : |v| < κ) : ∀ᶠ t in nhds v, |t| < κ :=
  continuous_abs.continuousAt.eventually (gt_mem_nhds hv)

theorem den_deriv (h : Par m) (x : ℝ) {v : ℝ} (hv : |v| < K (1 - m)) :
    HasDerivAt (fun v => den x v m) (-(m * (sn x m : ℂ) ^ 2 * (2 * isn v m * (I * (icn v m * idn v m))))) v := by
  have := (((isn_deriv h hv).pow 2).const_mul (m * (sn x m : ℂ) ^ 2)).const_sub 1
  refine HasDerivAt.congr_deriv this ?_
  simp

theorem Sn_deriv (h : Par m) (x : ℝ) {v : ℝ} (hv : |v| < K (1 - m)) :
    HasDerivAt (fun v => Sn (vert x v) m) (I * Pn (vert x v) m) v := by
  have h1 := den_ne h (x := x) hv
  have ha := ((((icn_deriv h hv).const_mul (sn x m : ℂ)).mul (idn_deriv h hv)).add
    (((isn_deriv h hv).mul_const (cn x m : ℂ)).mul_const (dn x m : ℂ))).div (den_deriv h x hv) h1
  refine HasDerivAt.congr_deriv (ha.congr_of_eventuallyEq ?_) ?_
  · filter_upwards [lt_nhds hv] with t ht
    rw [Sn_vert h ht]
    rfl
  · rw [Pn, Cn_vert h hv, Dn_vert h hv]
    simp only [Pi.add_apply, Pi.mul_apply]
    have hc := ccn_sq x m
    have hd := cdn_sq h x
    have hg := icn_sq h hv
    have he := idn_sq h hv
    have hD : den x v m = 1 - m * (sn x m : ℂ) ^ 2 * isn v m ^ 2 := rfl
    clear ha
    generalize (sn x m : ℂ) = s at *
    generalize (cn x m : ℂ) = c at *
    generalize (dn x m : ℂ) = d at *
    generalize isn v m = b at *
    generalize icn v m = g at *
    generalize idn v m = e at *
    generalize (m : ℂ) = m at *
    generalize den x v _ = D at *
    field_simp
    subst hD
    linear_combination (((1)*s*b*g^2*m)*hc + ((1)*s*b*e^2)*hd + ((-1)*s^3*b*m + (2)*s^3*b*e^2*m + (1)*s^3*b^3*m^2)*hg + ((1)*s^3*b*m + (-1)*s^3*b^3*m)*he)

theorem Cn_deriv (h : Par m) (x : ℝ) {v : ℝ} (hv : |v| < K (1 - m)) :
    HasDerivAt (fun v => Cn (vert x v) m) (I * -(Sn (vert x v) m * Dn (vert x v) m)) v := by
  have h1 := den_ne h (x := x) hv
  have ha := (((icn_deriv h hv).const_mul (cn x m : ℂ)).sub
    (((isn_deriv h hv).const_mul (sn x m * dn x m : ℂ)).mul (idn_deriv h hv))).div (den_deriv h x hv) h1
  refine HasDerivAt.congr_deriv (ha.congr_of_eventuallyEq ?_) ?_
  · filter_upwards [lt_nhds hv] with t ht
    rw [Cn_vert h ht]
    rfl
  · rw [Sn_vert h hv, Dn_vert h hv]
    simp only [Pi.sub_apply, Pi.mul_apply]
    have hc := ccn_sq x m
    have hd := cdn_sq h x
    have hg := icn_sq h hv
    have he := idn_sq h hv
    have hD : den x v m = 1 - m * (sn x m : ℂ) ^ 2 * isn v m ^ 2 := rfl
    clear ha
    generalize (sn x m : ℂ) = s at *
    generalize (cn x m : ℂ) = c at *
    generalize (dn x m : ℂ) = d at *
    generalize isn v m = b at *
    generalize icn v m = g at *
    generalize idn v m = e at *
    generalize (m : ℂ) = m at *
    generalize den x v _ = D at *
    field_simp
    subst hD
    linear_combination (((-1)*s*d*b^2*g*m)*hc + ((1)*c*b*e)*hd + ((1)*s^2*c*b*e*m)*hg + ((-1)*s^3*d*b^2*g*m)*he)

theorem Dn_deriv (h : Par m) (x : ℝ) {v : ℝ} (hv : |v| < K (1 - m)) :
    HasDerivAt (fun v => Dn (vert x v) m) (I * -(m * Sn (vert x v) m * Cn (vert x v) m)) v := by
  have h1 := den_ne h (x := x) hv
  have ha := (((idn_deriv h hv).const_mul (dn x m : ℂ)).sub
    (((isn_deriv h hv).const_mul (m * sn x m * cn x m : ℂ)).mul (icn_deriv h hv))).div (den_deriv h x hv) h1
  refine HasDerivAt.congr_deriv (ha.congr_of_eventuallyEq ?_) ?_
  · filter_upwards [lt_nhds hv] with t ht
    rw [Dn_vert h ht]
    rfl
  · rw [Sn_vert h hv, Cn_vert h hv]
    simp only [Pi.sub_apply, Pi.mul_apply]
    have hc := ccn_sq x m
    have hd := cdn_sq h x
    have hg := icn_sq h hv
    have he := idn_sq h hv
    have hD : den x v m = 1 - m * (sn x m : ℂ) ^ 2 * isn v m ^ 2 := rfl
    clear ha
    generalize (sn x m : ℂ) = s at *
    generalize (cn x m : ℂ) = c at *
    generalize (dn x m : ℂ) = d at *
    generalize isn v m = b at *
    generalize icn v m = g at *
    generalize idn v m = e at *
    generalize (m : ℂ) = m at *
    generalize den x v _ = D at *
    field_simp
    subst hD
    linear_combination (((1)*d*b*g*m)*hc + ((-1)*s*c*b^2*e*m)*hd + ((-1)*s^3*c*b^2*e*m^2)*hg + ((1)*s^2*d*b*g*m)*he)

theorem Pn_sq (h : Par m) {x v : ℝ} (hv : |v| < K (1 - m)) :
    Pn (vert x v) m ^ 2 = (1 - Sn (vert x v) m ^ 2) * (1 - m * Sn (vert x v) m ^ 2) := by
  rw [Pn, mul_pow, Cn_sq h hv, Dn_sq h hv]

theorem Pn_deriv (h : Par m) (x : ℝ) {v : ℝ} (hv : |v| < K (1 - m)) :
    HasDerivAt (fun v => Pn (vert x v) m) (I * -(Sn (vert x v) m * (1 + m - 2 * m * Sn (vert x v) m ^ 2))) v := by
  refine HasDerivAt.congr_deriv ((Cn_deriv h x hv).mul (Dn_deriv h x hv)) ?_
  have h1 := Cn_sq h (x := x) hv
  have h2 := Dn_sq h (x := x) hv
  linear_combination -I * Sn (vert x v) m * (h2 + m * h1)

/-! ### Uniqueness -/

/-- Two solutions of the differential equation of `sn` that start with the same values agree. -/
theorem sn_unique {𝕜 : Type} [RCLike 𝕜] {a κ : 𝕜} {T : ℝ} {y Y x X : ℝ → 𝕜}
    (hy : ∀ t ∈ Set.Icc 0 T, HasDerivAt y (a * Y t) t)
    (hY : ∀ t ∈ Set.Icc 0 T, HasDerivAt Y (a * -(y t * (1 + κ - 2 * κ * y t ^ 2))) t)
    (hx : ∀ t ∈ Set.Icc 0 T, HasDerivAt x (a * X t) t)
    (hX : ∀ t ∈ Set.Icc 0 T, HasDerivAt X (a * -(x t * (1 + κ - 2 * κ * x t ^ 2))) t)
    (h0 : y 0 = x 0) (h1 : Y 0 = X 0) : ∀ t ∈ Set.Icc 0 T, y t = x t := by
  have cy : ContinuousOn y (Set.Icc 0 T) := fun t ht => (hy t ht).continuousAt.continuousWithinAt
  have cx : ContinuousOn x (Set.Icc 0 T) := fun t ht => (hx t ht).continuousAt.continuousWithinAt
  have cY : ContinuousOn Y (Set.Icc 0 T) := fun t ht => (hY t ht).continuousAt.continuousWithinAt
  have cX : ContinuousOn X (Set.Icc 0 T) := fun t ht => (hX t ht).continuousAt.continuousWithinAt
  obtain ⟨By, hBy⟩ := isCompact_Icc.exists_bound_of_continuousOn cy
  obtain ⟨Bx, hBx⟩ := isCompact_Icc.exists_bound_of_continuousOn cx
  set B := max (max By Bx) 0 with hB
  have hB0 : 0 ≤ B := le_max_right _ _
  set L := ‖a‖ * (1 + ‖1 + κ‖ + 6 * ‖κ‖ * B ^ 2) with hL
  have hL0 : 0 ≤ L := by positivity
  have hlip : LipschitzOnWith (Real.toNNReal L)
      (fun p : 𝕜 × 𝕜 => (a * p.2, a * -(p.1 * (1 + κ - 2 * κ * p.1 ^ 2)))) {p | ‖p.1‖ ≤ B} := by
    refine LipschitzOnWith.of_dist_le_mul ?_
    rintro ⟨p, P⟩ hp ⟨q, Q⟩ hq
    simp only [Set.mem_setOf_eq] at hp hq
    rw [Real.coe_toNNReal _ hL0, dist_eq_norm, dist_eq_norm, Prod.norm_def, Prod.norm_def]
    simp only [Prod.fst_sub, Prod.snd_sub]
    have n1 : ‖P - Q‖ ≤ max ‖p - q‖ ‖P - Q‖ := le_max_right _ _
    have n2 : ‖p - q‖ ≤ max ‖p - q‖ ‖P - Q‖ := le_max_left _ _
    have nn : 0 ≤ max ‖p - q‖ ‖P - Q‖ := (norm_nonneg _).trans n2
    apply max_le
    · rw [← mul_sub, norm_mul]
      calc ‖a‖ * ‖P - Q‖ ≤ ‖a‖ * max ‖p - q‖ ‖P - Q‖ := by gcongr
        _ ≤ L * max ‖p - q‖ ‖P - Q‖ := by
          apply mul_le_mul_of_nonneg_right _ nn
          rw [hL]
          have : 0 ≤ ‖1 + κ‖ + 6 * ‖κ‖ * B ^ 2 := by positivity
          nlinarith [norm_nonneg a]
    · have e : a * -(p * (1 + κ - 2 * κ * p ^ 2)) - a * -(q * (1 + κ - 2 * κ * q ^ 2)) =
          a * ((p - q) * (2 * κ * (p ^ 2 + p * q + q ^ 2) - (1 + κ))) := by ring
      rw [e, norm_mul, norm_mul]
      have b1 : ‖2 * κ * (p ^ 2 + p * q + q ^ 2) - (1 + κ)‖ ≤ 6 * ‖κ‖ * B ^ 2 + ‖1 + κ‖ := by
        refine (norm_sub_le _ _).trans ?_
        gcongr
        rw [norm_mul, norm_mul]
        have b2 : ‖p ^ 2 + p * q + q ^ 2‖ ≤ 3 * B ^ 2 := by
          calc ‖p ^ 2 + p * q + q ^ 2‖ ≤ ‖p ^ 2‖ + ‖p * q‖ + ‖q ^ 2‖ :=
                (norm_add_le _ _).trans (by gcongr; exact norm_add_le _ _)
            _ = ‖p‖ ^ 2 + ‖p‖ * ‖q‖ + ‖q‖ ^ 2 := by rw [norm_pow, norm_mul, norm_pow]
            _ ≤ B ^ 2 + B * B + B ^ 2 := by gcongr
            _ = 3 * B ^ 2 := by ring
        have : ‖(2 : 𝕜)‖ = 2 := by simp
        rw [this]
        nlinarith [norm_nonneg κ]
      calc ‖a‖ * (‖p - q‖ * ‖2 * κ * (p ^ 2 + p * q + q ^ 2) - (1 + κ)‖)
          ≤ ‖a‖ * (max ‖p - q‖ ‖P - Q‖ * (6 * ‖κ‖ * B ^ 2 + ‖1 + κ‖)) := by gcongr
        _ ≤ L * max ‖p - q‖ ‖P - Q‖ := by
          rw [hL]
          have : 0 ≤ ‖a‖ * max ‖p - q‖ ‖P - Q‖ := mul_nonneg (norm_nonneg _) nn
          nlinarith
  have hu := ODE_solution_unique_of_mem_Icc_right (a := 0) (b := T)
    (v := fun _ (p : 𝕜 × 𝕜) => (a * p.2, a * -(p.1 * (1 + κ - 2 * κ * p.1 ^ 2))))
    (s := fun _ => {p | ‖p.1‖ ≤ B}) (f := fun t => (y t, Y t)) (g := fun t => (x t, X t))
    (fun t _ => hlip) (cy.prodMk cY)
    (fun t ht => ((hy t ⟨ht.1, ht.2.le⟩).prodMk (hY t ⟨ht.1, ht.2.le⟩)).hasDerivWithinAt)
    (fun t ht => (hBy t ⟨ht.1, ht.2.le⟩).trans ((le_max_left _ _).trans (le_max_left _ _)))
    (cx.prodMk cX)
    (fun t ht => ((hx t ⟨ht.1, ht.2.le⟩).prodMk (hX t ⟨ht.1, ht.2.le⟩)).hasDerivWithinAt)
    (fun t ht => (hBx t ⟨ht.1, ht.2.le⟩).trans ((le_max_right _ _).trans (le_max_left _ _)))
    (by simp only [h0, h1])
  intro t ht
  exact congrArg Prod.fst (hu ht)

end Verif.Elliptic
