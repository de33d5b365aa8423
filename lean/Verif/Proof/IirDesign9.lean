import Verif.Proof.IirDesign8
import Mathlib.Analysis.Complex.ExponentialBounds
import Mathlib.Analysis.SpecialFunctions.Log.Basic

/-!
# Lemmas: the roots of the lowpass and highpass designs are recognised as real or not
-/

namespace Verif.IirDesign
open Verif.PortableComplex Verif.IirDesign.Spec Verif.PoleZero
open scoped ComplexConjugate

/-- Real, or at least `σ` and `σ |r|²` away from the real axis. -/
def Spread (σ : ℝ) (r : ℂ) : Prop := r.im = 0 ∨ (σ ≤ |r.im| ∧ σ * ‖r‖ ^ 2 ≤ |r.im|)

theorem Spread.inv {σ : ℝ} {r : ℂ} (h : Spread σ r) : Spread σ r⁻¹ := by
  by_cases h0 : r = 0
  · rw [h0, inv_zero]; exact Or.inl rfl
  have hp : 0 < ‖r‖ := norm_pos_iff.2 h0
  rcases h with h | ⟨h1, h2⟩
  · left; rw [Complex.inv_im, h]; simp
  · right
    rw [Complex.inv_im, norm_inv, abs_div, abs_neg, Complex.normSq_eq_norm_sq, abs_of_pos (by positivity : 0 < ‖r‖ ^ 2),
      le_div_iff₀ (by positivity), inv_pow, ← div_eq_mul_inv, div_le_div_iff_of_pos_right (by positivity)]
    exact ⟨h2, h1⟩

theorem Spread.neg {σ : ℝ} {r : ℂ} (h : Spread σ r) : Spread σ (-r) := by
  unfold Spread at *
  rwa [Complex.neg_im, neg_eq_zero, abs_neg, norm_neg]

theorem Spread.conj {σ : ℝ} {r : ℂ} (h : Spread σ r) : Spread σ (conj r) := by
  unfold Spread at *
  rwa [Complex.conj_im, neg_eq_zero, abs_neg, Complex.norm_conj]

theorem Spread.mono {σ τ : ℝ} {r : ℂ} (h : Spread σ r) (hst : τ ≤ σ) : Spread τ r := by
  rcases h with h | ⟨h1, h2⟩
  · exact Or.inl h
  · exact Or.inr ⟨hst.trans h1, (mul_le_mul_of_nonneg_right hst (by positivity)).trans h2⟩

theorem clear_bl {w : ℂ} (hw : w.re ≤ 0) (h : w.im = 0 ∨ 100 / 2 ^ 52 * (1 + ‖w‖ ^ 2) < 2 * |w.im|) :
    Clear ((1 + w) / (1 - w)) := by
  have hne : 1 - w ≠ 0 := by
    intro hh
    have : w = 1 := (sub_eq_zero.1 hh).symm
    rw [this] at hw
    simp at hw
    linarith
  have hN : 0 < Complex.normSq (1 - w) := Complex.normSq_pos.2 hne
  have him : ((1 + w) / (1 - w)).im = 2 * w.im / Complex.normSq (1 - w) := by
    rw [Complex.div_im]
    simp
    field_simp
    ring
  rcases h with h | h
  · left; rw [him, h]; simp
  · right
    have hn : 0 < ‖1 - w‖ := norm_pos_iff.2 hne
    rw [him, abs_div, abs_of_pos hN, Complex.normSq_eq_norm_sq, norm_div, abs_mul, abs_of_pos (by norm_num : (0:ℝ) < 2),
      lt_div_iff₀ (by positivity)]
    refine lt_of_le_of_lt ?_ h
    have e : ‖1 + w‖ / ‖1 - w‖ * ‖1 - w‖ ^ 2 = ‖1 - w ^ 2‖ := by
      rw [show 1 - w ^ 2 = (1 + w) * (1 - w) by ring, norm_mul]
      field_simp
    rw [mul_assoc, e]
    refine mul_le_mul_of_nonneg_left ?_ (by positivity)
    refine (norm_sub_le _ _).trans ?_
    rw [norm_one, norm_pow]

theorem clear_low {σ t : ℝ} {r : ℂ} (h : Spread σ r) (hr : r.re ≤ 0) (ht : 0 < t) (hσ : 0 < σ)
    (hb : 100 / 2 ^ 52 < σ * (2 * t / (1 + t ^ 2))) : Clear ((1 + (t : ℂ) * r) / (1 - (t : ℂ) * r)) := by
  refine clear_bl (by simp; exact mul_nonpos_of_nonneg_of_nonpos ht.le hr) ?_
  rw [Complex.im_ofReal_mul, norm_mul, Complex.norm_real, Real.norm_eq_abs, abs_of_pos ht, abs_mul, abs_of_pos ht]
  rcases h with h | ⟨h1, h2⟩
  · left; rw [h, mul_zero]
  · right
    rw [mul_div_assoc', lt_div_iff₀ (by positivity)] at hb
    have hS : 0 ≤ ‖r‖ ^ 2 := by positivity
    rw [mul_pow]
    generalize ‖r‖ ^ 2 = S at *
    have h4 : σ * (1 + t ^ 2 * S) ≤ |r.im| * (1 + t ^ 2) := by nlinarith [mul_le_mul_of_nonneg_left h2 (sq_nonneg t)]
    have h5 : 100 / 2 ^ 52 * (1 + t ^ 2) * (1 + t ^ 2 * S) < 2 * (t * |r.im|) * (1 + t ^ 2) := by
      calc 100 / 2 ^ 52 * (1 + t ^ 2) * (1 + t ^ 2 * S) < σ * (2 * t) * (1 + t ^ 2 * S) :=
            mul_lt_mul_of_pos_right hb (by positivity)
        _ = 2 * t * (σ * (1 + t ^ 2 * S)) := by ring
        _ ≤ 2 * t * (|r.im| * (1 + t ^ 2)) := mul_le_mul_of_nonneg_left h4 (by positivity)
        _ = _ := by ring
    have h6 : 0 < 1 + t ^ 2 := by positivity
    refine lt_of_mul_lt_mul_right ?_ h6.le
    linarith

theorem clear_high {σ t : ℝ} {r : ℂ} (h : Spread σ r) (hr : r.re ≤ 0) (hr0 : r ≠ 0) (ht : 0 < t) (hσ : 0 < σ)
    (hb : 100 / 2 ^ 52 < σ * (2 * t / (1 + t ^ 2))) : Clear ((r + (t : ℂ)) / (r - (t : ℂ))) := by
  have := clear_low h.inv (by rw [show r⁻¹ = ((1 : ℝ) : ℂ) / r by simp]; exact inv_left' 1 one_pos hr) ht hσ hb
  rwa [← div_eq_mul_inv, one_add_div hr0, one_sub_div hr0, div_div_div_cancel_right₀ hr0] at this

theorem sin_bound {cutoff rate : ℝ} (hr : 0 < rate) (h1 : rate / 10 ^ 9 ≤ cutoff)
    (h2 : cutoff ≤ rate / 2 - rate / 10 ^ 9) :
    4 / 10 ^ 9 ≤ 2 * Real.tan (Real.pi * cutoff / rate) / (1 + Real.tan (Real.pi * cutoff / rate) ^ 2) := by
  have hp := Real.pi_pos
  have e := Real.sin_eq_two_mul_tan_half_div_one_add_tan_half_sq (2 * Real.pi * cutoff / rate)
  rw [show 2 * Real.pi * cutoff / rate / 2 = Real.pi * cutoff / rate by ring] at e
  rw [← e]
  have hx1 : 2 * Real.pi / 10 ^ 9 ≤ 2 * Real.pi * cutoff / rate := by
    rw [le_div_iff₀ hr]
    nlinarith
  have hx2 : 2 * Real.pi * cutoff / rate ≤ Real.pi - 2 * Real.pi / 10 ^ 9 := by
    rw [div_le_iff₀ hr]
    nlinarith
  generalize 2 * Real.pi * cutoff / rate = x at *
  have hJ : ∀ y, 2 * Real.pi / 10 ^ 9 ≤ y → y ≤ Real.pi / 2 → 4 / 10 ^ 9 ≤ Real.sin y := by
    intro y hy1 hy2
    refine le_trans ?_ (Real.mul_le_sin (by linarith [show 0 < 2 * Real.pi / 10 ^ 9 by positivity]) hy2)
    rw [div_mul_eq_mul_div, le_div_iff₀ hp]
    linarith
  rcases le_total x (Real.pi / 2) with h | h
  · exact hJ x hx1 h
  · rw [← Real.sin_pi_sub]
    exact hJ _ (by linarith) (by linarith)

theorem sin_angle {n : ℕ} (h1 : 1 ≤ n) (h2 : n ≤ 30) {t : ℝ} (ht1 : Real.pi / (2 * n) ≤ |t|) (ht2 : |t| < Real.pi / 2) :
    1 / 30 ≤ |Real.sin t| := by
  have hp := Real.pi_pos
  have hn : (0 : ℝ) < n := by exact_mod_cast h1
  have hn2 : (n : ℝ) ≤ 30 := by exact_mod_cast h2
  have e : |Real.sin t| = Real.sin |t| := by
    rw [← Real.abs_sin_eq_sin_abs_of_abs_le_pi (by linarith)]
  rw [e]
  refine le_trans ?_ (Real.mul_le_sin (abs_nonneg t) ht2.le)
  refine le_trans ?_ (mul_le_mul_of_nonneg_left ht1 (by positivity))
  rw [div_mul_div_comm, mul_comm 2 Real.pi, mul_div_mul_left _ _ hp.ne']
  rw [div_le_div_iff₀ (by norm_num) (by positivity)]
  linarith

theorem bw_spread {n : ℕ} (h1 : 1 ≤ n) (h2 : n ≤ 30) {r : ℂ} (h : r ∈ (full n bwRoot).map CD.val) :
    Spread (1 / 30) r := by
  obtain ⟨z, hz, rfl⟩ := List.mem_map.1 h
  obtain ⟨t, rfl, ht, h0 | h0, -⟩ := full_mem bwRoot_conj hz
  · left; rw [h0]; simp [bwRoot, CD.val]
  · right
    have hs := sin_angle h1 h2 h0 ht
    have hn : ‖(bwRoot t).val‖ = 1 := by
      rw [Complex.norm_eq_sqrt_sq_add_sq]
      simp [bwRoot, CD.val]
    rw [hn]
    have hi : (bwRoot t).val.im = Real.sin t := rfl
    rw [hi]
    exact ⟨hs, by linarith⟩

theorem sinh_spread {n : ℕ} (h1 : 1 ≤ n) (h2 : n ≤ 30) (μ : ℝ) {t : ℝ} (ht1 : Real.pi / (2 * n) ≤ |t|)
    (ht2 : |t| < Real.pi / 2) : Spread (1 / (30 * Real.cosh μ)) (Complex.sinh (μ + t * Complex.I)) := by
  have hs := sin_angle h1 h2 ht1 ht2
  have hC := Real.one_le_cosh μ
  have hC0 : 0 < Real.cosh μ := by linarith
  have e : Complex.sinh (μ + t * Complex.I) = (Real.sinh μ * Real.cos t : ℝ) + (Real.cosh μ * Real.sin t : ℝ) * Complex.I := by
    rw [Complex.sinh_add, Complex.sinh_mul_I, Complex.cosh_mul_I]
    push_cast
    ring
  right
  rw [e]
  have him : (((Real.sinh μ * Real.cos t : ℝ) : ℂ) + (Real.cosh μ * Real.sin t : ℝ) * Complex.I).im
      = Real.cosh μ * Real.sin t := by
    rw [Complex.add_im, Complex.im_ofReal_mul, Complex.ofReal_im, Complex.I_im]; ring
  rw [him, abs_mul, abs_of_pos hC0]
  have hn : ‖((Real.sinh μ * Real.cos t : ℝ) : ℂ) + (Real.cosh μ * Real.sin t : ℝ) * Complex.I‖ ^ 2
      ≤ Real.cosh μ ^ 2 := by
    rw [← Complex.normSq_eq_norm_sq, Complex.normSq_add_mul_I]
    have h1 := Real.cosh_sq μ
    have h2 := Real.sin_sq_add_cos_sq t
    nlinarith [sq_nonneg (Real.cos t), sq_nonneg (Real.sinh μ)]
  constructor
  · rw [div_le_iff₀ (by positivity)]
    nlinarith [mul_le_mul hs hC (by norm_num) (abs_nonneg (Real.sin t))]
  · refine (mul_le_mul_of_nonneg_left hn (by positivity)).trans ?_
    rw [one_div_mul_eq_div, pow_two, mul_div_mul_right _ _ hC0.ne']
    nlinarith

theorem c1_spread {n : ℕ} (h1 : 1 ≤ n) (h2 : n ≤ 30) (μ : ℝ) {r : ℂ} (h : r ∈ (full n (c1Root μ)).map CD.val) :
    Spread (1 / (30 * Real.cosh μ)) r := by
  obtain ⟨z, hz, rfl⟩ := List.mem_map.1 h
  obtain ⟨t, rfl, ht, h0 | h0, -⟩ := full_mem (c1Root_conj μ) hz
  · left
    rw [h0, c1Root_val, Complex.ofReal_zero, zero_mul, add_zero, ← Complex.ofReal_sinh, Complex.neg_im,
      Complex.ofReal_im, neg_zero]
  · rw [c1Root_val]
    exact (sinh_spread h1 h2 μ h0 ht).neg

theorem c2_spread {n : ℕ} (h1 : 1 ≤ n) (h2 : n ≤ 30) {μ : ℝ} (hμ : 0 < μ) {r : ℂ}
    (h : r ∈ (full n (c2Root μ)).map CD.val) : Spread (1 / (30 * Real.cosh μ)) r := by
  obtain ⟨z, hz, rfl⟩ := List.mem_map.1 h
  obtain ⟨t, rfl, ht, h0 | h0, -⟩ := full_mem (c2Root_conj hμ) hz
  · left
    rw [h0, c2Root_zero hμ]
    rfl
  · rw [c2Root_val (sinh_ne hμ _), neg_div, one_div (Complex.sinh _)]
    exact (sinh_spread h1 h2 μ h0 ht).inv.neg

theorem z2_spread {n : ℕ} (h1 : 1 ≤ n) (h2 : n ≤ 30) {r : ℂ} (h : r ∈ (rootPairs n c2Zero).map CD.val) :
    Spread (1 / 30) r := by
  obtain ⟨z, hz, rfl⟩ := List.mem_map.1 h
  rw [rootPairs, List.mem_flatMap] at hz
  obtain ⟨k, hk, hz⟩ := hz
  have hb := theta_bounds (List.mem_range.1 hk)
  have hp := Real.pi_pos
  have hn : (0 : ℝ) < n := by exact_mod_cast h1
  have hpn : 0 < Real.pi / (2 * n) := by positivity
  have ha : |theta n (k + 1)| = theta n (k + 1) := abs_of_pos (hpn.trans_le hb.1)
  have hs := sin_angle h1 h2 (t := theta n (k + 1)) (by rw [ha]; exact hb.1) (by rw [ha]; linarith [hb.2])
  have hz' : Spread (1 / 30) (c2Zero (theta n (k + 1))).val := by
    have e : (c2Zero (theta n (k + 1))).val = (-((Real.sin (theta n (k + 1)) : ℝ) * Complex.I))⁻¹ := by
      apply Complex.ext
      · rw [Complex.inv_re, Complex.neg_re, Complex.re_ofReal_mul]; simp [c2Zero, CD.val]
      · rw [Complex.inv_im, Complex.neg_im, Complex.im_ofReal_mul, Complex.normSq_neg, Complex.normSq_mul,
          Complex.normSq_ofReal, Complex.normSq_I, Complex.I_im]
        have hne : Real.sin (theta n (k + 1)) ≠ 0 := by
          intro hh; rw [hh] at hs; norm_num at hs
        simp only [c2Zero, CD.val]
        field_simp
    rw [e]
    apply Spread.inv
    apply Spread.neg
    right
    rw [Complex.im_ofReal_mul, Complex.I_im, mul_one, norm_mul, Complex.norm_I, mul_one, Complex.norm_real,
      Real.norm_eq_abs]
    refine ⟨hs, ?_⟩
    have := Real.abs_sin_le_one (theta n (k + 1))
    nlinarith [abs_nonneg (Real.sin (theta n (k + 1)))]
  simp only [List.mem_cons, List.not_mem_nil, or_false] at hz
  rcases hz with rfl | rfl
  · exact hz'.conj
  · exact hz'

theorem full_one {root : ℝ → CD} {r : ℂ} (h : r ∈ (full 1 root).map CD.val) : r = (root 0).val := by
  simpa [full, rootPairs] using h

theorem cosh_bound {n : ℕ} (hn : 2 ≤ n) {x B : ℝ} (hx : 1 ≤ x) (hxB : x ≤ B ^ 2) (hB : 0 ≤ B) :
    Real.cosh (Real.log x / n) ≤ B := by
  have hn' : (0 : ℝ) < n := by exact_mod_cast (by omega : 0 < n)
  have hn2 : (2 : ℝ) ≤ n := by exact_mod_cast hn
  have hl : 0 ≤ Real.log x := Real.log_nonneg hx
  have hμ : 0 ≤ Real.log x / n := by positivity
  have h1 : Real.cosh (Real.log x / n) ≤ Real.exp (Real.log x / n) := by
    rw [← Real.cosh_add_sinh]
    linarith [Real.sinh_nonneg_iff.2 hμ]
  refine h1.trans ?_
  refine le_of_sq_le_sq ?_ hB
  rw [← Real.exp_nat_mul]
  refine le_trans ?_ hxB
  rw [← Real.exp_log (by linarith : 0 < x)]
  refine Real.exp_le_exp.2 ?_
  rw [Real.log_exp]
  push_cast
  rw [mul_div_assoc', div_le_iff₀ hn']
  nlinarith

theorem spread_const {C : ℝ} (h0 : 1 ≤ C) (h : C ≤ 1500) {r : ℂ} (hs : Spread (1 / (30 * C)) r) :
    Spread (1 / 45000) r := by
  refine hs.mono ?_
  rw [div_le_div_iff₀ (by norm_num) (by positivity)]
  linarith

theorem sqrt_le_one_add {e : ℝ} (he : 0 ≤ e) : √(1 + e * e) ≤ 1 + e := by
  rw [Real.sqrt_le_left (by linarith)]
  nlinarith

theorem c1_sep {n : ℕ} (h1 : 1 ≤ n) (h2 : n ≤ 30) {ripple : ℝ} (hr : 1 / 10 ^ 11 ≤ ripple) {r : ℂ}
    (h : r ∈ (full n (c1Root (Real.log ((1 + √(1 + epsilon ripple * epsilon ripple)) / epsilon ripple) / n))).map CD.val) :
    Spread (1 / 45000) r := by
  by_cases hn : n = 1
  · subst hn
    left
    rw [full_one h, c1Root_val, Complex.ofReal_zero, zero_mul, add_zero, ← Complex.ofReal_sinh, Complex.neg_im,
      Complex.ofReal_im, neg_zero]
  have hr0 : 0 < ripple := lt_of_lt_of_le (by norm_num) hr
  have he := epsilon_pos hr0
  have he2 := epsilon_sq hr0.le
  have hb : (1 / 10 ^ 6 : ℝ) ≤ epsilon ripple := by
    refine le_of_sq_le_sq ?_ he.le
    rw [he2, Real.rpow_def_of_pos (by norm_num)]
    have hlog : 2 ≤ Real.log 10 := by
      rw [Real.le_log_iff_exp_le (by norm_num)]
      have := Real.exp_one_lt_d9
      have e : Real.exp 2 = Real.exp 1 * Real.exp 1 := by rw [← Real.exp_add]; norm_num
      rw [e]
      nlinarith [Real.exp_pos 1]
    have := Real.add_one_le_exp (Real.log 10 * (ripple / 10))
    nlinarith
  refine spread_const (Real.one_le_cosh _) ?_ (c1_spread h1 h2 _ h)
  refine cosh_bound (by omega) ?_ ?_ (by norm_num)
  · rw [le_div_iff₀ he]
    have : epsilon ripple ≤ √(1 + epsilon ripple * epsilon ripple) := by
      apply Real.le_sqrt_of_sq_le
      nlinarith
    linarith
  · rw [div_le_iff₀ he]
    have := sqrt_le_one_add he.le
    nlinarith

theorem c2_sep {n : ℕ} (h1 : 1 ≤ n) (h2 : n ≤ 30) {ripple : ℝ} (hr0 : 0 < ripple) (hr : ripple ≤ 120) {r : ℂ}
    (h : r ∈ (rootPairs n c2Zero).map CD.val ∨
      r ∈ (full n (c2Root (Real.log (epsilon ripple + √(1 + epsilon ripple * epsilon ripple)) / n))).map CD.val) :
    Spread (1 / 45000) r := by
  have he := epsilon_pos hr0
  have he2 := epsilon_sq hr0.le
  rcases h with h | h
  · exact (z2_spread h1 h2 h).mono (by norm_num)
  have hμ := (mu2 h1 he).2
  by_cases hn : n = 1
  · subst hn
    left
    rw [full_one h, c2Root_zero hμ]
    rfl
  have hb : epsilon ripple ≤ 10 ^ 6 := by
    refine le_of_sq_le_sq ?_ (by norm_num)
    rw [he2]
    have : (10 : ℝ) ^ (ripple / 10) ≤ (10 : ℝ) ^ ((12 : ℕ) : ℝ) := by
      apply Real.rpow_le_rpow_of_exponent_le (by norm_num)
      push_cast
      linarith
    rw [Real.rpow_natCast] at this
    linarith
  refine spread_const (Real.one_le_cosh _) ?_ (c2_spread h1 h2 hμ h)
  refine cosh_bound (by omega) ?_ ?_ (by norm_num)
  · have : 1 ≤ √(1 + epsilon ripple * epsilon ripple) := by
      apply Real.le_sqrt_of_sq_le
      nlinarith
    linarith
  · have := sqrt_le_one_add he.le
    linarith

/-- The bound that the two lemmas above are used with. -/
theorem sep_bound {cutoff rate : ℝ} (hr : 0 < rate) (h1 : rate / 10 ^ 9 ≤ cutoff)
    (h2 : cutoff ≤ rate / 2 - rate / 10 ^ 9) :
    100 / 2 ^ 52 < 1 / 45000 * (2 * Real.tan (Real.pi * cutoff / rate) / (1 + Real.tan (Real.pi * cutoff / rate) ^ 2)) := by
  have := sin_bound hr h1 h2
  refine lt_of_lt_of_le ?_ (mul_le_mul_of_nonneg_left this (by norm_num))
  norm_num

end Verif.IirDesign
