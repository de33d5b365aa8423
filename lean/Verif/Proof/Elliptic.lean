import Verif.Model.Elliptic
import Verif.Spec.Elliptic
import Mathlib.MeasureTheory.Integral.IntervalIntegral.FundThmCalculus
import Mathlib.Analysis.SpecialFunctions.Trigonometric.InverseDeriv
import Mathlib.Analysis.SpecialFunctions.Sqrt
import Mathlib.Analysis.Calculus.MeanValue
import Mathlib.Analysis.SpecialFunctions.Integrals.Basic

/-! # Lemmas for C88: Landen's (Gauss's) transformation of elliptic integrals -/

namespace Verif.Elliptic
open Verif.Elliptic.Spec

/-! ## One step -/

theorem comp_facts {k : ℝ} (h0 : 0 ≤ k) (h1 : k < 1) :
    0 < √(1 - k * k) ∧ √(1 - k * k) ≤ 1 ∧ √(1 - k * k) ^ 2 = 1 - k * k := by
  have hp : 0 < 1 - k * k := by nlinarith
  refine ⟨Real.sqrt_pos.2 hp, ?_, Real.sq_sqrt hp.le⟩
  exact Real.sqrt_le_iff.2 ⟨one_pos.le, by nlinarith⟩

theorem step_eq {k : ℝ} (h0 : 0 ≤ k) (h1 : k < 1) :
    landenStep k = (1 - √(1 - k * k)) / (1 + √(1 - k * k)) := by
  obtain ⟨c0, c1, hc⟩ := comp_facts h0 h1
  rw [landenStep, div_pow, div_eq_div_iff (by positivity) (by positivity)]
  linear_combination (1 + √(1 - k * k)) * hc

theorem step_facts {k : ℝ} (h0 : 0 ≤ k) (h1 : k < 1) :
    0 ≤ landenStep k ∧ landenStep k < 1 ∧ landenStep k ≤ k ^ 2 ∧ k ^ 2 * (1 + landenStep k) ^ 2 = 4 * landenStep k ∧
      (1 + landenStep k) * (1 + √(1 - k * k)) = 2 := by
  obtain ⟨c0, c1, hc⟩ := comp_facts h0 h1
  have e := step_eq h0 h1
  refine ⟨by rw [landenStep]; positivity, ?_, ?_, ?_, ?_⟩
  · rw [e, div_lt_one (by positivity)]; linarith
  · rw [landenStep, div_pow]
    refine div_le_self (sq_nonneg k) ?_
    nlinarith
  · rw [e, show k ^ 2 = 1 - √(1 - k * k) ^ 2 by rw [hc]; ring]
    generalize √(1 - k * k) = c at c0
    field_simp
    ring
  · rw [e]
    field_simp
    ring

theorem step_le {k : ℝ} (h0 : 0 ≤ k) (h1 : k < 1) : landenStep k ≤ k := by
  have := (step_facts h0 h1).2.2.1
  nlinarith

/-! ## The integral -/

theorem integrand_pos {m : ℝ} (h0 : 0 ≤ m) (h1 : m < 1) (t : ℝ) : 0 < 1 - m * Real.sin t ^ 2 := by
  have := Real.sin_sq_le_one t
  nlinarith [sq_nonneg (Real.sin t)]

theorem integrand_cont {m : ℝ} (h0 : 0 ≤ m) (h1 : m < 1) :
    Continuous fun t => 1 / √(1 - m * Real.sin t ^ 2) := by
  refine continuous_const.div (by fun_prop) fun t => ?_
  exact (Real.sqrt_pos.2 (integrand_pos h0 h1 t)).ne'

theorem F_deriv {m : ℝ} (h0 : 0 ≤ m) (h1 : m < 1) (φ : ℝ) :
    HasDerivAt (fun φ => F φ m) (1 / √(1 - m * Real.sin φ ^ 2)) φ := by
  have hc := integrand_cont h0 h1
  exact intervalIntegral.integral_hasDerivAt_right (hc.intervalIntegrable _ _)
    (hc.stronglyMeasurableAtFilter _ _) hc.continuousAt

theorem F_zero (m : ℝ) : F 0 m = 0 := by simp [F]

theorem F_neg (φ m : ℝ) : F (-φ) m = -F φ m := by
  have := intervalIntegral.integral_comp_neg (a := 0) (b := φ) (fun t => 1 / √(1 - m * Real.sin t ^ 2))
  simp only [Real.sin_neg, neg_sq, neg_zero] at this
  rw [F, F, this, intervalIntegral.integral_symm]

theorem F_strictMono {m : ℝ} (h0 : 0 ≤ m) (h1 : m < 1) : StrictMono fun φ => F φ m :=
  strictMono_of_hasDerivAt_pos (F_deriv h0 h1) fun φ => by
    have := Real.sqrt_pos.2 (integrand_pos h0 h1 φ)
    positivity

/-- Small parameter: `F` is almost the identity. -/
theorem F_small {m φ : ℝ} (h0 : 0 ≤ m) (h1 : m < 1) (hφ : 0 ≤ φ) : φ ≤ F φ m ∧ F φ m ≤ φ / √(1 - m) := by
  have hc := integrand_cont h0 h1
  have hs : 0 < √(1 - m) := Real.sqrt_pos.2 (by linarith)
  constructor
  · have := intervalIntegral.integral_mono_on (μ := MeasureTheory.volume) hφ (intervalIntegrable_const (c := (1 : ℝ)))
      (hc.intervalIntegrable 0 φ) (fun t _ => by
        rw [le_div_iff₀ (Real.sqrt_pos.2 (integrand_pos h0 h1 t)), one_mul]
        exact Real.sqrt_le_iff.2 ⟨one_pos.le, by nlinarith [mul_nonneg h0 (sq_nonneg (Real.sin t))]⟩)
    simpa [F] using this
  · have := intervalIntegral.integral_mono_on (μ := MeasureTheory.volume) hφ (hc.intervalIntegrable 0 φ)
      (intervalIntegrable_const (c := 1 / √(1 - m))) (fun t _ => by
        refine one_div_le_one_div_of_le hs (Real.sqrt_le_sqrt ?_)
        nlinarith [Real.sin_sq_le_one t])
    rw [F]
    refine this.trans (le_of_eq ?_)
    rw [intervalIntegral.integral_const]
    simp
    ring

/-! ## Gauss's transformation -/

/-- The map of the sine. -/
noncomputable def gauss (k s : ℝ) : ℝ := s * ((1 + k) / (1 + k * s ^ 2))

theorem gauss_one_sub {k s : ℝ} (h0 : 0 ≤ k) :
    1 - gauss k s ^ 2 = (1 - s ^ 2) * (1 - k ^ 2 * s ^ 2) / (1 + k * s ^ 2) ^ 2 := by
  have : 0 < 1 + k * s ^ 2 := by positivity
  rw [gauss]
  field_simp
  ring

theorem gauss_comp {k s : ℝ} (h0 : 0 ≤ k) (h1 : k < 1) :
    1 - k ^ 2 * gauss (landenStep k) s ^ 2
      = ((1 - landenStep k * s ^ 2) / (1 + landenStep k * s ^ 2)) ^ 2 := by
  obtain ⟨g0, -, -, g3, -⟩ := step_facts h0 h1
  have : 0 < 1 + landenStep k * s ^ 2 := by positivity
  rw [gauss]
  field_simp
  linear_combination (-s ^ 2) * g3

theorem gauss_mem {k s : ℝ} (h0 : 0 ≤ k) (h1 : k < 1) (hs : s ^ 2 ≤ 1) : gauss k s ^ 2 ≤ 1 := by
  have := gauss_one_sub (s := s) h0
  have h2 : 0 ≤ 1 - k ^ 2 * s ^ 2 := by nlinarith [mul_le_mul (show k ^ 2 ≤ 1 by nlinarith) hs (sq_nonneg s) one_pos.le]
  have : 0 ≤ (1 - s ^ 2) * (1 - k ^ 2 * s ^ 2) / (1 + k * s ^ 2) ^ 2 :=
    div_nonneg (mul_nonneg (by linarith) h2) (sq_nonneg _)
  linarith

theorem gauss_lt {k s : ℝ} (h0 : 0 ≤ k) (h1 : k < 1) (hs : s ^ 2 < 1) : gauss k s ^ 2 < 1 := by
  have := gauss_one_sub (s := s) h0
  have h2 : 0 < 1 - k ^ 2 * s ^ 2 := by nlinarith [mul_le_mul (show k ^ 2 ≤ 1 by nlinarith) hs.le (sq_nonneg s) one_pos.le]
  have h3 : 0 < (1 - s ^ 2) * (1 - k ^ 2 * s ^ 2) / (1 + k * s ^ 2) ^ 2 :=
    div_pos (mul_pos (by linarith) h2) (by positivity)
  linarith

theorem gauss_cont {k : ℝ} (h0 : 0 ≤ k) : Continuous (gauss k) := by
  unfold gauss
  refine continuous_id.mul (continuous_const.div (by fun_prop) fun s => ?_)
  have : 0 < 1 + k * s ^ 2 := by positivity
  exact this.ne'

theorem gauss_deriv {k : ℝ} (h0 : 0 ≤ k) (s : ℝ) :
    HasDerivAt (gauss k) ((1 + k) * (1 - k * s ^ 2) / (1 + k * s ^ 2) ^ 2) s := by
  have hp : 0 < 1 + k * s ^ 2 := by positivity
  have h1 : HasDerivAt (fun s : ℝ => 1 + k * s ^ 2) (k * (2 * s)) s := by
    have := ((hasDerivAt_pow 2 s).const_mul k).const_add 1
    simpa using this
  have h2 := (hasDerivAt_id s).mul ((hasDerivAt_const s (1 + k)).div h1 hp.ne')
  refine h2.congr_deriv ?_
  simp only [id, Pi.div_apply]
  field_simp
  ring

/-- Gauss's transformation, for the amplitudes between `-π/2` and `π/2`. -/
theorem gauss_F {k : ℝ} (h0 : 0 ≤ k) (h1 : k < 1) {φ : ℝ} (hφ : φ ∈ Set.Icc (-(Real.pi / 2)) (Real.pi / 2)) :
    F (Real.arcsin (gauss (landenStep k) (Real.sin φ))) (k ^ 2) = (1 + landenStep k) * F φ (landenStep k ^ 2) := by
  obtain ⟨g0, g1, -, g3, -⟩ := step_facts h0 h1
  have hm0 : 0 ≤ k ^ 2 := sq_nonneg k
  have hm1 : k ^ 2 < 1 := by nlinarith
  have hn1 : landenStep k ^ 2 < 1 := by nlinarith
  set q := landenStep k with hq
  let G : ℝ → ℝ := fun φ => F (Real.arcsin (gauss q (Real.sin φ))) (k ^ 2) - (1 + q) * F φ (q ^ 2)
  have hF1 : Continuous fun φ => F φ (k ^ 2) :=
    continuous_iff_continuousAt.2 fun x => (F_deriv hm0 hm1 x).continuousAt
  have hF2 : Continuous fun φ => F φ (q ^ 2) :=
    continuous_iff_continuousAt.2 fun x => (F_deriv (sq_nonneg q) hn1 x).continuousAt
  have hG : Continuous G :=
    (hF1.comp (Real.continuous_arcsin.comp ((gauss_cont g0).comp Real.continuous_sin))).sub (continuous_const.mul hF2)
  have hd : ∀ x ∈ Set.Ioo (-(Real.pi / 2)) (Real.pi / 2), HasDerivAt G 0 x := by
    intro x hx
    have hc : 0 < Real.cos x := Real.cos_pos_of_mem_Ioo hx
    have hs2 : Real.sin x ^ 2 < 1 := by nlinarith [Real.sin_sq_add_cos_sq x]
    have hlt := gauss_lt g0 g1 hs2
    have hne1 : gauss q (Real.sin x) ≠ -1 := by rintro h; rw [h] at hlt; norm_num at hlt
    have hne2 : gauss q (Real.sin x) ≠ 1 := by rintro h; rw [h] at hlt; norm_num at hlt
    have d1 := (gauss_deriv g0 (Real.sin x)).comp x (Real.hasDerivAt_sin x)
    have d2 := (Real.hasDerivAt_arcsin hne1 hne2).comp x d1
    have d3 := (F_deriv hm0 hm1 (Real.arcsin (gauss q (Real.sin x)))).comp x d2
    have d4 := (F_deriv (sq_nonneg q) hn1 x).const_mul (1 + q)
    have hsq : gauss q (Real.sin x) ^ 2 ≤ 1 := hlt.le
    rw [Real.sin_arcsin (by nlinarith) (by nlinarith)] at d3
    refine (d3.sub d4).congr_deriv ?_
    have hb : 0 < 1 + q * Real.sin x ^ 2 := by positivity
    have ha : 0 < 1 - q * Real.sin x ^ 2 := by nlinarith [sq_nonneg (Real.sin x)]
    have hr : 0 < 1 - q ^ 2 * Real.sin x ^ 2 := integrand_pos (sq_nonneg q) hn1 x
    have e1 : √(1 - gauss q (Real.sin x) ^ 2)
        = Real.cos x * √(1 - q ^ 2 * Real.sin x ^ 2) / (1 + q * Real.sin x ^ 2) := by
      rw [gauss_one_sub g0, Real.sqrt_div' _ (sq_nonneg _), Real.sqrt_sq hb.le, Real.sqrt_mul' _ hr.le,
        ← Real.cos_sq', Real.sqrt_sq hc.le]
    have e2 : √(1 - k ^ 2 * gauss q (Real.sin x) ^ 2) = (1 - q * Real.sin x ^ 2) / (1 + q * Real.sin x ^ 2) := by
      rw [hq, gauss_comp h0 h1, ← hq, Real.sqrt_sq (by positivity)]
    have hR := Real.sqrt_pos.2 hr
    rw [e1, e2]
    field_simp
    ring
  have h00 : G 0 = 0 := by simp [G, F_zero, gauss]
  have hzero : (0 : ℝ) ∈ Set.Icc (-(Real.pi / 2)) (Real.pi / 2) := by
    constructor <;> linarith [Real.pi_pos]
  have key : ∀ a b : ℝ, a < b → -(Real.pi / 2) ≤ a → b ≤ Real.pi / 2 → G a = G b := by
    intro a b hab ha hb
    obtain ⟨c, hc, e⟩ := exists_hasDerivAt_eq_slope G (fun _ => 0) hab hG.continuousOn
      (fun x hx => hd x ⟨ha.trans_lt hx.1, hx.2.trans_le hb⟩)
    have : G b - G a = 0 := by
      have hba : b - a ≠ 0 := by linarith
      rw [eq_div_iff hba] at e
      linarith
    linarith
  have : G φ = 0 := by
    rcases lt_trichotomy φ 0 with h | h | h
    · rw [key φ 0 h hφ.1 hzero.2, h00]
    · rw [h, h00]
    · rw [← key 0 φ h hzero.1 hφ.2, h00]
  have e := sub_eq_zero.1 this
  exact e

/-- In terms of the sine. -/
theorem gauss_S {k : ℝ} (h0 : 0 ≤ k) (h1 : k < 1) {s : ℝ} (hs : s ^ 2 ≤ 1) :
    F (Real.arcsin (gauss (landenStep k) s)) (k ^ 2) = (1 + landenStep k) * F (Real.arcsin s) (landenStep k ^ 2) := by
  have := gauss_F h0 h1 (φ := Real.arcsin s) ⟨Real.neg_pi_div_two_le_arcsin s, Real.arcsin_le_pi_div_two s⟩
  rwa [Real.sin_arcsin (by nlinarith) (by nlinarith)] at this

/-! ## The descending step inverts the ascending one -/

/-- One step of the loop of `EllipticF`, over the reals. -/
noncomputable def descend (k s : ℝ) : ℝ := s * (2 / ((1 + landenStep k) * (1 + √(1 - (k * s) ^ 2))))

theorem descend_gauss {k s : ℝ} (h0 : 0 ≤ k) (h1 : k < 1) (hs : s ^ 2 ≤ 1) : descend k (gauss (landenStep k) s) = s := by
  obtain ⟨g0, g1, -, g3, -⟩ := step_facts h0 h1
  have hb : 0 < 1 + landenStep k * s ^ 2 := by positivity
  have ha : 0 ≤ 1 - landenStep k * s ^ 2 := by nlinarith [sq_nonneg s]
  rw [descend, mul_pow, gauss_comp h0 h1, Real.sqrt_sq (by positivity), gauss]
  field_simp
  ring

theorem gauss_descend {k s : ℝ} (h0 : 0 ≤ k) (h1 : k < 1) (hs : s ^ 2 ≤ 1) :
    gauss (landenStep k) (descend k s) = s ∧ descend k s ^ 2 ≤ 1 := by
  obtain ⟨g0, g1, -, g3, g4⟩ := step_facts h0 h1
  have hp : 0 ≤ 1 - (k * s) ^ 2 := by nlinarith [mul_le_mul (show k ^ 2 ≤ 1 by nlinarith) hs (sq_nonneg s) one_pos.le]
  have hr0 := Real.sqrt_nonneg (1 - (k * s) ^ 2)
  have hr := Real.sq_sqrt hp
  obtain ⟨c0, c1, hc⟩ := comp_facts h0 h1
  have hge : √(1 - k * k) ≤ √(1 - (k * s) ^ 2) := Real.sqrt_le_sqrt (by nlinarith [mul_le_mul_of_nonneg_left hs (sq_nonneg k)])
  set r := √(1 - (k * s) ^ 2)
  set q := landenStep k
  constructor
  · have hd : descend k s = s * (2 / ((1 + q) * (1 + r))) := rfl
    have hg : gauss q (descend k s) = descend k s * ((1 + q) / (1 + q * descend k s ^ 2)) := rfl
    rw [hg, hd]
    have h2 : (1 + q) * (1 + r) ≠ 0 := by positivity
    have h3 : 1 + q * (s * (2 / ((1 + q) * (1 + r)))) ^ 2 = 2 / (1 + r) := by
      field_simp
      have : 4 * q * s ^ 2 = (1 + q) ^ 2 * (1 - r ^ 2) := by linear_combination (-s ^ 2) * g3 + (1 + q) ^ 2 * hr
      linear_combination this
    rw [h3]
    field_simp
  · rw [descend, mul_pow]
    have h2 : 2 / ((1 + q) * (1 + r)) ≤ 1 := by
      rw [div_le_one (by positivity), ← g4]
      exact mul_le_mul_of_nonneg_left (by linarith) (by positivity)
    have h3 : 0 ≤ 2 / ((1 + q) * (1 + r)) := by positivity
    nlinarith [sq_nonneg s, mul_le_one₀ hs (by positivity) (pow_le_one₀ h3 h2 (n := 2))]

end Verif.Elliptic
