import Verif.Model.DrcCurves
import Verif.Spec.DrcCurves
import Mathlib.Tactic.Linarith
import Mathlib.Tactic.FieldSimp
import Mathlib.Tactic.Ring
import Mathlib.Tactic.LinearCombination
import Mathlib.Tactic.Positivity
import Mathlib.Analysis.Calculus.Deriv.Basic
import Mathlib.Analysis.Calculus.Deriv.Add
import Mathlib.Analysis.Calculus.Deriv.Mul
import Mathlib.Analysis.Calculus.Deriv.Pow
import Mathlib.Analysis.Calculus.Deriv.Comp

/-!
# Lemmas about the dynamic range control curves
-/

namespace Verif.Drc

theorem relu_below {x T w : ℝ} (hw : 0 ≤ w) (h : x - T ≤ -(w / 2)) : smoothReLU x T w = 0 := by
  unfold smoothReLU
  split_ifs with h0
  · dsimp only
    rw [max_eq_right (by linarith), max_eq_right (by linarith), min_eq_left h0.le]; ring
  · rw [min_eq_right (by linarith)]

theorem relu_above {x T w : ℝ} (hw : 0 ≤ w) (h : w / 2 ≤ x - T) :
    smoothReLU x T w = -(x - T) := by
  unfold smoothReLU
  split_ifs with h0
  · dsimp only
    rw [max_eq_left (by linarith), max_eq_left (by linarith), min_eq_right (by linarith)]
    field_simp; ring
  · rw [min_eq_left (by linarith)]; ring

theorem relu_knee {x T w : ℝ} (h1 : -(w / 2) ≤ x - T) (h2 : x - T ≤ w / 2) (hw : 0 < w) :
    smoothReLU x T w = -(x - T + w / 2) ^ 2 / (w * 2) := by
  unfold smoothReLU
  rw [if_pos hw]; dsimp only
  rw [max_eq_left (by linarith), max_eq_right (by linarith), min_eq_left (by linarith)]
  field_simp; ring

/-- A difference of two squared ramps. -/
theorem relu_ramps {x T w : ℝ} (hw : 0 < w) : smoothReLU x T w =
    -(max (x - T + w / 2) 0 ^ 2 - max (x - T - w / 2) 0 ^ 2) / (w * 2) := by
  rcases le_total (x - T) (-(w / 2)) with h | h
  · rw [relu_below hw.le h, max_eq_right (by linarith), max_eq_right (by linarith)]; simp
  · rcases le_total (x - T) (w / 2) with h' | h'
    · rw [relu_knee h h' hw, max_eq_left (by linarith), max_eq_right (by linarith)]; simp
    · rw [relu_above hw.le h', max_eq_left (by linarith), max_eq_left (by linarith)]
      field_simp; ring

theorem ramp_sq_step {w s t : ℝ} (hw : 0 < w) (h : s ≤ t) :
    0 ≤ (max t 0 ^ 2 - max (t - w) 0 ^ 2) - (max s 0 ^ 2 - max (s - w) 0 ^ 2) ∧
      (max t 0 ^ 2 - max (t - w) 0 ^ 2) - (max s 0 ^ 2 - max (s - w) 0 ^ 2) ≤ 2 * w * (t - s) := by
  rcases le_total t 0 with a | a <;> rcases le_total s 0 with b | b <;>
    rcases le_total (t - w) 0 with c | c <;> rcases le_total (s - w) 0 with d | d <;>
    simp only [max_eq_left, max_eq_right, a, b, c, d] <;> constructor <;> nlinarith

theorem relu_step {x y T w : ℝ} (h : x ≤ y) :
    0 ≤ smoothReLU x T w - smoothReLU y T w ∧
      smoothReLU x T w - smoothReLU y T w ≤ y - x := by
  by_cases hw : 0 < w
  · obtain ⟨h1, h2⟩ := ramp_sq_step (s := x - T + w / 2) (t := y - T + w / 2) hw (by linarith)
    rw [relu_ramps hw, relu_ramps hw]
    have e : ∀ z : ℝ, z - T + w / 2 - w = z - T - w / 2 := fun z => by ring
    rw [e, e] at h1 h2
    have hw2 : 0 < w * 2 := by linarith
    rw [← sub_div]
    constructor
    · exact div_nonneg (by linarith) hw2.le
    · rw [div_le_iff₀ hw2]; linarith
  · unfold smoothReLU
    rw [if_neg hw, if_neg hw]
    rcases le_total (T - x) 0 with a | a <;> rcases le_total (T - y) 0 with b | b <;>
      simp only [min_eq_left, min_eq_right, a, b] <;> constructor <;> linarith

theorem relu_nonpos {x T w : ℝ} : smoothReLU x T w ≤ 0 := by
  by_cases hw : 0 < w
  · have h := (relu_step (T := T) (w := w) (min_le_left x (T - w / 2))).1
    rw [relu_below (x := min x (T - w / 2)) hw.le
      (by linarith [min_le_right x (T - w / 2)])] at h
    linarith
  · unfold smoothReLU; rw [if_neg hw]; exact min_le_right _ _

theorem relu_le_ramp {x T w : ℝ} : x - T + smoothReLU x T w ≤ 0 := by
  by_cases hw : 0 < w
  · have h := (relu_step (T := T) (w := w) (le_max_left x (T + w / 2))).2
    rw [relu_above (x := max x (T + w / 2)) hw.le
      (by linarith [le_max_right x (T + w / 2)])] at h
    linarith
  · unfold smoothReLU; rw [if_neg hw]; linarith [min_le_left (T - x) 0]

/-- The knee lies below the corner, by at most an eighth of its width. -/
theorem relu_corner {x T w : ℝ} (hw : 0 ≤ w) : 0 ≤ smoothReLU x T 0 - smoothReLU x T w ∧
    smoothReLU x T 0 - smoothReLU x T w ≤ w / 8 := by
  rcases le_total (x - T) (-(w / 2)) with h | h
  · rw [relu_below hw h, relu_below le_rfl (by linarith)]; constructor <;> linarith
  · rcases le_total (x - T) (w / 2) with h' | h'
    · rcases hw.eq_or_lt with rfl | hw
      · constructor <;> linarith
      rw [relu_knee h h' hw]
      have hw2 : 0 < w * 2 := by linarith
      have e : -(x - T + w / 2) ^ 2 / (w * 2) * (w * 2) = -(x - T + w / 2) ^ 2 :=
        div_mul_cancel₀ _ hw2.ne'
      generalize -(x - T + w / 2) ^ 2 / (w * 2) = q at *
      rcases le_total (x - T) 0 with b | b
      · rw [relu_below le_rfl (by linarith)]
        constructor
        · by_contra hc; push Not at hc; nlinarith
        · by_contra hc; push Not at hc; nlinarith
      · rw [relu_above le_rfl (by linarith)]
        constructor
        · by_contra hc; push Not at hc; nlinarith [sq_nonneg (x - T - w / 2)]
        · by_contra hc; push Not at hc; nlinarith [sq_nonneg (x - T - w / 2)]
    · rw [relu_above hw h', relu_above le_rfl (by linarith)]; constructor <;> linarith

theorem hasDerivAt_ramp_sq (t : ℝ) : HasDerivAt (fun t : ℝ => max t 0 ^ 2) (2 * max t 0) t := by
  have key : ∀ t s : ℝ, |max s 0 ^ 2 - max t 0 ^ 2 - (s - t) * (2 * max t 0)| ≤ (s - t) ^ 2 := by
    intro t s
    rcases le_total s 0 with a | a <;> rcases le_total t 0 with b | b <;>
      simp only [max_eq_left, max_eq_right, a, b] <;> rw [abs_le] <;> constructor <;> nlinarith
  rw [hasDerivAt_iff_isLittleO]
  refine Asymptotics.IsBigO.trans_isLittleO (g := fun s => (s - t) ^ 2) ?_ ?_
  · refine Asymptotics.IsBigO.of_bound 1 (Filter.Eventually.of_forall fun s => ?_)
    rw [Real.norm_eq_abs, Real.norm_eq_abs, abs_of_nonneg (sq_nonneg (s - t)), one_mul]
    exact key t s
  · have h : Filter.Tendsto (fun s : ℝ => s - t) (nhds t) (nhds 0) := by
      have := (continuous_id.sub (continuous_const (y := t))).tendsto t
      rwa [Pi.sub_apply, id, sub_self] at this
    have := (Asymptotics.isLittleO_one_iff ℝ).2 h
    have h2 := (Asymptotics.isBigO_refl (fun s : ℝ => s - t) (nhds t)).mul_isLittleO this
    simpa [sq] using h2

theorem relu_deriv {T w : ℝ} (hw : 0 < w) (x : ℝ) :
    HasDerivAt (fun x => smoothReLU x T w) (-min (max ((x - T + w / 2) / w) 0) 1) x := by
  have e : (fun x => smoothReLU x T w) =
      fun x => -(max (x - T + w / 2) 0 ^ 2 - max (x - T - w / 2) 0 ^ 2) / (w * 2) := by
    funext x; exact relu_ramps hw
  rw [e]
  have h1 := (hasDerivAt_ramp_sq (x - T + w / 2)).comp x
    (((hasDerivAt_id x).sub_const T).add_const (w / 2))
  have h2 := (hasDerivAt_ramp_sq (x - T - w / 2)).comp x
    (((hasDerivAt_id x).sub_const T).sub_const (w / 2))
  have h := ((h1.sub h2).neg).div_const (w * 2)
  refine HasDerivAt.congr_deriv h ?_
  rcases le_total (x - T) (-(w / 2)) with h | h
  · rw [max_eq_right (div_nonpos_of_nonpos_of_nonneg (by linarith) hw.le), min_eq_left zero_le_one,
      max_eq_right (by linarith), max_eq_right (by linarith)]; simp
  · rw [max_eq_left (div_nonneg (by linarith) hw.le), max_eq_left (a := x - T + w / 2) (by linarith)]
    rcases le_total (x - T) (w / 2) with h' | h'
    · rw [min_eq_left (by rw [div_le_one hw]; linarith), max_eq_right (by linarith)]
      field_simp; ring
    · rw [min_eq_right (by rw [le_div_iff₀ hw]; linarith), max_eq_left (by linarith)]
      field_simp; ring

theorem compressor_eq {x T r w : ℝ} (hw : 0 ≤ w) :
    compressor x T r w = Spec.compressor x T r w := by
  unfold compressor Spec.compressor; dsimp only
  split_ifs with h1 h2
  · rw [relu_below hw h1]; ring
  · rw [relu_above hw h2]; ring
  · push Not at h1 h2
    rw [relu_knee h1.le h2.le (by linarith)]; ring

theorem limiter_eq {x T w : ℝ} (hw : 0 ≤ w) : limiter x T w = Spec.limiter x T w := by
  unfold limiter Spec.limiter
  split_ifs with h1 h2
  · rw [relu_below hw h1]; ring
  · rw [relu_above hw h2]; ring
  · push Not at h1 h2
    rw [relu_knee h1.le h2.le (by linarith)]; ring

theorem expander_eq {x T r w : ℝ} (hw : 0 ≤ w) :
    expander x T r w = Spec.expander x T r w := by
  unfold expander Spec.expander; dsimp only
  split_ifs with h1 h2
  · rw [relu_above hw h1]; ring
  · rw [relu_below hw h2]; ring
  · push Not at h1 h2
    have hw : 0 < w := by linarith
    rw [relu_knee h2.le h1.le hw]
    field_simp; ring

theorem compressor_step {x y T r w : ℝ} (hr : 0 < r) (h : x ≤ y) :
    compressor x T r w ≤ compressor y T r w := by
  obtain ⟨h1, h2⟩ := relu_step (T := T) (w := w) h
  unfold compressor; dsimp only
  have := (one_div_pos.2 hr)
  nlinarith

theorem limiter_step {x y T w : ℝ} (h : x ≤ y) : limiter x T w ≤ limiter y T w := by
  obtain ⟨h1, h2⟩ := relu_step (T := T) (w := w) h
  unfold limiter; linarith

theorem expander_step {x y T r w : ℝ} (hr : 0 ≤ r) (h : x ≤ y) :
    expander x T r w ≤ expander y T r w := by
  obtain ⟨h1, h2⟩ := relu_step (T := T) (w := w) h
  unfold expander; dsimp only
  nlinarith

theorem relu_continuous {T w : ℝ} : Continuous fun x => smoothReLU x T w := by
  have : LipschitzWith 1 fun x => smoothReLU x T w := by
    refine LipschitzWith.of_dist_le_mul fun x y => ?_
    rw [Real.dist_eq, Real.dist_eq, NNReal.coe_one, one_mul]
    rcases le_total x y with h | h
    · obtain ⟨h1, h2⟩ := relu_step (T := T) (w := w) h
      rw [abs_of_nonneg h1, abs_of_nonpos (by linarith)]; linarith
    · obtain ⟨h1, h2⟩ := relu_step (T := T) (w := w) h
      rw [abs_of_nonpos (by linarith), abs_of_nonneg (by linarith)]; linarith
  exact this.continuous

theorem compressor_continuous {T r w : ℝ} : Continuous fun x => compressor x T r w :=
  continuous_id.add (relu_continuous.mul continuous_const)

theorem expander_continuous {T r w : ℝ} : Continuous fun x => expander x T r w :=
  continuous_id.add (((continuous_id.sub continuous_const).add relu_continuous).mul
    continuous_const)

/-! ### The hard-knee stages -/

theorem comp0_le {x T r : ℝ} (h : x ≤ T) : compressor x T r 0 = x := by
  unfold compressor; dsimp only; rw [relu_below le_rfl (by linarith)]; ring

theorem comp0_ge {x T r : ℝ} (h : T ≤ x) : compressor x T r 0 = T + (x - T) / r := by
  unfold compressor; dsimp only; rw [relu_above le_rfl (by linarith)]; ring

theorem exp0_ge {x T r : ℝ} (h : T ≤ x) : expander x T r 0 = x := by
  unfold expander; dsimp only; rw [relu_above le_rfl (by linarith)]; ring

theorem exp0_le {x T r : ℝ} (h : x ≤ T) : expander x T r 0 = T + (x - T) * r := by
  unfold expander; dsimp only; rw [relu_below le_rfl (by linarith)]; ring

theorem relu_far {x T w : ℝ} (hw : 0 ≤ w) (h : w / 2 ≤ |x - T|) :
    smoothReLU x T w = smoothReLU x T 0 := by
  rcases le_abs'.1 h with h | h
  · rw [relu_below hw h, relu_below le_rfl (by linarith)]
  · rw [relu_above hw h, relu_above le_rfl (by linarith)]

theorem comp_far {x T r w : ℝ} (hw : 0 ≤ w) (h : w / 2 ≤ |x - T|) :
    compressor x T r w = compressor x T r 0 := by
  unfold compressor; dsimp only; rw [relu_far hw h]

theorem exp_far {x T r w : ℝ} (hw : 0 ≤ w) (h : w / 2 ≤ |x - T|) :
    expander x T r w = expander x T r 0 := by
  unfold expander; dsimp only; rw [relu_far hw h]

theorem verify_none {p : TwoWay} (h : verifyParams p = .none) :
    p.expander.threshold ≤ p.upwards.threshold ∧ p.upwards.threshold ≤ p.soft.threshold ∧
      p.soft.threshold ≤ p.hard.threshold ∧ 1 ≤ p.expander.ratio ∧ 1 ≤ p.upwards.ratio ∧
      p.soft.ratio ≤ p.hard.ratio := by
  unfold verifyParams at h
  split_ifs at h with h1 h2 h3 h4 h5 h6
  exact ⟨not_lt.1 h1, not_lt.1 h2, not_lt.1 h3, not_lt.1 h4, not_lt.1 h5, not_lt.1 h6⟩

theorem verify_iff {p : TwoWay} : verifyParams p = .none ↔
    p.expander.threshold ≤ p.upwards.threshold ∧ p.upwards.threshold ≤ p.soft.threshold ∧
      p.soft.threshold ≤ p.hard.threshold ∧ 1 ≤ p.expander.ratio ∧ 1 ≤ p.upwards.ratio ∧
      p.soft.ratio ≤ p.hard.ratio := by
  refine ⟨verify_none, fun ⟨h1, h2, h3, h4, h5, h6⟩ => ?_⟩
  unfold verifyParams
  rw [if_neg h1.not_gt, if_neg h2.not_gt, if_neg h3.not_gt, if_neg h4.not_gt, if_neg h5.not_gt,
    if_neg h6.not_gt]

theorem comp_slope {x y T r w : ℝ} (hr : 1 ≤ r) :
    |x - y| / r ≤ |compressor x T r w - compressor y T r w| := by
  have key : ∀ x y, x ≤ y → (y - x) / r ≤ compressor y T r w - compressor x T r w := by
    intro x y h
    obtain ⟨h1, h2⟩ := relu_step (T := T) (w := w) h
    have hr0 : 0 < r := by linarith
    have hs : 1 / r ≤ 1 := by rw [div_le_one hr0]; exact hr
    unfold compressor; dsimp only
    rw [div_eq_mul_one_div]
    nlinarith
  rcases le_total x y with h | h
  · rw [abs_sub_comm x, abs_sub_comm (compressor x T r w), abs_of_nonneg (by linarith)]
    exact (key x y h).trans (le_abs_self _)
  · rw [abs_of_nonneg (by linarith)]
    exact (key y x h).trans (le_abs_self _)

theorem exp_slope {x y T r w : ℝ} (hr : r ≤ 1) :
    |x - y| * r ≤ |expander x T r w - expander y T r w| := by
  have key : ∀ x y, x ≤ y → (y - x) * r ≤ expander y T r w - expander x T r w := by
    intro x y h
    obtain ⟨h1, h2⟩ := relu_step (T := T) (w := w) h
    unfold expander; dsimp only
    nlinarith
  rcases le_total x y with h | h
  · rw [abs_sub_comm x, abs_sub_comm (expander x T r w), abs_of_nonneg (by linarith)]
    exact (key x y h).trans (le_abs_self _)
  · rw [abs_of_nonneg (by linarith)]
    exact (key y x h).trans (le_abs_self _)

/-- Soft and hard compression with zero knees. -/
theorem soft_hard {x Ts rs Th rh : ℝ} (hrs : 0 < rs) (hrh : rs ≤ rh) (hT : Ts ≤ Th) :
    compressor (compressor x Ts rs 0) (compressor Th Ts rs 0) (adjustedRatio rh rs) 0 =
      if x ≤ Ts then x else if x ≤ Th then Ts + (x - Ts) / rs
        else Ts + (Th - Ts) / rs + (x - Th) / rh := by
  have hh : 0 < rh := by linarith
  rw [comp0_ge hT]
  have hTh : 0 ≤ (Th - Ts) / rs := div_nonneg (by linarith) hrs.le
  split_ifs with h1 h2
  · rw [comp0_le h1, comp0_le (by linarith)]
  · push Not at h1
    have : (x - Ts) / rs ≤ (Th - Ts) / rs := by gcongr
    rw [comp0_ge h1.le, comp0_le (by linarith)]
  · push Not at h1 h2
    have : (Th - Ts) / rs ≤ (x - Ts) / rs := by gcongr
    rw [comp0_ge h1.le, comp0_ge (by linarith)]
    unfold adjustedRatio
    field_simp; ring

end Verif.Drc
