import Verif.Proof.DrcCurves
import Mathlib.Tactic.NormNum

/-!
# C29: dynamic range control curves
-/

namespace Verif.Drc

/-- **C29.** For every level, threshold, positive ratio and nonnegative knee width the compressor,
the limiter and the expander compute the documented piecewise formulas. -/
theorem C29_formula (x T r w : ℝ) (_hr : 0 < r) (hw : 0 ≤ w) :
    compressor x T r w = Spec.compressor x T r w ∧
    limiter x T w = Spec.limiter x T w ∧
    expander x T r w = Spec.expander x T r w :=
  ⟨compressor_eq hw, limiter_eq hw, expander_eq hw⟩

/-- **C29.** A louder input never gives a quieter output, and there are no jumps. -/
theorem C29_monotone_continuous (T r w : ℝ) (hr : 0 < r) :
    (Monotone (fun x => compressor x T r w) ∧ Continuous (fun x => compressor x T r w)) ∧
    (Monotone (fun x => limiter x T w) ∧ Continuous (fun x => limiter x T w)) ∧
    (Monotone (fun x => expander x T r w) ∧ Continuous (fun x => expander x T r w)) :=
  ⟨⟨fun _ _ h => compressor_step hr h, compressor_continuous⟩,
    ⟨fun _ _ h => limiter_step h, relu_continuous.add continuous_id⟩,
    ⟨fun _ _ h => expander_step hr.le h, expander_continuous⟩⟩

/-- **C29.** With a positive knee width the curves have no corners: they are differentiable
everywhere, and the slope goes linearly from one side's slope to the other's over the knee. -/
theorem C29_smooth (T r w x : ℝ) (hw : 0 < w) :
    HasDerivAt (fun x => compressor x T r w)
      (1 + (1 / r - 1) * min (max ((x - (T - w / 2)) / w) 0) 1) x ∧
    HasDerivAt (fun x => limiter x T w)
      (1 - min (max ((x - (T - w / 2)) / w) 0) 1) x ∧
    HasDerivAt (fun x => expander x T r w)
      (r + (1 - r) * min (max ((x - (T - w / 2)) / w) 0) 1) x := by
  have h := relu_deriv (T := T) hw x
  have e : x - (T - w / 2) = x - T + w / 2 := by ring
  rw [e]
  refine ⟨?_, ?_, ?_⟩
  · have := (hasDerivAt_id x).add (h.mul_const (1 - 1 / r))
    refine this.congr_deriv ?_; ring
  · have := h.add (hasDerivAt_id x)
    refine this.congr_deriv ?_; ring
  · have := (hasDerivAt_id x).add
      ((((hasDerivAt_id x).sub_const T).add h).mul_const (r - 1))
    refine this.congr_deriv ?_; ring

/-- **C29.** Direction and bounds: with ratio at least one the compressor and the expander never
raise the level; the limiter never raises it, never exceeds its threshold and never stays above the
compressor; and a knee deviates from the curve with a corner by at most
`|slope change| * width / 8`, downwards. -/
theorem C29_bounds (x T r w : ℝ) (hr : 1 ≤ r) (hw : 0 ≤ w) :
    compressor x T r w ≤ x ∧ expander x T r w ≤ x ∧ limiter x T w ≤ x ∧ limiter x T w ≤ T ∧
    limiter x T w ≤ compressor x T r w ∧
    (0 ≤ compressor x T r 0 - compressor x T r w ∧
      compressor x T r 0 - compressor x T r w ≤ (1 - 1 / r) * w / 8) ∧
    (0 ≤ limiter x T 0 - limiter x T w ∧ limiter x T 0 - limiter x T w ≤ w / 8) ∧
    (0 ≤ expander x T r 0 - expander x T r w ∧
      expander x T r 0 - expander x T r w ≤ (r - 1) * w / 8) := by
  have h1 := relu_nonpos (x := x) (T := T) (w := w)
  have h2 := relu_le_ramp (x := x) (T := T) (w := w)
  obtain ⟨h3, h4⟩ := relu_corner (x := x) (T := T) hw
  have hr0 : 0 < r := by linarith
  have hs : 0 ≤ 1 - 1 / r := by
    have : 1 / r ≤ 1 := by rw [div_le_one hr0]; exact hr
    linarith
  have hs1 : 0 < 1 / r := one_div_pos.2 hr0
  unfold compressor expander limiter
  dsimp only
  refine ⟨?_, ?_, ?_, ?_, ?_, ⟨?_, ?_⟩, ⟨?_, ?_⟩, ⟨?_, ?_⟩⟩ <;> nlinarith

/-- **C29.** A parameter set with a positive soft ratio is accepted exactly when thresholds ascend
and the ratios are ordered as documented; the curve is then monotone and continuous whatever the
knees. -/
theorem C29_two_way_monotone (p : TwoWay) (hs : 0 < p.soft.ratio) :
    ((∀ x, (twoWay x p).isSome) ↔
      p.expander.threshold ≤ p.upwards.threshold ∧ p.upwards.threshold ≤ p.soft.threshold ∧
      p.soft.threshold ≤ p.hard.threshold ∧ 1 ≤ p.expander.ratio ∧ 1 ≤ p.upwards.ratio ∧
      p.soft.ratio ≤ p.hard.ratio) ∧
    (∀ x y, x ≤ y → ∀ a b, twoWay x p = some a → twoWay y p = some b → a ≤ b) ∧
    Continuous fun x => (twoWay x p).getD 0 := by
  refine ⟨?_, ?_, ?_⟩
  · rw [← verify_iff]
    unfold twoWay
    split_ifs with h <;> simp [h]
  · intro x y hxy a b ha hb
    unfold twoWay at ha hb
    split_ifs at ha hb with h
    obtain ⟨_, _, _, h4, h5, h6⟩ := verify_none h
    simp only [Option.some.injEq] at ha hb
    rw [← ha, ← hb]
    unfold adjustedRatio
    have hu : 0 < 1 / p.upwards.ratio := one_div_pos.2 (by linarith)
    exact expander_step (div_nonneg (by linarith) hu.le) (expander_step hu.le
      (compressor_step (div_pos (by linarith) hs) (compressor_step hs hxy)))
  · unfold twoWay
    split_ifs with h
    · simp only [Option.getD_some]
      exact expander_continuous.comp (expander_continuous.comp
        (compressor_continuous.comp compressor_continuous))
    · exact continuous_const

/-- **C29.** The two-way compressor, for every accepted parameter set with soft ratio at least one
(the documented requirement) and nonnegative knees: at every level whose distance from each
threshold is at least the stated multiple of half that threshold's knee (no condition when the
knees are zero), the output is the documented curve: expansion, upwards compression, unity, soft
and hard compression. -/
theorem C29_two_way (p : TwoWay) (x : ℝ)
    (T1 : p.expander.threshold ≤ p.upwards.threshold)
    (T2 : p.upwards.threshold ≤ p.soft.threshold) (T3 : p.soft.threshold ≤ p.hard.threshold)
    (R1 : 1 ≤ p.expander.ratio) (R2 : 1 ≤ p.upwards.ratio) (R3 : 1 ≤ p.soft.ratio)
    (R4 : p.soft.ratio ≤ p.hard.ratio)
    (K1 : 0 ≤ p.expander.knee) (K2 : 0 ≤ p.upwards.knee) (K3 : 0 ≤ p.soft.knee)
    (K4 : 0 ≤ p.hard.knee)
    (F1 : p.hard.ratio * p.upwards.ratio * (p.expander.knee / 2) ≤ |x - p.expander.threshold|)
    (F2 : p.hard.ratio * (p.upwards.knee / 2) ≤ |x - p.upwards.threshold|)
    (F3 : p.soft.knee / 2 ≤ |x - p.soft.threshold|)
    (F4 : p.soft.ratio * (p.hard.knee / 2) ≤ |x - p.hard.threshold|) :
    twoWay x p = some (Spec.twoWayHard x p.expander.threshold p.expander.ratio
      p.upwards.threshold p.upwards.ratio p.soft.threshold p.soft.ratio
      p.hard.threshold p.hard.ratio) := by
  have hv : verifyParams p = .none := verify_iff.2 ⟨T1, T2, T3, R1, R2, R4⟩
  have hs0 : 0 < p.soft.ratio := by linarith
  have hh0 : 0 < p.hard.ratio := by linarith
  have hu0 : 0 < p.upwards.ratio := by linarith
  have hra : 1 ≤ adjustedRatio p.hard.ratio p.soft.ratio := by
    unfold adjustedRatio; rw [le_div_iff₀ hs0]; linarith
  have hur : 1 / p.upwards.ratio ≤ 1 := by rw [div_le_one hu0]; exact R2
  have hur0 : 0 < 1 / p.upwards.ratio := one_div_pos.2 hu0
  unfold twoWay
  rw [if_pos hv]
  dsimp only
  -- each knee is left on one side
  rw [comp_far K3 F3]
  have G4 : p.hard.knee / 2 ≤ |compressor x p.soft.threshold p.soft.ratio 0 -
      compressor p.hard.threshold p.soft.threshold p.soft.ratio 0| := by
    refine le_trans ?_ (comp_slope R3)
    rw [le_div_iff₀ hs0]; linarith
  rw [comp_far K4 G4]
  have slopeZ : ∀ y, |x - y| / p.hard.ratio ≤
      |compressor (compressor x p.soft.threshold p.soft.ratio 0)
          (compressor p.hard.threshold p.soft.threshold p.soft.ratio 0)
          (adjustedRatio p.hard.ratio p.soft.ratio) 0 -
        compressor (compressor y p.soft.threshold p.soft.ratio 0)
          (compressor p.hard.threshold p.soft.threshold p.soft.ratio 0)
          (adjustedRatio p.hard.ratio p.soft.ratio) 0| := by
    intro y
    refine le_trans ?_ (comp_slope hra)
    refine le_trans (le_of_eq ?_) (div_le_div_of_nonneg_right (comp_slope R3) (by linarith))
    unfold adjustedRatio
    field_simp
  have fixZ : ∀ y, y ≤ p.soft.threshold →
      compressor (compressor y p.soft.threshold p.soft.ratio 0)
          (compressor p.hard.threshold p.soft.threshold p.soft.ratio 0)
          (adjustedRatio p.hard.ratio p.soft.ratio) 0 = y := by
    intro y hy
    rw [soft_hard hs0 R4 T3, if_pos hy]
  have sU := slopeZ p.upwards.threshold
  rw [fixZ _ T2] at sU
  have sE := slopeZ p.expander.threshold
  rw [fixZ _ (T1.trans T2)] at sE
  have hz := soft_hard (x := x) hs0 R4 T3
  generalize compressor (compressor x p.soft.threshold p.soft.ratio 0)
          (compressor p.hard.threshold p.soft.threshold p.soft.ratio 0)
          (adjustedRatio p.hard.ratio p.soft.ratio) 0 = z at *
  have G2 : p.upwards.knee / 2 ≤ |z - p.upwards.threshold| := by
    refine le_trans ?_ sU
    rw [le_div_iff₀ hh0]; linarith
  rw [exp_far K2 G2]
  have G1 : p.expander.knee / 2 ≤ |expander z p.upwards.threshold (1 / p.upwards.ratio) 0 -
      expander p.expander.threshold p.upwards.threshold (1 / p.upwards.ratio) 0| := by
    refine le_trans ?_ (exp_slope hur)
    refine le_trans ?_ (mul_le_mul_of_nonneg_right sE hur0.le)
    rw [← div_eq_mul_one_div, div_div, le_div_iff₀ (mul_pos hh0 hu0)]; linarith
  rw [exp_far K1 G1, exp0_le T1]
  have hTe : p.upwards.threshold + (p.expander.threshold - p.upwards.threshold) *
      (1 / p.upwards.ratio) = p.upwards.threshold +
        (p.expander.threshold - p.upwards.threshold) / p.upwards.ratio := by ring
  rw [hTe]
  have hneg : (p.expander.threshold - p.upwards.threshold) / p.upwards.ratio ≤ 0 :=
    div_nonpos_of_nonpos_of_nonneg (by linarith) hu0.le
  unfold Spec.twoWayHard adjustedRatio
  congr 1
  by_cases c3 : x ≤ p.soft.threshold
  · rw [if_pos c3] at hz
    subst hz
    by_cases c1 : z ≤ p.expander.threshold
    · rw [if_pos c1, exp0_le (c1.trans T1)]
      have : (z - p.upwards.threshold) * (1 / p.upwards.ratio) ≤
          (p.expander.threshold - p.upwards.threshold) / p.upwards.ratio := by
        rw [← div_eq_mul_one_div]; gcongr
      rw [exp0_le (by linarith)]
      field_simp; ring
    · rw [if_neg c1]
      push Not at c1
      by_cases c2 : z ≤ p.upwards.threshold
      · rw [if_pos c2, exp0_le c2]
        have : (p.expander.threshold - p.upwards.threshold) / p.upwards.ratio ≤
            (z - p.upwards.threshold) * (1 / p.upwards.ratio) := by
          rw [← div_eq_mul_one_div]; gcongr
        rw [exp0_ge (by linarith)]; ring
      · rw [if_neg c2, if_pos c3]
        push Not at c2
        rw [exp0_ge c2.le, exp0_ge (by linarith)]
  · rw [if_neg c3] at hz
    push Not at c3
    rw [if_neg (by linarith), if_neg (by linarith), if_neg (by linarith), ← hz]
    have hzs : p.soft.threshold ≤ z := by
      rw [hz]
      split_ifs with c4
      · have : 0 ≤ (x - p.soft.threshold) / p.soft.ratio := div_nonneg (by linarith) hs0.le
        linarith
      · push Not at c4
        have h1 : 0 ≤ (p.hard.threshold - p.soft.threshold) / p.soft.ratio :=
          div_nonneg (by linarith) hs0.le
        have h2 : 0 ≤ (x - p.hard.threshold) / p.hard.ratio := div_nonneg (by linarith) hh0.le
        linarith
    rw [exp0_ge (x := z) (T := p.upwards.threshold) (by linarith), exp0_ge (by linarith)]

/-- **C29 (violation).** `VerifyParams` accepts parameters that break the documented requirements:
a soft ratio below one (the "downwards compressor" then raises levels above its threshold), and a
soft ratio of zero or below; nor are the knees checked. -/
theorem C29_verify_violation :
    (∃ p : TwoWay, ∃ x y, p.soft.ratio = 1 / 2 ∧ twoWay x p = some y ∧
      p.soft.threshold < x ∧ x < p.hard.threshold ∧ x < y) ∧
    (∃ p : TwoWay, ∃ x₁ x₂ y₁ y₂, p.soft.ratio = -1 ∧ p.soft.knee = -1 ∧ x₁ < x₂ ∧
      twoWay x₁ p = some y₁ ∧ twoWay x₂ p = some y₂ ∧ y₂ < y₁) := by
  constructor
  · refine ⟨⟨{}, {}, { ratio := 1 / 2 }, { ratio := 1, threshold := 10 }⟩, 5, 10, rfl, ?_,
      by norm_num, by norm_num, by norm_num⟩
    unfold twoWay
    rw [if_pos (verify_iff.2 (by norm_num))]
    norm_num [compressor, expander, adjustedRatio, smoothReLU]
  · refine ⟨⟨{}, {}, { ratio := -1, knee := -1 }, {}⟩, 1, 2, -1, -2,
      rfl, rfl, by norm_num, ?_, ?_, by norm_num⟩ <;>
    · unfold twoWay
      rw [if_pos (verify_iff.2 (by norm_num))]
      norm_num [compressor, expander, adjustedRatio, smoothReLU]

/-- The usual broadcast profile meets the hypotheses, and all five regions occur. -/
example (x : ℝ) (p : TwoWay)
    (hp : p = ⟨⟨2, -60, 0⟩, ⟨2, -40, 0⟩, ⟨2, -20, 0⟩, ⟨10, 0, 0⟩⟩) :
    twoWay x p = some (Spec.twoWayHard x (-60) 2 (-40) 2 (-20) 2 0 10) := by
  subst hp
  apply C29_two_way <;> norm_num

example : Spec.twoWayHard (-70) (-60) 2 (-40) 2 (-20) 2 0 10 = -70 ∧
    Spec.twoWayHard (-50) (-60) 2 (-40) 2 (-20) 2 0 10 = -45 ∧
    Spec.twoWayHard (-30) (-60) 2 (-40) 2 (-20) 2 0 10 = -30 ∧
    Spec.twoWayHard (-10) (-60) 2 (-40) 2 (-20) 2 0 10 = -15 ∧
    Spec.twoWayHard 10 (-60) 2 (-40) 2 (-20) 2 0 10 = -9 := by
  norm_num [Spec.twoWayHard]

/-- A knee condition that is met with nonzero knees. -/
example : twoWay (-30) ⟨⟨2, -60, 1⟩, ⟨2, -40, 1⟩, ⟨2, -20, 4⟩, ⟨10, 0, 4⟩⟩ = some (-30) := by
  rw [C29_two_way] <;> norm_num [Spec.twoWayHard]

/-- The compressor inside its knee: -20 dB input, threshold -20 dB, ratio 4, knee 8 dB. -/
example : compressor (-20) (-20) 4 8 = -20 - 3 / 4 := by
  rw [(C29_formula _ _ _ _ (by norm_num) (by norm_num)).1]; norm_num [Spec.compressor]

end Verif.Drc
