import Verif.Proof.ParametricEqualizer4
import Mathlib.Analysis.Real.Pi.Bounds

/-! # Bands whose digital stages have degree two -/

namespace Verif.ParametricEqualizer
open Verif.BiquadCascade Verif.FilterDesign Verif.BiquadAnalysis Verif.AuditoryFilterbank Spec

theorem factor_mono {x y : ℝ} (h : x ≤ y) : factor x ≤ factor y := by
  unfold factor
  exact Real.rpow_le_rpow_of_exponent_le (by norm_num) (by linarith)

theorem factor_neg (x : ℝ) : factor (-x) = 1 / factor x := by
  have h := factor_add x (-x)
  rw [add_neg_cancel, factor_zero] at h
  have := factor_pos x
  field_simp
  linarith

theorem shelf_lower {A u v Q : ℝ} (hA : 0 < A) (hv : 0 ≤ v) (huv : v ^ 2 + u ^ 2 = 1) (hQ : 51 / 100 ≤ Q) :
    1 / 30 * min A 1 ≤ (A + 1) + (A - 1) * u - v * √A / Q := by
  have hu1 : u ≤ 1 := by nlinarith
  have hu2 : -1 ≤ u := by nlinarith
  have hs := Real.sq_sqrt hA.le
  have hs0 := Real.sqrt_nonneg A
  have h1 : v * √A / Q ≤ 100 / 51 * (v * √A) := by
    rw [div_le_iff₀ (by linarith)]
    nlinarith [mul_nonneg hv hs0]
  have hX0 : 0 < (A + 1) + (A - 1) * u := shelf_sum_pos hA hu2 hu1
  have h2 : 2 * (v * √A) ≤ (A + 1) + (A - 1) * u := by
    apply le_of_sq_le_sq _ hX0.le
    have e : (2 * (v * √A)) ^ 2 = 4 * A * v ^ 2 := by rw [mul_pow, mul_pow, hs]; ring
    rw [e]
    nlinarith [sq_nonneg (A * (1 + u) - (1 - u))]
  have h3 : 2 * min A 1 ≤ (A + 1) + (A - 1) * u := by
    have m1 := min_le_left A 1
    have m2 := min_le_right A 1
    nlinarith
  linarith

theorem trig_args {rate f : ℝ} (h0 : 0 < f) (h1 : f < rate / 2) :
    0 ≤ Real.sin (2 * Real.pi * f / rate) ∧
      Real.sin (2 * Real.pi * f / rate) ^ 2 + Real.cos (2 * Real.pi * f / rate) ^ 2 = 1 := by
  have hr : 0 < rate := by linarith
  refine ⟨Real.sin_nonneg_of_nonneg_of_le_pi ?_ ?_, Real.sin_sq_add_cos_sq _⟩
  · have := Real.pi_pos; positivity
  · rw [div_le_iff₀ hr]
    nlinarith [Real.pi_pos]

theorem sqrt_factor_lower {g : ℝ} (h : -100 ≤ g) : 1 / 10 ^ 3 ≤ √(factor g) := by
  have h1 := factor_mono h
  have h2 : factor (-100) = 1 / 10 ^ 5 := by
    unfold factor
    rw [show (-100 : ℝ) / 20 = -(5 : ℕ) by norm_num, Real.rpow_neg (by norm_num), Real.rpow_natCast]
    norm_num
  rw [h2] at h1
  apply Real.le_sqrt_of_sq_le
  refine le_trans ?_ h1
  norm_num

theorem second_of_ge {c : Stage ℝ} {x y : ℝ} (hb : c.b.getD 2 0 = x) (ha : c.a.getD 2 0 = y) (hx : 1 / 10 ^ 10 < x)
    (hy : 1 / 10 ^ 10 < y) : SecondOrder c := by
  refine ⟨?_, ?_⟩
  · rw [hb]; exact lt_of_lt_of_le hx (le_abs_self x)
  · rw [ha]; exact lt_of_lt_of_le hy (le_abs_self y)

theorem second_lowShelf {rate f Q g : ℝ} (h0 : 0 < f) (h1 : f < rate / 2) (hQ : 51 / 100 ≤ Q) (hg : -100 ≤ g) :
    ∃ c, design rate ⟨.lowShelf, f, Q, g⟩ = some c ∧ SecondOrder c := by
  unfold design lowShelf
  dsimp only
  rw [dbToLinear_eq, if_pos ⟨⟨h1, h0, by linarith⟩, factor_pos g⟩]
  refine ⟨_, rfl, ?_⟩
  have hA := sqrt_factor_lower hg
  have hA0 : 0 < √(factor g) := lt_of_lt_of_le (by norm_num) hA
  obtain ⟨t1, t2⟩ := trig_args h0 h1
  have k1 := shelf_lower hA0 t1 t2 hQ
  have k2 := shelf_lower (u := -Real.cos (2 * Real.pi * f / rate)) hA0 t1 (by rw [neg_sq]; exact t2) hQ
  have m : 1 / 10 ^ 3 ≤ min (√(factor g)) 1 := le_min hA (by norm_num)
  refine ⟨lt_of_lt_of_le ?_ (le_abs_self _), lt_of_lt_of_le ?_ (le_abs_self _)⟩ <;>
    simp only [List.getD_cons_succ, List.getD_cons_zero]
  · refine lt_of_lt_of_le (by norm_num : (1 : ℝ) / 10 ^ 10 < 1 / 10 ^ 3 * (1 / 30 * (1 / 10 ^ 3))) ?_
    exact mul_le_mul hA (by linarith) (by norm_num) hA0.le
  · refine lt_of_lt_of_le (by norm_num : (1 : ℝ) / 10 ^ 10 < 1 / 30 * (1 / 10 ^ 3)) ?_
    linarith

theorem second_highShelf {rate f Q g : ℝ} (h0 : 0 < f) (h1 : f < rate / 2) (hQ : 51 / 100 ≤ Q) (hg : -100 ≤ g) :
    ∃ c, design rate ⟨.highShelf, f, Q, g⟩ = some c ∧ SecondOrder c := by
  unfold design highShelf
  dsimp only
  rw [dbToLinear_eq, if_pos ⟨⟨h1, h0, by linarith⟩, factor_pos g⟩]
  refine ⟨_, rfl, ?_⟩
  have hA := sqrt_factor_lower hg
  have hA0 : 0 < √(factor g) := lt_of_lt_of_le (by norm_num) hA
  obtain ⟨t1, t2⟩ := trig_args h0 h1
  have k1 := shelf_lower hA0 t1 t2 hQ
  have k2 := shelf_lower (u := -Real.cos (2 * Real.pi * f / rate)) hA0 t1 (by rw [neg_sq]; exact t2) hQ
  have m : 1 / 10 ^ 3 ≤ min (√(factor g)) 1 := le_min hA (by norm_num)
  refine ⟨lt_of_lt_of_le ?_ (le_abs_self _), lt_of_lt_of_le ?_ (le_abs_self _)⟩ <;>
    simp only [List.getD_cons_succ, List.getD_cons_zero]
  · refine lt_of_lt_of_le (by norm_num : (1 : ℝ) / 10 ^ 10 < 1 / 10 ^ 3 * (1 / 30 * (1 / 10 ^ 3))) ?_
    exact mul_le_mul hA (by linarith) (by norm_num) hA0.le
  · refine lt_of_lt_of_le (by norm_num : (1 : ℝ) / 10 ^ 10 < 1 / 30 * (1 / 10 ^ 3)) ?_
    linarith

/-- The last coefficients of the bilinear transform. -/
theorem bilinear_last {n0 n1 n2 d0 d1 d2 rate f : ℝ} {c : Stage ℝ}
    (h : bilinearTransform [n0, n1, n2] [d0, d1, d2] rate f = some c) :
    c.b.getD 2 0 = (n0 * computeK f rate ^ 2 - n1 * computeK f rate + n2) /
        (d0 * computeK f rate ^ 2 + d1 * computeK f rate + d2) ∧
      c.a.getD 2 0 = (d0 * computeK f rate ^ 2 - d1 * computeK f rate + d2) /
        (d0 * computeK f rate ^ 2 + d1 * computeK f rate + d2) := by
  unfold bilinearTransform at h
  split_ifs at h with hc
  rw [← Option.some.inj h]
  unfold FilterDesign.normalize bilinearMap
  simp only [List.map_cons, List.getD_cons_succ, List.getD_cons_zero]
  constructor <;> (congr 1 <;> ring)

theorem third_le {K w n d : ℝ} (hK : 0 < K) (hw : 0 < w) (hn : n ≤ 198 / 100 * w) (hd0 : 0 < d) (hd : d ≤ 198 / 100 * w) :
    1 / 400 ≤ (K ^ 2 - n * K + w * w) / (K ^ 2 + d * K + w * w) := by
  have : 0 < K ^ 2 + d * K + w * w := by positivity
  rw [le_div_iff₀ this]
  nlinarith [sq_nonneg (K - w), mul_le_mul_of_nonneg_right hn hK.le, mul_le_mul_of_nonneg_right hd hK.le]

theorem second_peak {rate f Q g : ℝ} (h0 : 0 < f) (h1 : f < rate / 2) (hQ0 : 0 < Q) (hg : factor |g| ≤ 198 / 100 * Q) :
    ∃ c, design rate ⟨.peak, f, Q, g⟩ = some c ∧ SecondOrder c := by
  have hr : 0 < rate := by linarith
  have hw : 0 < 2 * Real.pi * f := by have := Real.pi_pos; positivity
  have hK := computeK_pos hr h0.le h1
  obtain ⟨c, e1, e2⟩ := peak_core (g := g) h0 h1 hQ0
  refine ⟨c, e1, ?_⟩
  obtain ⟨l1, l2⟩ := bilinear_last e2
  have hG := factor_pos g
  have hQ : 1 ≤ 198 / 100 * Q := by
    have := factor_mono (abs_nonneg g)
    rw [factor_zero] at this
    linarith
  have g1 : factor g ≤ 198 / 100 * Q := le_trans (factor_mono (le_abs_self g)) hg
  have g2 : 1 / factor g ≤ 198 / 100 * Q := by
    rw [← factor_neg]
    exact le_trans (factor_mono (neg_le_abs g)) hg
  have bd : ∀ x : ℝ, x ≤ 198 / 100 * Q → x * (2 * Real.pi * f / Q) ≤ 198 / 100 * (2 * Real.pi * f) := by
    intro x hx
    rw [mul_div_assoc', div_le_iff₀ hQ0]
    nlinarith
  have b1 : (if 1 ≤ factor g then factor g else 1) * (2 * Real.pi * f / Q) ≤ 198 / 100 * (2 * Real.pi * f) := by
    apply bd
    split_ifs
    · exact g1
    · exact hQ
  have b2 : (if 1 ≤ factor g then 1 else 1 / factor g) * (2 * Real.pi * f / Q) ≤ 198 / 100 * (2 * Real.pi * f) := by
    apply bd
    split_ifs
    · exact hQ
    · exact g2
  have b3 : 0 < (if 1 ≤ factor g then 1 else 1 / factor g) * (2 * Real.pi * f / Q) := by
    split_ifs <;> positivity
  have t1 := third_le hK hw b1 b3 b2
  have t2 := third_le hK hw b2 b3 b2
  rw [one_mul] at l1 l2
  exact second_of_ge l1 l2 (lt_of_lt_of_le (by norm_num) t1) (lt_of_lt_of_le (by norm_num) t2)

theorem second_peak_clear {rate f Q g : ℝ} (h0 : 0 < f) (h1 : f < rate / 2) (hQ0 : 0 < Q)
    (hg : PeakClear rate ⟨.peak, f, Q, g⟩) : ∃ c, design rate ⟨.peak, f, Q, g⟩ = some c ∧ SecondOrder c := by
  have hr : 0 < rate := by linarith
  have hK := computeK_pos hr h0.le h1
  obtain ⟨c, e1, e2⟩ := peak_core (g := g) h0 h1 hQ0
  refine ⟨c, e1, ?_⟩
  obtain ⟨l1, l2⟩ := bilinear_last e2
  obtain ⟨hf, c1, c2⟩ := hg
  dsimp only at hf c1 c2
  have hm := computeK_match hr (le_trans (by gcongr <;> norm_num) hf) h1
  have ht : 0 < Real.tan (Real.pi * f / rate) := by
    have := Real.pi_pos
    apply Real.tan_pos_of_pos_of_lt_pi_div_two (by positivity)
    rw [div_lt_iff₀ hr]
    nlinarith
  have hG := factor_pos g
  have m1 : (if 1 ≤ factor g then factor g else 1) = max (factor g) 1 := by
    split_ifs with h
    · exact (max_eq_left h).symm
    · exact (max_eq_right (not_le.1 h).le).symm
  have m2 : (if 1 ≤ factor g then 1 else 1 / factor g) = max 1 (1 / factor g) := by
    split_ifs with h
    · rw [max_eq_left]; rw [div_le_one hG]; exact h
    · rw [max_eq_right]; rw [le_div_iff₀ hG]; linarith
  rw [m1, m2] at l1
  rw [m2] at l2
  have d0 : 0 < max 1 (1 / factor g) := lt_of_lt_of_le one_pos (le_max_left _ _)
  generalize max (factor g) 1 = n at *
  generalize max 1 (1 / factor g) = d at *
  generalize computeK f rate = K at *
  generalize Real.tan (Real.pi * f / rate) = t at *
  have w : 2 * Real.pi * f = K * t := by linarith
  rw [w] at l1 l2
  have D : 0 < 1 + d / Q * t + t ^ 2 := by positivity
  have e : ∀ x : ℝ, (1 * K ^ 2 - x * (K * t / Q) * K + K * t * (K * t)) / (1 * K ^ 2 + d * (K * t / Q) * K + K * t * (K * t)) =
      (1 - x / Q * t + t ^ 2) / (1 + d / Q * t + t ^ 2) := by
    intro x
    rw [show 1 * K ^ 2 - x * (K * t / Q) * K + K * t * (K * t) = K ^ 2 * (1 - x / Q * t + t ^ 2) by ring,
      show 1 * K ^ 2 + d * (K * t / Q) * K + K * t * (K * t) = K ^ 2 * (1 + d / Q * t + t ^ 2) by ring,
      mul_div_mul_left _ _ (by positivity)]
  rw [e] at l1 l2
  constructor
  · rw [l1, abs_div, abs_of_pos D, lt_div_iff₀ D]; exact c1
  · rw [l2, abs_div, abs_of_pos D, lt_div_iff₀ D]; exact c2

theorem second_lowpass {rate f Q g : ℝ} (h0 : 0 < f) (h1 : f < rate / 2) (hQ : 51 / 100 ≤ Q) (hf : rate / 10 ^ 4 ≤ f) :
    ∃ c, design rate ⟨.lowpass, f, Q, g⟩ = some c ∧ SecondOrder c := by
  have hr : 0 < rate := by linarith
  have hQ0 : 0 < Q := by linarith
  have hw : 0 < 2 * Real.pi * f := by have := Real.pi_pos; positivity
  have hK := computeK_pos hr h0.le h1
  obtain ⟨c, e1, e2⟩ := design_known (rate := rate) (s := ⟨.lowpass, f, Q, g⟩) ⟨h0, h1, hQ0⟩
  refine ⟨c, e1, ?_⟩
  unfold design lowpass at e1
  dsimp only at e1
  rw [if_pos ⟨h1, h0, hQ0⟩] at e1
  obtain ⟨l1, l2⟩ := bilinear_last e1
  have b2 : 2 * Real.pi * f / Q ≤ 198 / 100 * (2 * Real.pi * f) := by
    rw [div_le_iff₀ hQ0]
    nlinarith
  have b3 : 0 < 2 * Real.pi * f / Q := by positivity
  have t2 := third_le hK hw b2 b3 b2
  rw [one_mul] at l1 l2
  have hm := computeK_match hr (le_trans (by gcongr <;> norm_num) hf) h1
  have ht : 1 / 10 ^ 4 ≤ Real.tan (Real.pi * f / rate) := by
    have hx0 : 0 ≤ Real.pi * f / rate := by have := Real.pi_pos; positivity
    have hx1 : Real.pi * f / rate < Real.pi / 2 := by
      rw [div_lt_iff₀ hr]
      nlinarith [Real.pi_pos]
    have := Real.le_tan hx0 hx1
    refine le_trans ?_ this
    rw [le_div_iff₀ hr]
    have : f ≤ Real.pi * f := by nlinarith [Real.pi_gt_three]
    linarith
  have hKw : computeK f rate ≤ 10 ^ 4 * (2 * Real.pi * f) := by
    nlinarith
  have t1 : 1 / 10 ^ 9 ≤ (0 * computeK f rate ^ 2 - 0 * computeK f rate + 2 * Real.pi * f * (2 * Real.pi * f)) /
      (computeK f rate ^ 2 + 2 * Real.pi * f / Q * computeK f rate + 2 * Real.pi * f * (2 * Real.pi * f)) := by
    generalize computeK f rate = K at *
    generalize 2 * Real.pi * f = w at *
    have : 0 < K ^ 2 + w / Q * K + w * w := by positivity
    rw [le_div_iff₀ this]
    have q1 : K ^ 2 ≤ (10 ^ 4 * w) ^ 2 := pow_le_pow_left₀ hK.le hKw 2
    have q2 : w / Q * K ≤ 198 / 100 * w * (10 ^ 4 * w) := mul_le_mul b2 hKw hK.le (by positivity)
    nlinarith [mul_pos hw hw]
  exact second_of_ge l1 l2 (lt_of_lt_of_le (by norm_num) t1) (lt_of_lt_of_le (by norm_num) t2)

theorem second_highpass {rate f Q g : ℝ} (h0 : 0 < f) (h1 : f ≤ rate / 4) (hQ : 51 / 100 ≤ Q) (hf : rate / 10 ^ 4 ≤ f) :
    ∃ c, design rate ⟨.highpass, f, Q, g⟩ = some c ∧ SecondOrder c := by
  have hr : 0 < rate := by linarith
  have h1' : f < rate / 2 := by linarith
  have hQ0 : 0 < Q := by linarith
  have hw : 0 < 2 * Real.pi * f := by have := Real.pi_pos; positivity
  have hK := computeK_pos hr h0.le h1'
  obtain ⟨c, e1, e2⟩ := design_known (rate := rate) (s := ⟨.highpass, f, Q, g⟩) ⟨h0, h1', hQ0⟩
  refine ⟨c, e1, ?_⟩
  unfold design highpass at e1
  dsimp only at e1
  rw [if_pos ⟨h1', h0, hQ0⟩] at e1
  obtain ⟨l1, l2⟩ := bilinear_last e1
  have b2 : 2 * Real.pi * f / Q ≤ 198 / 100 * (2 * Real.pi * f) := by
    rw [div_le_iff₀ hQ0]
    nlinarith
  have b3 : 0 < 2 * Real.pi * f / Q := by positivity
  have t2 := third_le hK hw b2 b3 b2
  rw [one_mul] at l1 l2
  have hm := computeK_match hr (le_trans (by gcongr <;> norm_num) hf) h1'
  have ht : Real.tan (Real.pi * f / rate) ≤ 1 := by
    rw [← Real.tan_pi_div_four]
    rcases eq_or_lt_of_le (show Real.pi * f / rate ≤ Real.pi / 4 by
      rw [div_le_iff₀ hr]; nlinarith [Real.pi_pos]) with h | h
    · rw [h]
    · apply le_of_lt
      apply Real.tan_lt_tan_of_nonneg_of_lt_pi_div_two
      · have := Real.pi_pos; positivity
      · linarith [Real.pi_pos]
      · exact h
  have hKw : 2 * Real.pi * f ≤ computeK f rate := by
    nlinarith
  have t1 : 1 / 4 ≤ (1 * computeK f rate ^ 2 - 0 * computeK f rate + 0) /
      (computeK f rate ^ 2 + 2 * Real.pi * f / Q * computeK f rate + 2 * Real.pi * f * (2 * Real.pi * f)) := by
    generalize computeK f rate = K at *
    generalize 2 * Real.pi * f = w at *
    have : 0 < K ^ 2 + w / Q * K + w * w := by positivity
    rw [le_div_iff₀ this]
    nlinarith [mul_le_mul_of_nonneg_right b2 hK.le]
  rw [one_mul] at t1
  exact second_of_ge l1 l2 (lt_of_lt_of_le (by norm_num) t1) (lt_of_lt_of_le (by norm_num) t2)

theorem design_second {rate : ℝ} {s : Band} (h : BandOk rate s) (hm : Moderate rate s) :
    ∃ c, design rate s = some c ∧ SecondOrder c := by
  obtain ⟨k, f, Q, g⟩ := s
  obtain ⟨h0, h1, hQ⟩ := h
  cases k with
  | lowpass => exact second_lowpass h0 h1 hm.1 hm.2
  | lowShelf => exact second_lowShelf h0 h1 hm.1 hm.2
  | peak =>
    rcases hm with hm | hm
    · exact second_peak h0 h1 hQ hm
    · exact second_peak_clear h0 h1 hQ hm
  | highShelf => exact second_highShelf h0 h1 hm.1 hm.2
  | highpass => exact second_highpass h0 hm.2.2 hm.1 hm.2.1

end Verif.ParametricEqualizer
