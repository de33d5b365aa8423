import Verif.Model.FloatTwoWay
import Verif.Theorems.FloatDrcCurves

/-! # Lemmas for `Verif.Theorems.FloatTwoWay` -/

namespace Verif.FloatDrc
open Verif.Rounding
open Verif.Drc

theorem relu_shift (x T T' w : ℝ) : smoothReLU x T' w = smoothReLU (x - (T' - T)) T w := by
  unfold smoothReLU
  dsimp only
  rw [show x - (T' - T) - (T - w / 2) = x - (T' - w / 2) by ring, show T - (x - (T' - T)) = T' - x by ring]

theorem relu_lip_T (x T T' w : ℝ) : |smoothReLU x T' w - smoothReLU x T w| ≤ |T' - T| := by
  rw [relu_shift x T T' w]
  refine (lipschitz _ _ _ _).trans ?_
  rw [show x - (T' - T) - x = -(T' - T) by ring, abs_neg]

theorem relu_low {x T w : ℝ} (hw : 0 ≤ w) : min (T - x) 0 - w / 8 ≤ smoothReLU x T w := by
  have h := (relu_corner (x := x) (T := T) hw).2
  have e : smoothReLU x T 0 = min (T - x) 0 := by unfold smoothReLU; rw [if_neg (lt_irrefl _)]
  rw [e] at h
  linarith

/-- The exact compressor under changes of the level, the threshold and the ratio. -/
theorem compressor_pert {x x' T T' r r' w e f g S : ℝ} (hr : 1 ≤ r) (hr' : 1 ≤ r') (hw : 0 ≤ w) (he : |x' - x| ≤ e)
    (hf : |T' - T| ≤ f) (hg : |1 / r' - 1 / r| ≤ g) (hS : |x| + |T| + w ≤ S) :
    |compressor x' T' r' w - compressor x T r w| ≤ e + f + S * g := by
  unfold compressor
  dsimp only
  have i0 : 0 ≤ 1 / r' := by positivity
  have i1 : 1 / r' ≤ 1 := by rw [div_le_one (by linarith)]; exact hr'
  have s1 : |1 - 1 / r'| ≤ 1 := by rw [abs_le]; constructor <;> linarith
  have A : |(x' + smoothReLU x' T' w * (1 - 1 / r')) - (x + smoothReLU x T' w * (1 - 1 / r'))| ≤ |x' - x| := by
    rcases le_total x x' with h | h
    · obtain ⟨h1, h2⟩ := relu_step (T := T') (w := w) h
      rw [abs_of_nonneg (show 0 ≤ x' - x by linarith), abs_le]
      constructor <;> nlinarith
    · obtain ⟨h1, h2⟩ := relu_step (T := T') (w := w) h
      rw [abs_of_nonpos (show x' - x ≤ 0 by linarith), abs_le]
      constructor <;> nlinarith
  have B : |(smoothReLU x T' w - smoothReLU x T w) * (1 - 1 / r')| ≤ f := by
    rw [abs_mul]
    have := mul_le_mul ((relu_lip_T x T T' w).trans hf) s1 (abs_nonneg _) ((abs_nonneg _).trans hf)
    linarith
  have C : |smoothReLU x T w * (1 / r' - 1 / r)| ≤ S * g := by
    rw [abs_mul]
    exact mul_le_mul ((relu_size hw).trans hS) hg (abs_nonneg _) (le_trans (by positivity) hS)
  obtain ⟨a1, a2⟩ := abs_le.1 (A.trans he)
  obtain ⟨b1, b2⟩ := abs_le.1 B
  obtain ⟨c1, c2⟩ := abs_le.1 C
  rw [abs_le]
  constructor <;> linarith

/-- The exact expander under such changes; `M` bounds its slope. -/
theorem expander_pert {x x' T T' r r' w e f g S M : ℝ} (hr' : 0 ≤ r') (hM : 1 ≤ M) (hrM : r' ≤ M) (hw : 0 ≤ w) (he : |x' - x| ≤ e)
    (hf : |T' - T| ≤ f) (hg : |r' - r| ≤ g) (hS : |x| + |T| + w ≤ S) :
    |expander x' T' r' w - expander x T r w| ≤ M * e + M * f + 2 * S * g := by
  unfold expander
  dsimp only
  have A : |(x' + (x' - T' + smoothReLU x' T' w) * (r' - 1)) - (x + (x - T' + smoothReLU x T' w) * (r' - 1))| ≤ M * |x' - x| := by
    rcases le_total x x' with h | h
    · obtain ⟨h1, h2⟩ := relu_step (T := T') (w := w) h
      rw [abs_of_nonneg (show 0 ≤ x' - x by linarith), abs_le]
      have k1 := mul_nonneg (show 0 ≤ M - 1 by linarith) (show 0 ≤ x' - x by linarith)
      have k2 := mul_nonneg (show 0 ≤ M - r' by linarith) (show 0 ≤ x' - x by linarith)
      have k3 := mul_nonneg (show 0 ≤ M - 1 by linarith) h1
      have k4 := mul_nonneg (show 0 ≤ M - r' by linarith) h1
      have k5 := mul_nonneg (show 0 ≤ M - 1 by linarith) (sub_nonneg.2 h2)
      have k6 := mul_nonneg (show 0 ≤ M - r' by linarith) (sub_nonneg.2 h2)
      have k7 := mul_nonneg hr' h1
      have k8 := mul_nonneg hr' (sub_nonneg.2 h2)
      constructor <;> linarith
    · obtain ⟨h1, h2⟩ := relu_step (T := T') (w := w) h
      rw [abs_of_nonpos (show x' - x ≤ 0 by linarith), abs_le]
      have k1 := mul_nonneg (show 0 ≤ M - 1 by linarith) (show 0 ≤ x - x' by linarith)
      have k2 := mul_nonneg (show 0 ≤ M - r' by linarith) (show 0 ≤ x - x' by linarith)
      have k3 := mul_nonneg (show 0 ≤ M - 1 by linarith) h1
      have k4 := mul_nonneg (show 0 ≤ M - r' by linarith) h1
      have k5 := mul_nonneg (show 0 ≤ M - 1 by linarith) (sub_nonneg.2 h2)
      have k6 := mul_nonneg (show 0 ≤ M - r' by linarith) (sub_nonneg.2 h2)
      have k7 := mul_nonneg hr' h1
      have k8 := mul_nonneg hr' (sub_nonneg.2 h2)
      constructor <;> linarith
  have D : |(x - T' + smoothReLU x T' w) - (x - T + smoothReLU x T w)| ≤ f := by
    rw [relu_shift x T T' w]
    refine le_trans ?_ hf
    rcases le_total T T' with h | h
    · obtain ⟨h1, h2⟩ := relu_step (T := T) (w := w) (show x - (T' - T) ≤ x by linarith)
      rw [abs_of_nonneg (show 0 ≤ T' - T by linarith), abs_le]
      constructor <;> linarith
    · obtain ⟨h1, h2⟩ := relu_step (T := T) (w := w) (show x ≤ x - (T' - T) by linarith)
      rw [abs_of_nonpos (show T' - T ≤ 0 by linarith), abs_le]
      constructor <;> linarith
  have B : |((x - T' + smoothReLU x T' w) - (x - T + smoothReLU x T w)) * (r' - 1)| ≤ M * f := by
    rw [abs_mul, mul_comm M f]
    exact mul_le_mul D (by rw [abs_le]; constructor <;> linarith) (abs_nonneg _) ((abs_nonneg _).trans hf)
  have C : |(x - T + smoothReLU x T w) * (r' - r)| ≤ 2 * S * g := by
    rw [abs_mul]
    refine mul_le_mul ?_ hg (abs_nonneg _) (by have := le_trans (by positivity) hS; linarith)
    have := relu_size (x := x) (T := T) hw
    have h1 := abs_add_le (x - T) (smoothReLU x T w)
    have h2 := abs_sub x T
    linarith
  have E := mul_le_mul_of_nonneg_left he (show 0 ≤ M by linarith)
  obtain ⟨a1, a2⟩ := abs_le.1 (A.trans E)
  obtain ⟨b1, b2⟩ := abs_le.1 B
  obtain ⟨c1, c2⟩ := abs_le.1 C
  rw [abs_le]
  constructor <;> linarith

theorem compressor_size {x T r w A : ℝ} (hr : 1 ≤ r) (hw : 0 ≤ w) (hx : |x| ≤ A) (hT : |T| ≤ A) :
    |compressor x T r w| ≤ A + w / 8 := by
  unfold compressor
  dsimp only
  have i0 : 0 ≤ 1 / r := by positivity
  have i1 : 1 / r ≤ 1 := by rw [div_le_one (by linarith)]; exact hr
  have h0 := relu_nonpos (x := x) (T := T) (w := w)
  have h1 := relu_low (x := x) (T := T) hw
  obtain ⟨x1, x2⟩ := abs_le.1 hx
  obtain ⟨t1, t2⟩ := abs_le.1 hT
  have m : -A - x ≤ min (T - x) 0 := le_min (by linarith) (by linarith)
  have k1 := mul_nonneg (neg_nonneg.2 h0) i0
  have k2 := mul_nonneg (neg_nonneg.2 h0) (sub_nonneg.2 i1)
  rw [abs_le]
  constructor <;> linarith

theorem expander_size {x T r w A : ℝ} (h0 : 0 ≤ r) (hr : r ≤ 1) (hw : 0 ≤ w) (hx : |x| ≤ A) (hT : |T| ≤ A) :
    |expander x T r w| ≤ A + w / 8 := by
  unfold expander
  dsimp only
  have h1 := relu_low (x := x) (T := T) hw
  have h2 := relu_le_ramp (x := x) (T := T) (w := w)
  obtain ⟨x1, x2⟩ := abs_le.1 hx
  obtain ⟨t1, t2⟩ := abs_le.1 hT
  have m : x - A ≤ x - T + min (T - x) 0 := by
    rcases le_total (T - x) 0 with h | h
    · rw [min_eq_left h]; linarith
    · rw [min_eq_right h]; linarith
  have k1 := mul_nonneg (neg_nonneg.2 h2) h0
  have k2 := mul_nonneg (neg_nonneg.2 h2) (sub_nonneg.2 hr)
  rw [abs_le]
  constructor <;> linarith

end Verif.FloatDrc
