import Verif.Model.FloatDrcCurves
import Verif.Proof.FloatQuadratic
import Verif.Proof.DrcCurves

/-! # Lemmas for `Verif.Theorems.FloatDrcCurves` -/

namespace Verif.FloatDrc
open Verif.Rounding
open Verif.FloatQuadratic (r32 muladd_error)
open Verif.Drc (smoothReLU relu_step relu_nonpos)

theorem mono {a b : ℝ} (h : a ≤ b) : binary32 a ≤ binary32 b := binary32_regular.mono h

theorem zero : binary32 0 = 0 := binary32_regular.zero

theorem rnonneg {a : ℝ} (h : 0 ≤ a) : 0 ≤ binary32 a := by have := mono h; rwa [zero] at this

theorem rnonpos {a : ℝ} (h : a ≤ 0) : binary32 a ≤ 0 := by have := mono h; rwa [zero] at this

/-- The rounded curve is never positive. -/
theorem relu_le_zero {x T w y : ℝ} (h : IsSmoothReLU binary32 x T w y) : y ≤ 0 := by
  unfold IsSmoothReLU at h
  split_ifs at h with hw
  · obtain ⟨s, hs, rfl⟩ := h
    generalize binary32 (x - binary32 (T - binary32 (w / 2))) = t at hs
    have hp : 0 ≤ min (max t 0) w * t := by
      rcases le_total t 0 with ht | ht
      · rw [max_eq_right ht, min_eq_left hw.le]; simp
      · exact mul_nonneg (le_min (le_max_right _ _) hw.le) ht
    have hk : 0 ≤ binary32 (1 / w) := rnonneg (by positivity)
    have hm : 0 ≤ max (binary32 (t - w)) 0 := le_max_right _ _
    have s0 : 0 ≤ s := by
      rcases hs with hs | hs <;> rw [hs]
      · exact rnonneg (add_nonneg (rnonneg (mul_nonneg (rnonneg hp) hk)) hm)
      · exact rnonneg (add_nonneg (mul_nonneg (rnonneg hp) hk) hm)
    exact rnonpos (by linarith)
  · rw [h]; exact min_le_right _ _

/-- Below the knee it is exactly zero. -/
theorem relu_zero {x T w y : ℝ} (hx : binary32 x = x) (hw2 : binary32 (w / 2) = w / 2) (hxT : x ≤ T - w / 2)
    (hw : 0 ≤ w) (h : IsSmoothReLU binary32 x T w y) : y = 0 := by
  unfold IsSmoothReLU at h
  split_ifs at h with hw0
  · obtain ⟨s, hs, rfl⟩ := h
    rw [hw2] at hs
    have h1 := mono hxT
    rw [hx] at h1
    have ht := rnonpos (show x - binary32 (T - w / 2) ≤ 0 by linarith)
    generalize binary32 (x - binary32 (T - w / 2)) = t at *
    rw [max_eq_right ht, min_eq_left hw, zero_mul, zero,
      max_eq_right (rnonpos (show t - w ≤ 0 by linarith))] at hs
    have s0 : s = 0 := by
      rcases hs with hs | hs <;> rw [hs] <;> simp [zero]
    rw [s0, mul_zero, zero]
  · rw [h]
    exact min_eq_right (rnonneg (by linarith))

theorem lipschitz (x x' T w : ℝ) : |smoothReLU x T w - smoothReLU x' T w| ≤ |x - x'| := by
  rcases le_total x x' with h | h
  · obtain ⟨h1, h2⟩ := relu_step (T := T) (w := w) h
    rw [abs_of_nonneg h1, abs_sub_comm, abs_of_nonneg (by linarith)]; exact h2
  · obtain ⟨h1, h2⟩ := relu_step (T := T) (w := w) h
    rw [abs_sub_comm, abs_of_nonneg h1, abs_of_nonneg (by linarith)]; exact h2

theorem max_lip (a b : ℝ) : |max a 0 - max b 0| ≤ |a - b| := by
  have h1 := abs_max_sub_max_le_max a 0 b 0
  rwa [sub_self, abs_zero, max_eq_left (b := (0 : ℝ)) (abs_nonneg _)] at h1

set_option maxHeartbeats 1000000 in
/-- Its error. -/
theorem relu_error {x T w y : ℝ} (hw : w = 0 ∨ 1 / 2 ^ 20 ≤ w ∧ w ≤ 2 ^ 100) (h : IsSmoothReLU binary32 x T w y) :
    |y - smoothReLU x T w| ≤ 12 / 2 ^ 24 * (|x| + |T| + w) + 1 / 2 ^ 120 := by
  have hx := abs_le.1 (le_refl |x|)
  have hT := abs_le.1 (le_refl |T|)
  obtain ⟨x1, x2⟩ := hx
  obtain ⟨T1, T2⟩ := hT
  have ax := abs_nonneg x
  have aT := abs_nonneg T
  have η0 : (0 : ℝ) < 1 / 2 ^ 150 := by positivity
  have e120 : (1 : ℝ) / 2 ^ 120 = 2 ^ 30 * (1 / 2 ^ 150) := by norm_num
  rcases hw with rfl | ⟨w1, w2⟩
  · unfold IsSmoothReLU at h
    rw [if_neg (lt_irrefl _)] at h
    unfold smoothReLU
    rw [if_neg (lt_irrefl _), h, e120]
    have h1 := abs_min_sub_min_le_max (binary32 (T - x)) 0 (T - x) 0
    rw [sub_self, abs_zero, max_eq_left (b := (0 : ℝ)) (abs_nonneg _)] at h1
    have h2 := r32 (x := T - x) (B := |x| + |T|) (by rw [abs_le]; constructor <;> linarith)
    generalize (1 : ℝ) / 2 ^ 150 = η at *
    linarith
  have w0 : 0 < w := lt_of_lt_of_le (by positivity) w1
  unfold IsSmoothReLU at h
  rw [if_pos w0] at h
  obtain ⟨s, hs, hy⟩ := h
  obtain ⟨S, hS⟩ : ∃ S, S = |x| + |T| + w := ⟨_, rfl⟩
  rw [← hS, e120]
  -- the argument
  obtain ⟨a1, a2⟩ := abs_le.1 (r32 (x := w / 2) (B := w / 2) (abs_of_pos (by linarith)).le)
  generalize binary32 (w / 2) = hw' at *
  obtain ⟨b1, b2⟩ := abs_le.1 (r32 (x := T - hw') (B := 1.01 * S + 1 / 2 ^ 150) (by
    rw [abs_le]; constructor <;> linarith))
  generalize binary32 (T - hw') = st at *
  obtain ⟨c1, c2⟩ := abs_le.1 (r32 (x := x - st) (B := 1.02 * S + 3 * (1 / 2 ^ 150)) (by
    rw [abs_le]; constructor <;> linarith))
  generalize binary32 (x - st) = t at *
  have tS : |t| ≤ 1.01 * S + 4 * (1 / 2 ^ 150) := by rw [abs_le]; constructor <;> linarith
  have terr : |t - (x - (T - w / 2))| ≤ 3 / 2 ^ 24 * S + 4 * (1 / 2 ^ 150) := by rw [abs_le]; constructor <;> linarith
  obtain ⟨t1, t2⟩ := abs_le.1 tS
  -- the exact curve at the rounded argument
  have ex : smoothReLU (t + (T - w / 2)) T w = -(1 / 2) * (min (max t 0) w * t * (1 / w) + max (t - w) 0) := by
    unfold smoothReLU
    rw [if_pos w0]
    dsimp only
    rw [show t + (T - w / 2) - (T - w / 2) = t by ring]
  have L := lipschitz (t + (T - w / 2)) x T w
  rw [show t + (T - w / 2) - x = t - (x - (T - w / 2)) by ring, ex] at L
  -- the product
  obtain ⟨a, ha⟩ : ∃ a, a = min (max t 0) w * t := ⟨_, rfl⟩
  have a0 : 0 ≤ a := by
    rw [ha]
    rcases le_total t 0 with ht | ht
    · rw [max_eq_right ht, min_eq_left w0.le]; simp
    · exact mul_nonneg (le_min (le_max_right _ _) w0.le) ht
  have aw : a * (1 / w) ≤ 1.01 * S + 4 * (1 / 2 ^ 150) := by
    have : a ≤ w * |t| := by
      rw [ha]
      refine (le_abs_self _).trans ?_
      rw [abs_mul]
      refine mul_le_mul_of_nonneg_right ?_ (abs_nonneg _)
      rw [abs_of_nonneg (le_min (le_max_right _ _) w0.le)]
      exact min_le_right _ _
    rw [mul_one_div, div_le_iff₀ w0]
    nlinarith
  rw [← ha] at hs L
  have iw0 : 0 < 1 / w := by positivity
  have iw1 : 1 / w ≤ 2 ^ 20 := by rw [div_le_iff₀ w0]; linarith
  have iw2 : 1 / 2 ^ 100 ≤ 1 / w := one_div_le_one_div_of_le w0 w2
  have K := binary32_accurate (1 / w)
  have A := binary32_accurate a
  rw [abs_of_pos iw0] at K
  rw [abs_of_nonneg a0] at A
  have ηw : (1 : ℝ) / 2 ^ 150 ≤ 1 / 2 ^ 40 * (1 / w) := by
    have : (1 : ℝ) / 2 ^ 150 ≤ 1 / 2 ^ 40 * (1 / 2 ^ 100) := by norm_num
    linarith
  obtain ⟨k1, k2⟩ := abs_le.1 K
  have K' : |binary32 (1 / w) - 1 / w| ≤ 1.01 / 2 ^ 24 * (1 / w) := by rw [abs_le]; constructor <;> linarith
  have kpos : |binary32 (1 / w)| ≤ 1.01 * (1 / w) := by rw [abs_le]; constructor <;> linarith
  generalize binary32 (1 / w) = kv at *
  have P : |binary32 a * kv - a * (1 / w)| ≤ 2.03 / 2 ^ 24 * (a * (1 / w)) + 2 ^ 21 * (1 / 2 ^ 150) := by
    have e : binary32 a * kv - a * (1 / w) = (binary32 a - a) * kv + a * (kv - 1 / w) := by ring
    rw [e]
    refine (abs_add_le _ _).trans ?_
    rw [abs_mul, abs_mul, abs_of_nonneg a0]
    have h1 := mul_le_mul A kpos (abs_nonneg _) (by positivity)
    have h2 := mul_le_mul_of_nonneg_left K' a0
    have h3 : (1 : ℝ) / 2 ^ 150 * (1 / w) ≤ 1 / 2 ^ 150 * 2 ^ 20 := mul_le_mul_of_nonneg_left iw1 η0.le
    have h4 : 0 ≤ a * (1 / w) := by positivity
    generalize (1 : ℝ) / 2 ^ 150 = η at *
    nlinarith
  obtain ⟨p1, p2⟩ := abs_le.1 P
  have aw0 : 0 ≤ a * (1 / w) := by positivity
  generalize a * (1 / w) = q at *
  have PB : |binary32 a * kv| ≤ 1.02 * S + 2 ^ 22 * (1 / 2 ^ 150) := by
    generalize (1 : ℝ) / 2 ^ 150 = η at *
    rw [abs_le]; constructor <;> linarith
  -- the ramp
  have R := r32 (x := t - w) (B := 2.02 * S + 4 * (1 / 2 ^ 150)) (by rw [abs_le]; constructor <;> linarith)
  have R' := (max_lip (binary32 (t - w)) (t - w)).trans R
  obtain ⟨r1, r2⟩ := abs_le.1 R'
  have m0 : 0 ≤ max (t - w) 0 := le_max_right _ _
  have m1 : max (t - w) 0 ≤ 1.01 * S + 4 * (1 / 2 ^ 150) := max_le (by linarith) (by linarith)
  generalize max (binary32 (t - w)) 0 = g at *
  generalize max (t - w) 0 = g' at *
  have G : |g| ≤ 1.02 * S + 2 ^ 4 * (1 / 2 ^ 150) := by
    generalize (1 : ℝ) / 2 ^ 150 = η at *
    rw [abs_le]; constructor <;> linarith
  have V := muladd_error hs PB G
  rw [show (3 : ℝ) / 2 ^ 150 = 3 * (1 / 2 ^ 150) by ring] at V
  obtain ⟨v1, v2⟩ := abs_le.1 V
  generalize binary32 a * kv = z at *
  obtain ⟨pb1, pb2⟩ := abs_le.1 PB
  obtain ⟨g1, g2⟩ := abs_le.1 G
  have F := r32 (x := -(1 / 2) * s) (B := 1.05 * S + 2 ^ 23 * (1 / 2 ^ 150)) (by
    generalize (1 : ℝ) / 2 ^ 150 = η at *
    rw [abs_le]; constructor <;> linarith)
  rw [← hy] at F
  obtain ⟨f1, f2⟩ := abs_le.1 F
  obtain ⟨l1, l2⟩ := abs_le.1 (L.trans terr)
  generalize (1 : ℝ) / 2 ^ 150 = η at *
  rw [abs_le]
  constructor <;> linarith

end Verif.FloatDrc
