import Verif.Model.FloatAuditory
import Verif.Spec.AuditoryFilterbank
import Verif.Proof.Rounding
import Verif.Proof.Ieee

/-! # Lemmas for `Verif.Theorems.FloatAuditory` -/

namespace Verif.FloatAuditory
open Verif.Rounding Verif.AuditoryFilterbank

theorem r64 (x : ℝ) : |binary64 x - x| ≤ 1 / 2 ^ 53 * |x| + 1 / 2 ^ 200 := by
  refine (binary64_accurate x).trans ?_
  have : (1 / 2 ^ 1075 : ℝ) ≤ 1 / 2 ^ 200 := one_div_pow_le_one_div_pow_of_le (by norm_num) (by norm_num)
  linarith

/-- Rounding of a number that is not tiny. -/
theorem r64' {x : ℝ} (h : 1 / 2 ^ 100 ≤ x) : x * (1 - 1 / 2 ^ 52) ≤ binary64 x ∧ binary64 x ≤ x * (1 + 1 / 2 ^ 52) := by
  have h0 : 0 < x := lt_of_lt_of_le (by positivity) h
  have := r64 x
  rw [abs_of_pos h0] at this
  have h2 : (1 / 2 ^ 200 : ℝ) ≤ 1 / 2 ^ 53 * x := by
    have := mul_le_mul_of_nonneg_left h (by positivity : (0 : ℝ) ≤ 1 / 2 ^ 53)
    refine le_trans ?_ this
    norm_num
  obtain ⟨a, b⟩ := abs_le.1 this
  constructor <;> linarith

theorem r32' {x : ℝ} (h : 1 ≤ x) : x * (1 - 6 / 10 ^ 8) ≤ binary32 x ∧ binary32 x ≤ x * (1 + 6 / 10 ^ 8) := by
  have := binary32_accurate x
  rw [abs_of_pos (show 0 < x by linarith)] at this
  obtain ⟨a, b⟩ := abs_le.1 this
  have h2 : (1 / 2 ^ 150 : ℝ) ≤ 1 / 10 ^ 10 * x := by
    refine le_trans ?_ (mul_le_mul_of_nonneg_left h (by positivity : (0 : ℝ) ≤ 1 / 10 ^ 10))
    norm_num
  constructor <;> linarith

theorem breakHz_bounds : 1000 / 4.37 * (1 - 13 / 10 ^ 8) ≤ breakHz ∧ breakHz ≤ 1000 / 4.37 * (1 + 13 / 10 ^ 8) := by
  obtain ⟨a, b⟩ := r32' (x := 4.37) (by norm_num)
  have t0 : 0 < binary32 4.37 := lt_of_lt_of_le (by norm_num) a
  have e1 : 1000 / 4.37 * (1 - 65 / 10 ^ 9) ≤ 1000 / binary32 4.37 := by
    rw [le_div_iff₀ t0]
    refine (mul_le_mul_of_nonneg_left b (by norm_num)).trans ?_
    norm_num
  have e2 : 1000 / binary32 4.37 ≤ 1000 / 4.37 * (1 + 65 / 10 ^ 9) := by
    rw [div_le_iff₀ t0]
    refine le_trans ?_ (mul_le_mul_of_nonneg_left a (by norm_num))
    norm_num
  obtain ⟨c, d⟩ := r32' (x := 1000 / binary32 4.37) (le_trans (by norm_num) e1)
  unfold breakHz
  constructor
  · refine le_trans ?_ c
    refine le_trans ?_ (mul_le_mul_of_nonneg_right e1 (by norm_num))
    norm_num
  · refine d.trans ?_
    refine (mul_le_mul_of_nonneg_right e2 (by norm_num)).trans ?_
    norm_num

theorem earQ_bounds : 0 < earQ ∧ |breakHz / earQ - 24.7| ≤ 1 / 2 ^ 22 * 24.7 ∧
    |1 / earQ - 24.7 * 4.37 / 1000| ≤ 1 / 2 ^ 22 * (24.7 * 4.37 / 1000) := by
  obtain ⟨a, b⟩ := r32' (x := 24.7) (by norm_num)
  obtain ⟨B1, B2⟩ := breakHz_bounds
  have b0 : 0 < binary32 24.7 := lt_of_lt_of_le (by norm_num) a
  have B0 : 0 < breakHz := lt_of_lt_of_le (by norm_num) B1
  have g0 : (0 : ℝ) < breakHz / binary32 24.7 := by positivity
  have g1 : (1 : ℝ) ≤ breakHz / binary32 24.7 := by
    rw [le_div_iff₀ b0]
    linarith [b.trans (by norm_num : (24.7 : ℝ) * (1 + 6 / 10 ^ 8) ≤ 200), B1.trans' (by norm_num : (200 : ℝ) ≤ _)]
  obtain ⟨c, d⟩ := r64' (x := breakHz / binary32 24.7) (le_trans (by norm_num) g1)
  have q0 : 0 < earQ := lt_of_lt_of_le (mul_pos g0 (by norm_num)) c
  have hr : breakHz = binary32 24.7 * (breakHz / binary32 24.7) := by field_simp
  have f1 : 24.7 * (1 - 65 / 10 ^ 9) ≤ breakHz / earQ := by
    rw [le_div_iff₀ q0]
    refine (mul_le_mul_of_nonneg_left d (by norm_num)).trans ?_
    have h1 := mul_le_mul_of_nonneg_right a g0.le
    rw [← hr] at h1
    refine le_trans ?_ h1
    rw [mul_comm (breakHz / _), ← mul_assoc]
    refine mul_le_mul_of_nonneg_right ?_ g0.le
    norm_num
  have f2 : breakHz / earQ ≤ 24.7 * (1 + 65 / 10 ^ 9) := by
    rw [div_le_iff₀ q0]
    refine le_trans ?_ (mul_le_mul_of_nonneg_left c (by norm_num))
    have h1 := mul_le_mul_of_nonneg_right b g0.le
    rw [← hr] at h1
    refine h1.trans ?_
    rw [mul_comm (breakHz / _), ← mul_assoc]
    refine mul_le_mul_of_nonneg_right ?_ g0.le
    norm_num
  have he : 1 / earQ = breakHz / earQ / breakHz := by field_simp
  refine ⟨q0, ?_, ?_⟩
  · rw [abs_le]
    constructor
    · have := f1.trans' (by norm_num : (24.7 : ℝ) - 1 / 2 ^ 22 * 24.7 ≤ _)
      linarith
    · have := f2.trans (by norm_num : _ ≤ (24.7 : ℝ) + 1 / 2 ^ 22 * 24.7)
      linarith
  · rw [abs_le, he]
    constructor
    · have : 24.7 * 4.37 / 1000 - 1 / 2 ^ 22 * (24.7 * 4.37 / 1000) ≤ breakHz / earQ / breakHz := by
        rw [le_div_iff₀ B0]
        refine (mul_le_mul_of_nonneg_left B2 (by norm_num)).trans (le_trans ?_ f1)
        norm_num
      linarith
    · have : breakHz / earQ / breakHz ≤ 24.7 * 4.37 / 1000 + 1 / 2 ^ 22 * (24.7 * 4.37 / 1000) := by
        rw [div_le_iff₀ B0]
        refine f2.trans (le_trans ?_ (mul_le_mul_of_nonneg_left B1 (by norm_num)))
        norm_num
      linarith

theorem bandwidth_bounds {f : ℝ} (h : 0 ≤ f) : (breakHz + f) / earQ * (1 - 1 / 2 ^ 50) ≤ bandwidth f ∧
    bandwidth f ≤ (breakHz + f) / earQ * (1 + 1 / 2 ^ 50) ∧ 24 ≤ (breakHz + f) / earQ := by
  obtain ⟨q0, c, a⟩ := earQ_bounds
  obtain ⟨B1, B2⟩ := breakHz_bounds
  have hB : (1 : ℝ) ≤ breakHz := B1.trans' (by norm_num)
  obtain ⟨c1, c2⟩ := abs_le.1 c
  have w : 24 ≤ (breakHz + f) / earQ := by
    rw [add_div]
    have : 0 ≤ f / earQ := by positivity
    have h3 : (24 : ℝ) ≤ 24.7 - 1 / 2 ^ 22 * 24.7 := by norm_num
    linarith
  obtain ⟨s1, s2⟩ := r64' (x := breakHz + f) (le_trans (by norm_num) (by linarith : (1 : ℝ) ≤ breakHz + f))
  have t1 : (breakHz + f) / earQ * (1 - 1 / 2 ^ 52) ≤ binary64 (breakHz + f) / earQ := by
    rw [div_mul_eq_mul_div]
    exact div_le_div_of_nonneg_right s1 q0.le
  have t2 : binary64 (breakHz + f) / earQ ≤ (breakHz + f) / earQ * (1 + 1 / 2 ^ 52) := by
    rw [div_mul_eq_mul_div]
    exact div_le_div_of_nonneg_right s2 q0.le
  have t3 : (1 : ℝ) ≤ binary64 (breakHz + f) / earQ := by
    refine le_trans ?_ t1
    refine le_trans ?_ (mul_le_mul_of_nonneg_right w (by norm_num))
    norm_num
  obtain ⟨r1, r2⟩ := r64' (x := binary64 (breakHz + f) / earQ) (le_trans (by norm_num) t3)
  refine ⟨?_, ?_, w⟩
  · refine le_trans ?_ r1
    refine le_trans ?_ (mul_le_mul_of_nonneg_right t1 (by norm_num))
    rw [mul_assoc]
    refine mul_le_mul_of_nonneg_left ?_ (by linarith)
    norm_num
  · refine r2.trans ?_
    refine (mul_le_mul_of_nonneg_right t2 (by norm_num)).trans ?_
    rw [mul_assoc]
    refine mul_le_mul_of_nonneg_left ?_ (by linarith)
    norm_num

/-- One iteration against the exact one with the constants of the code. -/
theorem next_error {p : Params} (hs : 1 / 2 ^ 40 ≤ p.stepErbs) (hs2 : p.stepErbs < 2) {f f' : ℝ} (h : 0 ≤ f)
    (hn : Next p f f') : |f' - (f - p.stepErbs * ((breakHz + f) / earQ))| ≤ 1 / 2 ^ 50 * (229 + f) := by
  obtain ⟨b1, b2, b3⟩ := bandwidth_bounds h
  obtain ⟨q0, c, a⟩ := earQ_bounds
  obtain ⟨B1, B2⟩ := breakHz_bounds
  have hB : breakHz ≤ 229 := B2.trans (by norm_num)
  have s0 : 0 < p.stepErbs := lt_of_lt_of_le (by positivity) hs
  set w := (breakHz + f) / earQ with hw
  have w0 : 0 < w := by linarith
  have hwu : w ≤ 0.108 * (229 + f) := by
    have : 1 / earQ ≤ 0.108 := by
      obtain ⟨-, a2⟩ := abs_le.1 a
      refine le_trans (by linarith : 1 / earQ ≤ 24.7 * 4.37 / 1000 + 1 / 2 ^ 22 * (24.7 * 4.37 / 1000)) (by norm_num)
    rw [hw, div_eq_mul_one_div, mul_comm]
    refine mul_le_mul this (by linarith) (by linarith [B1.trans' (by norm_num : (0 : ℝ) ≤ _)]) (by norm_num)
  have sw : p.stepErbs * w ≤ 0.216 * (229 + f) := by
    have := mul_le_mul hs2.le hwu w0.le (by norm_num)
    linarith
  have sw0 : 0 < p.stepErbs * w := by positivity
  have key : ∀ d, p.stepErbs * w * (1 - 1 / 2 ^ 49) ≤ d → d ≤ p.stepErbs * w * (1 + 1 / 2 ^ 49) →
      |binary64 (f - d) - (f - p.stepErbs * w)| ≤ 1 / 2 ^ 50 * (229 + f) := by
    intro d d1 d2
    have e := r64 (f - d)
    have g : |f - d| ≤ 1.22 * (229 + f) := by
      rw [abs_le]
      have k2 : p.stepErbs * w * (1 + 1 / 2 ^ 49) ≤ 0.217 * (229 + f) := by
        refine (mul_le_mul_of_nonneg_right sw (by norm_num)).trans ?_
        rw [mul_right_comm]
        refine mul_le_mul_of_nonneg_right ?_ (by linarith)
        norm_num
      have k1 : 0 ≤ p.stepErbs * w * (1 - 1 / 2 ^ 49) := mul_nonneg sw0.le (by norm_num)
      constructor <;> linarith
    have g2 := mul_le_mul_of_nonneg_left g (by positivity : (0 : ℝ) ≤ 1 / 2 ^ 53)
    have g3 : (1 / 2 ^ 200 : ℝ) ≤ 1 / 2 ^ 60 * (229 + f) := by
      refine le_trans ?_ (mul_le_mul_of_nonneg_left (by linarith : (1 : ℝ) ≤ 229 + f) (by positivity))
      norm_num
    rw [abs_le] at e ⊢
    constructor <;> linarith
  rcases hn with rfl | rfl
  · have l0 : 1 / 2 ^ 100 ≤ p.stepErbs * bandwidth f := by
      have : (1 : ℝ) ≤ bandwidth f := by
        refine le_trans ?_ b1
        refine le_trans ?_ (mul_le_mul_of_nonneg_right b3 (by norm_num))
        norm_num
      refine le_trans ?_ (mul_le_mul hs this (by norm_num) s0.le)
      norm_num
    obtain ⟨r1, r2⟩ := r64' l0
    refine key _ (le_trans ?_ r1) (r2.trans ?_)
    · refine le_trans ?_ (mul_le_mul_of_nonneg_right (mul_le_mul_of_nonneg_left b1 s0.le) (by norm_num))
      rw [← mul_assoc, mul_assoc _ (1 - 1 / 2 ^ 50 : ℝ)]
      exact mul_le_mul_of_nonneg_left (by norm_num) sw0.le
    · refine (mul_le_mul_of_nonneg_right (mul_le_mul_of_nonneg_left b2 s0.le) (by norm_num)).trans ?_
      rw [← mul_assoc, mul_assoc _ (1 + 1 / 2 ^ 50 : ℝ)]
      exact mul_le_mul_of_nonneg_left (by norm_num) sw0.le
  · refine key _ (le_trans ?_ (mul_le_mul_of_nonneg_left b1 s0.le)) ((mul_le_mul_of_nonneg_left b2 s0.le).trans ?_)
    · rw [← mul_assoc]
      exact mul_le_mul_of_nonneg_left (by norm_num) sw0.le
    · rw [← mul_assoc]
      exact mul_le_mul_of_nonneg_left (by norm_num) sw0.le

/-- Every iteration lowers the frequency by more than 24 Hz times `step_erbs`. -/
theorem next_lt {p : Params} (hs : 1 / 2 ^ 40 ≤ p.stepErbs) (hs2 : p.stepErbs < 2) {f f' : ℝ} (h : 0 ≤ f)
    (hn : Next p f f') : f' ≤ f - 24 * p.stepErbs := by
  have e := (abs_le.1 (next_error hs hs2 h hn)).2
  obtain ⟨q0, c, a⟩ := earQ_bounds
  have s0 : 0 < p.stepErbs := lt_of_lt_of_le (by positivity) hs
  have k : 24.6 + 0.1 * f ≤ (breakHz + f) / earQ := by
    rw [add_div, div_eq_mul_one_div f]
    obtain ⟨c1, -⟩ := abs_le.1 c
    obtain ⟨a1, -⟩ := abs_le.1 a
    have k1 : (24.6 : ℝ) ≤ 24.7 - 1 / 2 ^ 22 * 24.7 := by norm_num
    have k2 : (0.1 : ℝ) ≤ 24.7 * 4.37 / 1000 - 1 / 2 ^ 22 * (24.7 * 4.37 / 1000) := by norm_num
    have k3 : f * 0.1 ≤ f * (1 / earQ) := mul_le_mul_of_nonneg_left (by linarith) h
    linarith
  have k2 := mul_le_mul_of_nonneg_left k s0.le
  have k3 : 1 / 2 ^ 50 * (229 + f) ≤ p.stepErbs * (0.3 + 0.1 * f) := by
    refine le_trans ?_ (mul_le_mul_of_nonneg_right hs (by linarith))
    rw [show (1 / 2 ^ 50 : ℝ) = 1 / 2 ^ 40 * (1 / 2 ^ 10) by norm_num, mul_assoc]
    refine mul_le_mul_of_nonneg_left ?_ (by positivity)
    linarith
  linarith

end Verif.FloatAuditory
