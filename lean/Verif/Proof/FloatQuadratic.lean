import Verif.Model.FloatQuadratic
import Verif.Proof.Rounding
import Verif.Proof.Ieee

/-! # Lemmas for `Verif.Theorems.FloatQuadratic` -/

namespace Verif.FloatQuadratic
open Verif.Rounding

/-- Twice a float is a float. -/
theorem twice_exact (y : ℝ) : binary32 (2 * binary32 y) = 2 * binary32 y := by
  obtain ⟨m, e, h1, h2, h3⟩ := ieee_representable 24 (-149) y
  refine ieee_of_representable (by norm_num) ⟨m, e + 1, h1, by omega, ?_⟩
  change 2 * ieee 24 (-149) y = _
  rw [h3, zpow_add₀ (by norm_num)]; ring

/-- Integers up to 2^24 are floats. -/
theorem int_exact {n : ℤ} (h : |n| ≤ 2 ^ 24) : binary32 n = n :=
  ieee_of_representable (by norm_num) ⟨n, 0, h, by norm_num, by simp⟩

theorem nat_exact {n : ℕ} (h : n ≤ 2 ^ 24) : binary32 n = n := by
  have := int_exact (n := n) (by rw [Nat.abs_cast]; exact_mod_cast h)
  simpa using this

theorem r32 {x B : ℝ} (h : |x| ≤ B) : |binary32 x - x| ≤ 1 / 2 ^ 24 * B + 1 / 2 ^ 150 := by
  refine (binary32_accurate x).trans ?_
  have := mul_le_mul_of_nonneg_left h (by positivity : (0 : ℝ) ≤ 1 / 2 ^ 24)
  linarith

/-- The errors of the coefficients. -/
theorem coef_error {l m r S : ℝ} (hl : |l| ≤ S) (hm : |m| ≤ S) (hr : |r| ≤ S) :
    |coefA binary32 l m r - (l - 2 * m + r) / 2| ≤ 7 / 2 ^ 24 * S + 4 / 2 ^ 150 ∧
      |coefB binary32 l r - (r - l) / 2| ≤ 3 / 2 ^ 24 * S + 4 / 2 ^ 150 := by
  have S0 : 0 ≤ S := (abs_nonneg _).trans hl
  obtain ⟨l1, l2⟩ := abs_le.1 hl
  obtain ⟨m1, m2⟩ := abs_le.1 hm
  obtain ⟨r1, r2⟩ := abs_le.1 hr
  have η0 : (0 : ℝ) ≤ 1 / 2 ^ 150 := by positivity
  constructor
  · unfold coefA
    obtain ⟨a1, a2⟩ := abs_le.1 (r32 (x := 2 * m) (B := 2 * S) (abs_le.2 ⟨by linarith, by linarith⟩))
    generalize binary32 (2 * m) = x1 at *
    obtain ⟨b1, b2⟩ := abs_le.1 (r32 (x := l - x1) (B := 3.01 * S + 2 * (1 / 2 ^ 150)) (abs_le.2 ⟨by linarith, by linarith⟩))
    generalize binary32 (l - x1) = x2 at *
    obtain ⟨c1, c2⟩ := abs_le.1 (r32 (x := x2 + r) (B := 4.02 * S + 4 * (1 / 2 ^ 150)) (abs_le.2 ⟨by linarith, by linarith⟩))
    generalize binary32 (x2 + r) = x3 at *
    obtain ⟨d1, d2⟩ := abs_le.1 (r32 (x := x3 / 2) (B := 2.02 * S + 4 * (1 / 2 ^ 150)) (abs_le.2 ⟨by linarith, by linarith⟩))
    generalize binary32 (x3 / 2) = x4 at *
    have e4 : (4 : ℝ) / 2 ^ 150 = 4 * (1 / 2 ^ 150) := by ring
    rw [e4]
    generalize (1 : ℝ) / 2 ^ 150 = η at *
    rw [abs_le]
    constructor <;> linarith
  · unfold coefB
    obtain ⟨a1, a2⟩ := abs_le.1 (r32 (x := r - l) (B := 2 * S) (abs_le.2 ⟨by linarith, by linarith⟩))
    generalize binary32 (r - l) = x1 at *
    obtain ⟨b1, b2⟩ := abs_le.1 (r32 (x := x1 / 2) (B := 1.01 * S + 2 * (1 / 2 ^ 150)) (abs_le.2 ⟨by linarith, by linarith⟩))
    generalize binary32 (x1 / 2) = x2 at *
    have e4 : (4 : ℝ) / 2 ^ 150 = 4 * (1 / 2 ^ 150) := by ring
    rw [e4]
    generalize (1 : ℝ) / 2 ^ 150 = η at *
    rw [abs_le]
    constructor <;> linarith

theorem muladd_error {a d b g A B : ℝ} (h : IsMulAdd binary32 a d b g) (ha : |a * d| ≤ A) (hb : |b| ≤ B) :
    |g - (a * d + b)| ≤ 1 / 2 ^ 24 * (2.01 * A + B) + 3 / 2 ^ 150 := by
  have A0 : 0 ≤ A := (abs_nonneg _).trans ha
  have B0 : 0 ≤ B := (abs_nonneg _).trans hb
  have η0 : (0 : ℝ) ≤ 1 / 2 ^ 150 := by positivity
  have e4 : (3 : ℝ) / 2 ^ 150 = 3 * (1 / 2 ^ 150) := by ring
  rw [e4]
  obtain ⟨a1, a2⟩ := abs_le.1 ha
  obtain ⟨b1, b2⟩ := abs_le.1 hb
  rcases h with h | h
  · obtain ⟨c1, c2⟩ := abs_le.1 (r32 ha)
    rw [h]
    generalize binary32 (a * d) = x1 at *
    obtain ⟨d1, d2⟩ := abs_le.1 (r32 (x := x1 + b) (B := 1.001 * A + B + 1 / 2 ^ 150) (abs_le.2 ⟨by linarith, by linarith⟩))
    generalize binary32 (x1 + b) = x2 at *
    generalize (1 : ℝ) / 2 ^ 150 = η at *
    rw [abs_le]
    constructor <;> linarith
  · obtain ⟨d1, d2⟩ := abs_le.1 (r32 (x := a * d + b) (B := A + B) (abs_le.2 ⟨by linarith, by linarith⟩))
    rw [h]
    generalize (1 : ℝ) / 2 ^ 150 = η at *
    rw [abs_le]
    constructor <;> linarith

/-- Clamping to `[-1, 1]`. -/
noncomputable def clamp (q : ℝ) : ℝ := max (-1) (min q 1)

theorem clamp_bounds (q : ℝ) : |clamp q| ≤ 1 := by
  unfold clamp
  rw [abs_le]
  exact ⟨le_max_left _ _, max_le (by norm_num) (min_le_right _ _)⟩

theorem clamp_lip (p q : ℝ) : |clamp p - clamp q| ≤ |p - q| := by
  unfold clamp
  have h1 := abs_max_sub_max_le_max (-1 : ℝ) (min p 1) (-1) (min q 1)
  have h2 := abs_min_sub_min_le_max p 1 q 1
  rw [sub_self, abs_zero, max_eq_right (a := (0 : ℝ)) (abs_nonneg _)] at h1
  rw [sub_self, abs_zero, max_eq_left (b := (0 : ℝ)) (abs_nonneg _)] at h2
  exact h1.trans h2

/-- The error of `delta`. -/
theorem clamp_round (q : ℝ) : |clamp (binary32 q) - clamp q| ≤ 3 / 2 ^ 24 := by
  have tiny : (1 : ℝ) / 2 ^ 150 ≤ 1 / 2 ^ 24 := by norm_num
  rcases le_or_gt |q| 2 with h | h
  · refine (clamp_lip _ _).trans ((r32 h).trans ?_)
    linarith
  · have hb := binary32_accurate q
    obtain ⟨h1, h2⟩ := abs_le.1 hb
    have z : (0 : ℝ) ≤ 3 / 2 ^ 24 := by positivity
    rcases lt_abs.1 h with hq | hq
    · rw [abs_of_pos (by linarith)] at h1 h2
      have : 1 ≤ binary32 q := by linarith
      have e1 : clamp (binary32 q) = 1 := by unfold clamp; rw [min_eq_right this]; norm_num
      have e2 : clamp q = 1 := by unfold clamp; rw [min_eq_right (by linarith)]; norm_num
      rw [e1, e2, sub_self, abs_zero]; exact z
    · rw [abs_of_neg (by linarith)] at h1 h2
      have : binary32 q ≤ -1 := by linarith
      have e1 : clamp (binary32 q) = -1 := by unfold clamp; rw [max_eq_left]; exact (min_le_left _ _).trans this
      have e2 : clamp q = -1 := by unfold clamp; rw [max_eq_left]; exact (min_le_left _ _).trans (by linarith)
      rw [e1, e2, sub_self, abs_zero]; exact z

/-- A concave parabola is largest on `[-1, 1]` at its clamped vertex. -/
theorem vertex_max {a b : ℝ} (ha : a < 0) {t : ℝ} (ht : |t| ≤ 1) :
    b * t + a * t ^ 2 ≤ b * clamp (-b / (2 * a)) + a * clamp (-b / (2 * a)) ^ 2 := by
  obtain ⟨t1, t2⟩ := abs_le.1 ht
  obtain ⟨q, hq⟩ : ∃ q, q = -b / (2 * a) := ⟨_, rfl⟩
  have hb : b = -2 * a * q := by have := ha.ne; rw [hq]; field_simp
  rw [← hq]
  have key : ∀ z, b * z + a * z ^ 2 = a * (z - q) ^ 2 - a * q ^ 2 := by intro z; rw [hb]; ring
  rw [key, key]
  have : (clamp q - q) ^ 2 ≤ (t - q) ^ 2 := by
    unfold clamp
    rcases le_total q 1 with h1 | h1
    · rw [min_eq_left h1]
      rcases le_total (-1) q with h2 | h2
      · rw [max_eq_right h2, sub_self]; nlinarith [sq_nonneg (t - q)]
      · rw [max_eq_left h2]; nlinarith
    · rw [min_eq_right h1, max_eq_right (by norm_num)]; nlinarith
  nlinarith

theorem delta_eq (l m r b : ℝ) :
    delta binary32 (coefA binary32 l m r) b = clamp (binary32 (-b / (2 * coefA binary32 l m r))) := by
  unfold delta clamp coefA
  rw [twice_exact]

/-- Floats of magnitude at least one are multiples of 2^-24. -/
theorem multiple {x : ℝ} (hx : binary32 x = x) (h : 1 ≤ |x|) : ∃ k : ℤ, x = k / 2 ^ 24 := by
  obtain ⟨m, e, h1, h2, h3⟩ := ieee_representable 24 (-149) x
  change binary32 x = _ at h3
  rw [hx] at h3
  have he : -24 ≤ e := by
    by_contra hc
    have h4 : |x| ≤ 2 ^ 24 * 2 ^ (-25 : ℤ) := by
      have pe : (0 : ℝ) < (2 : ℝ) ^ e := zpow_pos (by norm_num) e
      rw [h3, abs_mul, abs_of_pos pe]
      refine mul_le_mul (by exact_mod_cast h1) (zpow_le_zpow_right₀ (by norm_num) (by omega)) pe.le (by positivity)
    norm_num at h4
    linarith
  obtain ⟨n, hn⟩ := Int.eq_ofNat_of_zero_le (by omega : 0 ≤ e + 24)
  refine ⟨m * 2 ^ n, ?_⟩
  have : e = (n : ℤ) - 24 := by omega
  rw [h3, this, zpow_sub₀ (by norm_num)]
  push_cast
  simp only [zpow_natCast, zpow_ofNat]
  ring

/-- Above the tolerance the neighbours really differ. -/
theorem neighbours {l r : ℝ} (h : ¬ |coefB binary32 l r| < 4 * (1 / 2 ^ 23)) : 1 / 2 ^ 21 < |r - l| := by
  by_contra hc
  push Not at hc
  apply h
  have := (coef_error (l := 0) (m := 0) (r := r - l) (S := 1 / 2 ^ 21) (by rw [abs_zero]; positivity)
    (by rw [abs_zero]; positivity) hc).2
  unfold coefB at *
  rw [sub_zero] at this
  obtain ⟨h1, h2⟩ := abs_le.1 this
  obtain ⟨h3, h4⟩ := abs_le.1 hc
  have tiny : (4 : ℝ) / 2 ^ 150 ≤ 1 / 2 ^ 40 := by norm_num
  generalize (4 : ℝ) / 2 ^ 150 = η at *
  rw [abs_lt]
  constructor <;> linarith

theorem sign_b {l r : ℝ} : (0 ≤ r - l → 0 ≤ coefB binary32 l r) ∧ (r - l ≤ 0 → coefB binary32 l r ≤ 0) := by
  have z : binary32 0 = 0 := binary32_regular.zero
  have mono : ∀ {a b : ℝ}, a ≤ b → binary32 a ≤ binary32 b := fun h => binary32_regular.mono h
  unfold coefB
  constructor
  · intro h
    have h1 := mono h; rw [z] at h1
    have h2 := mono (show (0 : ℝ) ≤ binary32 (r - l) / 2 by linarith); rwa [z] at h2
  · intro h
    have h1 := mono h; rw [z] at h1
    have h2 := mono (show binary32 (r - l) / 2 ≤ 0 by linarith); rwa [z] at h2

/-- At a strict local maximum with different neighbours the computed curvature is negative. -/
theorem concave {l m r : ℝ} (hm : binary32 m = m) (hr : binary32 r = r) (h1 : l < m) (h2 : r < m)
    (h : ¬ |coefB binary32 l r| < 4 * (1 / 2 ^ 23)) : coefA binary32 l m r < 0 := by
  have mono : ∀ {a b : ℝ}, a ≤ b → binary32 a ≤ binary32 b := fun h => binary32_regular.mono h
  have hd := neighbours h
  have e2 : binary32 (2 * m) = 2 * m := by have := twice_exact m; rwa [hm] at this
  unfold coefA
  rw [e2]
  have tiny : (1 : ℝ) / 2 ^ 150 ≤ 1 / 2 ^ 40 := by norm_num
  have y1 : binary32 (l - 2 * m) ≤ -m := by
    have := mono (show l - 2 * m ≤ -m by linarith)
    rwa [binary32_regular.neg, hm] at this
  have key : binary32 (l - 2 * m) + r ≤ -(1 / 2 ^ 24) := by
    rcases le_or_gt (1 / 2 ^ 21) (m - r) with hc | hc
    · linarith
    · have hl : 1 / 2 ^ 21 < m - l := by
        rcases lt_abs.1 hd with h' | h' <;> linarith
      rcases le_or_gt 2 |m| with hb | hb
      · obtain ⟨k, hk⟩ := multiple hm (by linarith)
        have hr1 : 1 ≤ |r| := by
          rcases le_abs.1 hb with h' | h'
          · exact le_abs.2 (Or.inl (by linarith))
          · exact le_abs.2 (Or.inr (by linarith))
        obtain ⟨j, hj⟩ := multiple hr hr1
        have : j < k := by
          rw [hk, hj] at h2
          have := (div_lt_div_iff_of_pos_right (by positivity : (0 : ℝ) < 2 ^ 24)).1 h2
          exact_mod_cast this
        have : (j : ℝ) + 1 ≤ k := by exact_mod_cast this
        have : r - m ≤ -(1 / 2 ^ 24) := by rw [hk, hj]; linarith
        linarith
      · obtain ⟨b1, b2⟩ := abs_lt.1 hb
        have m1 := mono (show l - 2 * m ≤ -m - 1 / 2 ^ 21 by linarith)
        obtain ⟨c1, c2⟩ := abs_le.1 (r32 (x := -m - 1 / 2 ^ 21) (B := 2.1) (abs_le.2 ⟨by linarith, by linarith⟩))
        generalize (1 : ℝ) / 2 ^ 150 = η at *
        linarith
  have p24 : binary32 (-(1 / 2 ^ 24)) = -(1 / 2 ^ 24) := by
    refine ieee_of_representable (by norm_num) ⟨-1, -24, by norm_num, by norm_num, by norm_num⟩
  have p25 : binary32 (-(1 / 2 ^ 25)) = -(1 / 2 ^ 25) := by
    refine ieee_of_representable (by norm_num) ⟨-1, -25, by norm_num, by norm_num, by norm_num⟩
  have k1 := mono key
  rw [p24] at k1
  have k2 := mono (show binary32 (binary32 (l - 2 * m) + r) / 2 ≤ -(1 / 2 ^ 25) by linarith)
  rw [p25] at k2
  linarith

theorem clamp_sign {q : ℝ} : (0 ≤ q → 0 ≤ clamp q) ∧ (q ≤ 0 → clamp q ≤ 0) ∧ |clamp q| ≤ |q| := by
  unfold clamp
  refine ⟨fun h => le_max_of_le_right (le_min h (by norm_num)), fun h => max_le (by norm_num) (min_le_of_left_le h), ?_⟩
  rcases le_total 0 q with h | h
  · rw [abs_of_nonneg h, abs_of_nonneg (le_max_of_le_right (le_min h (by norm_num)))]
    exact max_le (by linarith) (min_le_left _ _)
  · rw [abs_of_nonpos h, abs_of_nonpos (max_le (by norm_num) (min_le_of_left_le h))]
    have : q ≤ max (-1) (min q 1) := le_max_of_le_right (le_min le_rfl (by linarith))
    linarith

/-- In the concave branch the correction has the sign of a square. -/
theorem not_below_concave {m a b g v : ℝ} (hm : binary32 m = m) (ha : a < 0) (hA : -(2.01 * 2 ^ 126) ≤ a)
    (hb : 4 * (1 / 2 ^ 23) ≤ |b|) (hbf : binary32 b = b) (hg : IsMulAdd binary32 a (clamp (binary32 (-b / (2 * a)))) b g)
    (hv : IsMulAdd binary32 g (clamp (binary32 (-b / (2 * a)))) m v) : m ≤ v := by
  have z : binary32 0 = 0 := binary32_regular.zero
  have mono : ∀ {a b : ℝ}, a ≤ b → binary32 a ≤ binary32 b := fun h => binary32_regular.mono h
  obtain ⟨q, hq⟩ : ∃ q, q = -b / (2 * a) := ⟨_, rfl⟩
  have hbq : b = -2 * a * q := by have := ha.ne; rw [hq]; field_simp
  rw [← hq] at hg hv
  have hqq := binary32_accurate q
  obtain ⟨s1, s2, s3⟩ := clamp_sign (q := binary32 q)
  generalize hd : clamp (binary32 q) = d at *
  have habs : |binary32 q| ≤ |q| + (1 / 2 ^ 24 * |q| + 1 / 2 ^ 150) := by
    have := abs_sub_abs_le_abs_sub (binary32 q) q
    linarith
  have hbabs : |b| = -2 * a * |q| := by rw [hbq, abs_mul, abs_of_pos (by linarith : (0 : ℝ) < -2 * a)]
  have had : |a * d| ≤ |b| := by
    rw [abs_mul, abs_of_neg ha]
    have h1 : -a * |d| ≤ -a * (|q| + (1 / 2 ^ 24 * |q| + 1 / 2 ^ 150)) :=
      mul_le_mul_of_nonneg_left (s3.trans habs) (by linarith)
    have h2 : -a * (1 / 2 ^ 150) ≤ 2.01 * 2 ^ 126 * (1 / 2 ^ 150) := mul_le_mul_of_nonneg_right (by linarith) (by positivity)
    have h3 : (2.01 : ℝ) * 2 ^ 126 * (1 / 2 ^ 150) = 2.01 * (1 / 2 ^ 24) := by norm_num
    rw [h3] at h2
    nlinarith
  have sgn : (0 ≤ d → 0 ≤ b → 0 ≤ g) ∧ (d ≤ 0 → b ≤ 0 → g ≤ 0) := by
    obtain ⟨k1, k2⟩ := abs_le.1 had
    constructor
    · intro h1 h2
      rw [abs_of_nonneg h2] at k1 k2
      rcases hg with hg | hg
      · have := mono k1
        rw [binary32_regular.neg, hbf] at this
        have := mono (show 0 ≤ binary32 (a * d) + b by linarith)
        rw [z] at this
        rwa [hg]
      · have := mono (show 0 ≤ a * d + b by linarith)
        rw [z] at this
        rwa [hg]
    · intro h1 h2
      rw [abs_of_nonpos h2] at k1 k2
      rcases hg with hg | hg
      · have := mono k2
        rw [binary32_regular.neg, hbf] at this
        have := mono (show binary32 (a * d) + b ≤ 0 by linarith)
        rw [z] at this
        rwa [hg]
      · have := mono (show a * d + b ≤ 0 by linarith)
        rw [z] at this
        rwa [hg]
  have prod : 0 ≤ g * d := by
    rcases le_total 0 b with h | h
    · have hq0 : 0 ≤ q := by rw [hq]; exact div_nonneg_of_nonpos (by linarith) (by linarith)
      have h1 := mono hq0; rw [z] at h1
      have hd0 := s1 h1
      exact mul_nonneg (sgn.1 hd0 h) hd0
    · have hq0 : q ≤ 0 := by rw [hq]; exact div_nonpos_of_nonneg_of_nonpos (by linarith) (by linarith)
      have h1 := mono hq0; rw [z] at h1
      have hd0 := s2 h1
      exact mul_nonneg_of_nonpos_of_nonpos (sgn.2 hd0 h) hd0
  rcases hv with hv | hv
  · have h1 := mono prod; rw [z] at h1
    have h2 := mono (show m ≤ binary32 (g * d) + m by linarith)
    rw [hm] at h2
    rwa [hv]
  · have h2 := mono (show m ≤ g * d + m by linarith)
    rw [hm] at h2
    rwa [hv]

set_option maxHeartbeats 1000000 in
/-- The value, relative to the parabola through the samples. -/
theorem value_bound {l m r S v : ℝ} (hl : |l| ≤ S) (hm : |m| ≤ S) (hr : |r| ≤ S)
    (hb : ¬ |coefB binary32 l r| < 4 * (1 / 2 ^ 23))
    (hv : if coefA binary32 l m r < 0 then
        ∃ g, IsMulAdd binary32 (coefA binary32 l m r) (delta binary32 (coefA binary32 l m r) (coefB binary32 l r))
          (coefB binary32 l r) g ∧ IsMulAdd binary32 g (delta binary32 (coefA binary32 l m r) (coefB binary32 l r)) m v
      else v = if coefB binary32 l r < 0 then l else r) :
    (∀ t : ℝ, |t| ≤ 1 → m + (r - l) / 2 * t + (l - 2 * m + r) / 2 * t ^ 2 ≤ v + (48 / 2 ^ 24 * S + 1 / 2 ^ 140)) ∧
      ∃ t : ℝ, |t| ≤ 1 ∧ t = (if coefA binary32 l m r < 0 then delta binary32 (coefA binary32 l m r) (coefB binary32 l r)
          else if coefB binary32 l r < 0 then -1 else 1) ∧
        v ≤ m + (r - l) / 2 * t + (l - 2 * m + r) / 2 * t ^ 2 + (48 / 2 ^ 24 * S + 1 / 2 ^ 140) := by
  have S0 : 0 ≤ S := (abs_nonneg _).trans hl
  obtain ⟨hA, hB⟩ := coef_error hl hm hr
  obtain ⟨l1, l2⟩ := abs_le.1 hl
  obtain ⟨m1, m2⟩ := abs_le.1 hm
  obtain ⟨r1, r2⟩ := abs_le.1 hr
  have η140 : (1 : ℝ) / 2 ^ 140 = 1024 * (1 / 2 ^ 150) := by norm_num
  have e4 : (4 : ℝ) / 2 ^ 150 = 4 * (1 / 2 ^ 150) := by ring
  have e3 : (3 : ℝ) / 2 ^ 150 = 3 * (1 / 2 ^ 150) := by ring
  have η0 : (0 : ℝ) ≤ 1 / 2 ^ 150 := by positivity
  have near : ∀ t : ℝ, |t| ≤ 1 → |(m + (r - l) / 2 * t + (l - 2 * m + r) / 2 * t ^ 2) -
      (m + (coefB binary32 l r * t + coefA binary32 l m r * t ^ 2))| ≤ 10 / 2 ^ 24 * S + 8 * (1 / 2 ^ 150) := by
    intro t ht
    have e : (m + (r - l) / 2 * t + (l - 2 * m + r) / 2 * t ^ 2) - (m + (coefB binary32 l r * t + coefA binary32 l m r * t ^ 2)) =
        -((coefB binary32 l r - (r - l) / 2) * t + (coefA binary32 l m r - (l - 2 * m + r) / 2) * t ^ 2) := by ring
    rw [e, abs_neg]
    refine (abs_add_le _ _).trans ?_
    rw [abs_mul, abs_mul]
    have t2 : |t ^ 2| ≤ 1 := by rw [abs_pow]; exact pow_le_one₀ (abs_nonneg _) ht
    have h1 := mul_le_of_le_one_right (abs_nonneg (coefB binary32 l r - (r - l) / 2)) ht
    have h2 := mul_le_of_le_one_right (abs_nonneg (coefA binary32 l m r - (l - 2 * m + r) / 2)) t2
    rw [e4] at hA hB
    linarith
  rw [e4] at hA hB
  rw [η140]
  by_cases ha : coefA binary32 l m r < 0
  · rw [if_pos ha] at hv
    rw [if_pos ha]
    obtain ⟨g, hg, hv⟩ := hv
    rw [delta_eq] at hg hv
    rw [delta_eq]
    have hcl := clamp_round (-coefB binary32 l r / (2 * coefA binary32 l m r))
    have hvx := fun t ht => vertex_max (a := coefA binary32 l m r) (b := coefB binary32 l r) ha (t := t) ht
    have hd1 := clamp_bounds (binary32 (-coefB binary32 l r / (2 * coefA binary32 l m r)))
    have hc1 := clamp_bounds (-coefB binary32 l r / (2 * coefA binary32 l m r))
    generalize clamp (binary32 (-coefB binary32 l r / (2 * coefA binary32 l m r))) = d at *
    generalize clamp (-coefB binary32 l r / (2 * coefA binary32 l m r)) = c at *
    generalize coefA binary32 l m r = a at *
    generalize coefB binary32 l r = b at *
    obtain ⟨A1, A2⟩ := abs_le.1 hA
    obtain ⟨B1, B2⟩ := abs_le.1 hB
    have aS : |a| ≤ 2.01 * S + 4 * (1 / 2 ^ 150) := by rw [abs_le]; constructor <;> linarith
    have bS : |b| ≤ 1.01 * S + 4 * (1 / 2 ^ 150) := by rw [abs_le]; constructor <;> linarith
    have adS : |a * d| ≤ 2.01 * S + 4 * (1 / 2 ^ 150) := by
      rw [abs_mul]; exact (mul_le_of_le_one_right (abs_nonneg _) hd1).trans aS
    have G := muladd_error hg adS bS
    rw [e3] at G
    obtain ⟨x1, x2⟩ := abs_le.1 adS
    obtain ⟨x3, x4⟩ := abs_le.1 bS
    obtain ⟨G1, G2⟩ := abs_le.1 G
    have gS : |g| ≤ 3.04 * S + 16 * (1 / 2 ^ 150) := by rw [abs_le]; constructor <;> linarith
    have gdS : |g * d| ≤ 3.04 * S + 16 * (1 / 2 ^ 150) := by
      rw [abs_mul]; exact (mul_le_of_le_one_right (abs_nonneg _) hd1).trans gS
    have V := muladd_error hv gdS hm
    rw [e3] at V
    obtain ⟨V1, V2⟩ := abs_le.1 V
    have gd : |g * d - (a * d + b) * d| ≤ |g - (a * d + b)| := by
      rw [← sub_mul, abs_mul]; exact mul_le_of_le_one_right (abs_nonneg _) hd1
    obtain ⟨D1, D2⟩ := abs_le.1 (gd.trans G)
    -- moving from the exact vertex to the computed one
    have lip : |(b * c + a * c ^ 2) - (b * d + a * d ^ 2)| ≤ 18 / 2 ^ 24 * S + 16 * (1 / 2 ^ 150) := by
      have e : (b * c + a * c ^ 2) - (b * d + a * d ^ 2) = (b + a * (c + d)) * (c - d) := by ring
      have h1 : |b + a * (c + d)| ≤ 5.04 * S + 12 * (1 / 2 ^ 150) := by
        have h2 : |a * (c + d)| ≤ |a| * 2 := by
          rw [abs_mul]; exact mul_le_mul_of_nonneg_left ((abs_add_le _ _).trans (by linarith)) (abs_nonneg _)
        have := abs_add_le b (a * (c + d))
        linarith
      rw [e, abs_mul, abs_sub_comm c d]
      refine (mul_le_mul h1 hcl (abs_nonneg _) (by positivity)).trans ?_
      generalize (1 : ℝ) / 2 ^ 150 = η at *
      linarith
    obtain ⟨L1, L2⟩ := abs_le.1 lip
    constructor
    · intro t ht
      obtain ⟨n1, n2⟩ := abs_le.1 (near t ht)
      have := hvx t ht
      generalize (1 : ℝ) / 2 ^ 150 = η at *
      nlinarith
    · refine ⟨d, hd1, rfl, ?_⟩
      obtain ⟨n1, n2⟩ := abs_le.1 (near d hd1)
      generalize (1 : ℝ) / 2 ^ 150 = η at *
      nlinarith
  · rw [if_neg ha] at hv
    rw [if_neg ha]
    push Not at ha
    have en : ∀ t : ℝ, |t| ≤ 1 → coefB binary32 l r * t + coefA binary32 l m r * t ^ 2 ≤
        |coefB binary32 l r| + coefA binary32 l m r := by
      intro t ht
      have t2 : t ^ 2 ≤ 1 := by rw [← sq_abs]; exact pow_le_one₀ (abs_nonneg _) ht
      have h1 : coefB binary32 l r * t ≤ |coefB binary32 l r| :=
        (le_abs_self _).trans (by rw [abs_mul]; exact mul_le_of_le_one_right (abs_nonneg _) ht)
      have h2 := mul_le_of_le_one_right ha t2
      linarith
    obtain ⟨A1, A2⟩ := abs_le.1 hA
    obtain ⟨B1, B2⟩ := abs_le.1 hB
    by_cases hn : coefB binary32 l r < 0
    · rw [if_pos hn] at hv
      rw [if_pos hn]
      rw [abs_of_neg hn] at en
      constructor
      · intro t ht
        obtain ⟨n1, n2⟩ := abs_le.1 (near t ht)
        have := en t ht
        rw [hv]
        linarith
      · refine ⟨-1, by simp, rfl, ?_⟩
        rw [hv]
        have : (0 : ℝ) ≤ 48 / 2 ^ 24 * S := by positivity
        linarith
    · rw [if_neg hn] at hv
      rw [if_neg hn]
      rw [abs_of_nonneg (not_lt.1 hn)] at en
      constructor
      · intro t ht
        obtain ⟨n1, n2⟩ := abs_le.1 (near t ht)
        have := en t ht
        rw [hv]
        linarith
      · refine ⟨1, by simp, rfl, ?_⟩
        rw [hv]
        have : (0 : ℝ) ≤ 48 / 2 ^ 24 * S := by positivity
        linarith

end Verif.FloatQuadratic
