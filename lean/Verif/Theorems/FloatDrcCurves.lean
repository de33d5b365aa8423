import Verif.Proof.FloatDrcCurves

/-!
# C128: the compression curves in float arithmetic

`OutputLevelCompressor`, `OutputLevelLimiter` and `OutputLevelExpander` against the curves documented beside them
(`Verif.Drc.Spec`), with every operation rounded to float and with or without contraction.
-/

namespace Verif.FloatDrc
open Verif.Rounding
open Verif.FloatQuadratic (r32 muladd_error)
open Verif.Drc (smoothReLU)

/-- Levels below the knee pass through a compressor bit for bit. The knee width is a float that is not close to underflow. -/
theorem C128_compressor_below {x T ratio w out : ℝ} (hx : binary32 x = x) (hw : 0 ≤ w) (hw2 : binary32 (w / 2) = w / 2)
    (hxT : x ≤ T - w / 2) (h : IsCompressor binary32 x T ratio w out) : out = x := by
  obtain ⟨y, hy, ho⟩ := h
  rw [relu_zero hx hw2 hxT hw hy] at ho
  rcases ho with ho | ho <;> rw [ho] <;> simp [zero, hx]

/-- Levels below the knee pass through a limiter bit for bit. -/
theorem C128_limiter_below {x T w out : ℝ} (hx : binary32 x = x) (hw : 0 ≤ w) (hw2 : binary32 (w / 2) = w / 2)
    (hxT : x ≤ T - w / 2) (h : IsLimiter binary32 x T w out) : out = x := by
  obtain ⟨y, hy, ho⟩ := h
  rw [relu_zero hx hw2 hxT hw hy, zero_add, hx] at ho
  exact ho

/-- With a hard knee, levels above the threshold pass through an expander bit for bit. -/
theorem C128_expander_above {x T ratio out : ℝ} (hx : binary32 x = x) (hxT : T ≤ x)
    (h : IsExpander binary32 x T ratio 0 out) : out = x := by
  obtain ⟨y, hy, ho⟩ := h
  unfold IsSmoothReLU at hy
  rw [if_neg (lt_irrefl _), show T - x = -(x - T) by ring, binary32_regular.neg,
    min_eq_left (by linarith [rnonneg (show 0 ≤ x - T by linarith)])] at hy
  rw [hy, add_neg_cancel, zero] at ho
  rcases ho with ho | ho <;> rw [ho] <;> simp [zero, hx]

/-- A compressor never raises a level, whatever the rounding errors. -/
theorem C128_compressor_not_above {x T ratio w out : ℝ} (hx : binary32 x = x) (hr : 1 ≤ ratio)
    (h : IsCompressor binary32 x T ratio w out) : out ≤ x := by
  obtain ⟨y, hy, ho⟩ := h
  have y0 := relu_le_zero hy
  have i1 : binary32 (1 / ratio) ≤ 1 := by
    have := mono (show 1 / ratio ≤ 1 by rw [div_le_one (by linarith)]; exact hr)
    rwa [binary32_regular.one] at this
  have s0 := rnonneg (show 0 ≤ 1 - binary32 (1 / ratio) by linarith)
  have p0 := mul_nonpos_of_nonpos_of_nonneg y0 s0
  have key : ∀ z, z ≤ 0 → binary32 (z + x) ≤ x := fun z hz => by
    have := mono (show z + x ≤ x by linarith)
    rwa [hx] at this
  rcases ho with ho | ho <;> rw [ho]
  · exact key _ (rnonpos p0)
  · exact key _ p0

/-- A limiter never raises a level. -/
theorem C128_limiter_not_above {x T w out : ℝ} (hx : binary32 x = x) (h : IsLimiter binary32 x T w out) : out ≤ x := by
  obtain ⟨y, hy, ho⟩ := h
  have := mono (show y + x ≤ x by linarith [relu_le_zero hy])
  rw [ho]
  rwa [hx] at this

/-- An expander with a hard knee never raises a level. -/
theorem C128_expander_not_above {x T ratio out : ℝ} (hx : binary32 x = x) (hr : 1 ≤ ratio)
    (h : IsExpander binary32 x T ratio 0 out) : out ≤ x := by
  obtain ⟨y, hy, ho⟩ := h
  unfold IsSmoothReLU at hy
  rw [if_neg (lt_irrefl _), show T - x = -(x - T) by ring, binary32_regular.neg] at hy
  have d0 : binary32 (x - T) + y ≤ 0 := by rw [hy]; linarith [min_le_left (-binary32 (x - T)) 0]
  have p0 := mul_nonpos_of_nonpos_of_nonneg (rnonpos d0) (rnonneg (show 0 ≤ ratio - 1 by linarith))
  have key : ∀ z, z ≤ 0 → binary32 (z + x) ≤ x := fun z hz => by
    have := mono (show z + x ≤ x by linarith)
    rwa [hx] at this
  rcases ho with ho | ho <;> rw [ho]
  · exact key _ (rnonpos p0)
  · exact key _ p0

theorem relu_size {x T w : ℝ} (hw : 0 ≤ w) : |smoothReLU x T w| ≤ |x| + |T| + w := by
  have h := lipschitz x (T - w / 2) T w
  rw [Verif.Drc.relu_below (x := T - w / 2) hw (by linarith), sub_zero] at h
  refine h.trans ?_
  rw [abs_le]
  have := abs_le.1 (le_refl |x|)
  have := abs_le.1 (le_refl |T|)
  constructor <;> linarith

theorem width_nonneg {w : ℝ} (hw : w = 0 ∨ 1 / 2 ^ 20 ≤ w ∧ w ≤ 2 ^ 100) : 0 ≤ w := by
  rcases hw with rfl | ⟨h, -⟩
  · exact le_rfl
  · exact le_trans (by positivity) h

set_option maxHeartbeats 1000000 in
/-- A compressor follows its documented curve to within 20 rounding errors of the levels involved. -/
theorem C128_compressor_error {x T ratio w out : ℝ} (hw : w = 0 ∨ 1 / 2 ^ 20 ≤ w ∧ w ≤ 2 ^ 100) (hr : 1 ≤ ratio)
    (h : IsCompressor binary32 x T ratio w out) :
    |out - Verif.Drc.Spec.compressor x T ratio w| ≤ 20 / 2 ^ 24 * (|x| + |T| + w) + 1 / 2 ^ 118 := by
  obtain ⟨y, hy, ho⟩ := h
  have w0 := width_nonneg hw
  rw [← Verif.Drc.compressor_eq w0]
  unfold Verif.Drc.compressor
  dsimp only
  have E := relu_error hw hy
  have Y := relu_size (x := x) (T := T) w0
  have xS : |x| ≤ |x| + |T| + w := by linarith [abs_nonneg T]
  have S0 : 0 ≤ |x| + |T| + w := by positivity
  generalize |x| + |T| + w = S at *
  generalize smoothReLU x T w = Z at *
  have η0 : (0 : ℝ) < 1 / 2 ^ 120 := by positivity
  have e118 : (1 : ℝ) / 2 ^ 118 = 4 * (1 / 2 ^ 120) := by norm_num
  have e150 : (1 : ℝ) / 2 ^ 150 = 1 / 2 ^ 30 * (1 / 2 ^ 120) := by norm_num
  have e150' : (3 : ℝ) / 2 ^ 150 = 3 / 2 ^ 30 * (1 / 2 ^ 120) := by norm_num
  have i0 : 0 ≤ 1 / ratio := by positivity
  have i1 : 1 / ratio ≤ 1 := by rw [div_le_one (by linarith)]; exact hr
  have tiny : (1 : ℝ) / 2 ^ 120 ≤ 1 / 2 ^ 100 := by norm_num
  obtain ⟨a1, a2⟩ := abs_le.1 (r32 (x := 1 / ratio) (B := 1) (by rw [abs_of_nonneg i0]; exact i1))
  generalize 1 / ratio = i at *
  generalize binary32 i = i' at *
  obtain ⟨b1, b2⟩ := abs_le.1 (r32 (x := 1 - i') (B := 1.01) (by rw [e150] at *; rw [abs_le]; constructor <;> linarith))
  generalize binary32 (1 - i') = s' at *
  rw [e150] at *
  have s'1 : |s'| ≤ 1.01 := by rw [abs_le]; constructor <;> linarith
  have serr : |s' - (1 - i)| ≤ 2.1 / 2 ^ 24 := by rw [abs_le]; constructor <;> linarith
  have P : |y * s' - Z * (1 - i)| ≤ 14.3 / 2 ^ 24 * S + 1.01 * (1 / 2 ^ 120) := by
    rw [show y * s' - Z * (1 - i) = (y - Z) * s' + Z * (s' - (1 - i)) by ring]
    refine (abs_add_le _ _).trans ?_
    rw [abs_mul, abs_mul]
    have h1 := mul_le_mul E s'1 (abs_nonneg _) (by positivity)
    have h2 := mul_le_mul Y serr (abs_nonneg _) S0
    linarith
  have PZ : |Z * (1 - i)| ≤ S := by
    rw [abs_mul]
    have : |1 - i| ≤ 1 := by rw [abs_le]; constructor <;> linarith
    have := mul_le_mul Y this (abs_nonneg _) S0
    linarith
  obtain ⟨p1, p2⟩ := abs_le.1 P
  obtain ⟨q1, q2⟩ := abs_le.1 PZ
  have V := muladd_error ho (A := 1.01 * S + 2 * (1 / 2 ^ 120)) (B := S) (by rw [abs_le]; constructor <;> linarith) xS
  rw [e150'] at V
  obtain ⟨v1, v2⟩ := abs_le.1 V
  rw [e118]
  generalize (1 : ℝ) / 2 ^ 120 = η at *
  rw [abs_le]
  constructor <;> linarith

set_option maxHeartbeats 1000000 in
/-- A limiter follows its documented curve to within 16 rounding errors of the levels involved. -/
theorem C128_limiter_error {x T w out : ℝ} (hw : w = 0 ∨ 1 / 2 ^ 20 ≤ w ∧ w ≤ 2 ^ 100) (h : IsLimiter binary32 x T w out) :
    |out - Verif.Drc.Spec.limiter x T w| ≤ 16 / 2 ^ 24 * (|x| + |T| + w) + 1 / 2 ^ 118 := by
  obtain ⟨y, hy, ho⟩ := h
  have w0 := width_nonneg hw
  rw [← Verif.Drc.limiter_eq w0]
  unfold Verif.Drc.limiter
  have E := relu_error hw hy
  have Y := relu_size (x := x) (T := T) w0
  have xS : |x| ≤ |x| + |T| + w := by linarith [abs_nonneg T]
  have S0 : 0 ≤ |x| + |T| + w := by positivity
  generalize |x| + |T| + w = S at *
  generalize smoothReLU x T w = Z at *
  have η0 : (0 : ℝ) < 1 / 2 ^ 120 := by positivity
  have e118 : (1 : ℝ) / 2 ^ 118 = 4 * (1 / 2 ^ 120) := by norm_num
  have e150 : (1 : ℝ) / 2 ^ 150 = 1 / 2 ^ 30 * (1 / 2 ^ 120) := by norm_num
  obtain ⟨x1, x2⟩ := abs_le.1 xS
  obtain ⟨y1, y2⟩ := abs_le.1 Y
  obtain ⟨z1, z2⟩ := abs_le.1 E
  obtain ⟨a1, a2⟩ := abs_le.1 (r32 (x := y + x) (B := 2.01 * S + 1 / 2 ^ 120) (by rw [abs_le]; constructor <;> linarith))
  rw [← ho, e150] at *
  rw [e118]
  generalize (1 : ℝ) / 2 ^ 120 = η at *
  rw [abs_le]
  constructor <;> linarith

set_option maxHeartbeats 1000000 in
theorem expander_error {x T ratio w out M : ℝ} (hw : w = 0 ∨ 1 / 2 ^ 20 ≤ w ∧ w ≤ 2 ^ 100) (h0 : 0 ≤ ratio) (hM : ratio ≤ M)
    (hr : 1 ≤ M) (h : IsExpander binary32 x T ratio w out) :
    |out - Verif.Drc.Spec.expander x T ratio w| ≤ (30 / 2 ^ 24 * (|x| + |T| + w) + 1 / 2 ^ 118) * M := by
  obtain ⟨y, hy, ho⟩ := h
  have w0 := width_nonneg hw
  rw [← Verif.Drc.expander_eq w0]
  unfold Verif.Drc.expander
  dsimp only
  have E := relu_error hw hy
  have Y := relu_size (x := x) (T := T) w0
  have xS : |x| ≤ |x| + |T| + w := by linarith [abs_nonneg T]
  have xT : |x - T| ≤ |x| + |T| + w := by linarith [abs_sub x T]
  have S0 : 0 ≤ |x| + |T| + w := by positivity
  generalize |x| + |T| + w = S at *
  generalize smoothReLU x T w = Z at *
  have η0 : (0 : ℝ) < 1 / 2 ^ 120 := by positivity
  have e118 : (1 : ℝ) / 2 ^ 118 = 4 * (1 / 2 ^ 120) := by norm_num
  have e150 : (1 : ℝ) / 2 ^ 150 = 1 / 2 ^ 30 * (1 / 2 ^ 120) := by norm_num
  have e150' : (3 : ℝ) / 2 ^ 150 = 3 / 2 ^ 30 * (1 / 2 ^ 120) := by norm_num
  have tiny : (1 : ℝ) / 2 ^ 120 ≤ 1 / 2 ^ 100 := by norm_num
  obtain ⟨y1, y2⟩ := abs_le.1 Y
  obtain ⟨z1, z2⟩ := abs_le.1 E
  obtain ⟨d1, d2⟩ := abs_le.1 xT
  obtain ⟨a1, a2⟩ := abs_le.1 (r32 xT)
  generalize x - T = d at *
  generalize binary32 d = d' at *
  obtain ⟨b1, b2⟩ := abs_le.1 (r32 (x := d' + y) (B := 2.01 * S + 2 * (1 / 2 ^ 120)) (by
    rw [e150] at *; rw [abs_le]; constructor <;> linarith))
  generalize binary32 (d' + y) = D at *
  obtain ⟨c1, c2⟩ := abs_le.1 (r32 (x := ratio - 1) (B := M) (by rw [abs_le]; constructor <;> linarith))
  generalize binary32 (ratio - 1) = s' at *
  rw [e150] at *
  have s'1 : |s'| ≤ 1.01 * M := by rw [abs_le]; constructor <;> linarith
  have serr : |s' - (ratio - 1)| ≤ 1.1 / 2 ^ 24 * M := by rw [abs_le]; constructor <;> linarith
  have Derr : |D - (d + Z)| ≤ 15.2 / 2 ^ 24 * S + 1.1 * (1 / 2 ^ 120) := by rw [abs_le]; constructor <;> linarith
  have DZ : |d + Z| ≤ 2 * S := by rw [abs_le]; constructor <;> linarith
  have P : |D * s' - (d + Z) * (ratio - 1)| ≤ (17.7 / 2 ^ 24 * S + 1.2 * (1 / 2 ^ 120)) * M := by
    rw [show D * s' - (d + Z) * (ratio - 1) = (D - (d + Z)) * s' + (d + Z) * (s' - (ratio - 1)) by ring]
    refine (abs_add_le _ _).trans ?_
    rw [abs_mul, abs_mul]
    have h1 := mul_le_mul Derr s'1 (abs_nonneg _) (by positivity)
    have h2 := mul_le_mul DZ serr (abs_nonneg _) (by positivity)
    have h3 : 0 ≤ S * M := by positivity
    have h4 : 0 ≤ 1 / 2 ^ 120 * M := by positivity
    linarith
  have PZ : |(d + Z) * (ratio - 1)| ≤ 2 * S * M := by
    rw [abs_mul]
    have : |ratio - 1| ≤ M := by rw [abs_le]; constructor <;> linarith
    exact mul_le_mul DZ this (abs_nonneg _) (by positivity)
  obtain ⟨p1, p2⟩ := abs_le.1 P
  obtain ⟨q1, q2⟩ := abs_le.1 PZ
  have h3 : S ≤ S * M := le_mul_of_one_le_right S0 hr
  have h4 : 1 / 2 ^ 120 ≤ 1 / 2 ^ 120 * M := le_mul_of_one_le_right η0.le hr
  have V := muladd_error ho (A := 2.01 * (S * M) + 2 * (1 / 2 ^ 120 * M)) (B := S) (by
    rw [abs_le]; constructor <;> linarith) xS
  rw [e150'] at V
  obtain ⟨v1, v2⟩ := abs_le.1 V
  rw [e118]
  generalize (1 : ℝ) / 2 ^ 120 = η at *
  rw [abs_le]
  constructor <;> linarith

/-- An expander follows its documented curve to within 30 rounding errors of the levels involved, times its ratio. -/
theorem C128_expander_error {x T ratio w out : ℝ} (hw : w = 0 ∨ 1 / 2 ^ 20 ≤ w ∧ w ≤ 2 ^ 100) (hr : 1 ≤ ratio)
    (h : IsExpander binary32 x T ratio w out) :
    |out - Verif.Drc.Spec.expander x T ratio w| ≤ (30 / 2 ^ 24 * (|x| + |T| + w) + 1 / 2 ^ 118) * ratio :=
  expander_error hw (by linarith) le_rfl hr h

/-- An expander used as an upwards compressor, with a ratio of at most one. -/
theorem C128_upwards_error {x T ratio w out : ℝ} (hw : w = 0 ∨ 1 / 2 ^ 20 ≤ w ∧ w ≤ 2 ^ 100) (h0 : 0 ≤ ratio) (hr : ratio ≤ 1)
    (h : IsExpander binary32 x T ratio w out) :
    |out - Verif.Drc.Spec.expander x T ratio w| ≤ 30 / 2 ^ 24 * (|x| + |T| + w) + 1 / 2 ^ 118 := by
  have := expander_error hw h0 hr le_rfl h
  rwa [mul_one] at this

/-- A limiter can exceed its threshold: the threshold is lost when it is subtracted from the level and added back. A level of 1 and
a threshold of -2^-30 give 0. -/
theorem C128_limiter_violation {out : ℝ} (h : IsLimiter binary32 1 (-(1 / 2 ^ 30)) 0 out) : -(1 / 2 ^ 30) < out := by
  obtain ⟨y, hy, ho⟩ := h
  unfold IsSmoothReLU at hy
  have e : binary32 (1 + 1 / 2 ^ 30) = 1 := by
    have := ieee_eq (p := 24) (emin := -149) (e := -23) (m := 2 ^ 23) (x := 1 + 1 / 2 ^ 30) (by norm_num) (by norm_num)
      (by norm_num) (Or.inl (by norm_num [abs_lt, zpow_neg]))
    unfold binary32
    rw [this]; norm_num
  rw [if_neg (lt_irrefl _), show (-(1 / 2 ^ 30) - 1 : ℝ) = -(1 + 1 / 2 ^ 30) by ring, binary32_regular.neg, e,
    min_eq_left (by norm_num)] at hy
  rw [ho, hy]
  norm_num [zero]

theorem exact (m e : ℤ) (hm : |m| ≤ 2 ^ 24) (he : -149 ≤ e) {v : ℝ} (h : v = m * 2 ^ e) : binary32 v = v :=
  ieee_of_representable (by norm_num) ⟨m, e, hm, he, h⟩

/-- An expander with a soft knee can raise a level: 8 dB with a threshold of 0 dB, a knee of 2^-20 dB and a ratio of 5 gives
8 + 2^-19 dB. -/
theorem C128_expander_violation {out : ℝ} (h : IsExpander binary32 8 0 5 (1 / 2 ^ 20) out) : out = 8 + 1 / 2 ^ 19 := by
  obtain ⟨y, hy, ho⟩ := h
  unfold IsSmoothReLU at hy
  rw [if_pos (by positivity)] at hy
  dsimp only at hy
  obtain ⟨s, hs, rfl⟩ := hy
  have v1 : binary32 ((1 / 2 ^ 20 : ℝ) / 2) = 1 / 2 ^ 21 := by
    rw [exact 1 (-21) (by norm_num) (by norm_num) (by norm_num [zpow_neg])]; norm_num
  have v2 : binary32 (0 - 1 / 2 ^ 21) = -(1 / 2 ^ 21) := by
    rw [exact (-1) (-21) (by norm_num) (by norm_num) (by norm_num [zpow_neg])]; norm_num
  have v3 : binary32 (8 - -(1 / 2 ^ 21)) = 8 := by
    have := ieee_eq (p := 24) (emin := -149) (e := -20) (m := 2 ^ 23) (x := 8 - -(1 / 2 ^ 21)) (by norm_num) (by norm_num)
      (by norm_num) (Or.inr ⟨by norm_num [abs_le, zpow_neg], by norm_num⟩)
    unfold binary32
    rw [this]; norm_num [zpow_neg]
  have v4 : binary32 (1 / (1 / 2 ^ 20)) = 2 ^ 20 := by
    rw [exact (2 ^ 20) 0 (by norm_num) (by norm_num) (by norm_num)]; norm_num
  have v5 : min (max (8 : ℝ) 0) (1 / 2 ^ 20) * 8 = 1 / 2 ^ 17 := by norm_num
  have v6 : binary32 (1 / 2 ^ 17) = 1 / 2 ^ 17 := exact 1 (-17) (by norm_num) (by norm_num) (by norm_num [zpow_neg])
  have v7 : binary32 (8 - 1 / 2 ^ 20) = 8 - 1 / 2 ^ 20 :=
    exact (2 ^ 23 - 1) (-20) (by norm_num) (by norm_num) (by norm_num [zpow_neg])
  have v8 : binary32 8 = 8 := exact 8 0 (by norm_num) (by norm_num) (by norm_num)
  have v9 : binary32 (16 - 1 / 2 ^ 20) = 16 - 1 / 2 ^ 20 :=
    exact (2 ^ 24 - 1) (-20) (by norm_num) (by norm_num) (by norm_num [zpow_neg])
  have v10 : binary32 (-(8 - 1 / 2 ^ 21)) = -(8 - 1 / 2 ^ 21) :=
    exact (-(2 ^ 24 - 1)) (-21) (by norm_num) (by norm_num) (by norm_num [zpow_neg])
  have v11 : binary32 (1 / 2 ^ 21) = 1 / 2 ^ 21 := exact 1 (-21) (by norm_num) (by norm_num) (by norm_num [zpow_neg])
  have v12 : binary32 4 = 4 := exact 4 0 (by norm_num) (by norm_num) (by norm_num)
  have v13 : binary32 (1 / 2 ^ 19) = 1 / 2 ^ 19 := exact 1 (-19) (by norm_num) (by norm_num) (by norm_num [zpow_neg])
  have v14 : binary32 (8 + 1 / 2 ^ 19) = 8 + 1 / 2 ^ 19 :=
    exact (2 ^ 22 + 1) (-19) (by norm_num) (by norm_num) (by norm_num [zpow_neg])
  rw [v1, v2, v3, v4, v5, v6, v7] at hs
  have s0 : s = 16 - 1 / 2 ^ 20 := by
    rw [max_eq_left (by norm_num)] at hs
    rcases hs with hs | hs
    · rw [hs, show (1 / 2 ^ 17 * 2 ^ 20 : ℝ) = 8 by norm_num, v8, show (8 + (8 - 1 / 2 ^ 20) : ℝ) = 16 - 1 / 2 ^ 20 by norm_num, v9]
    · rw [hs, show (1 / 2 ^ 17 * 2 ^ 20 + (8 - 1 / 2 ^ 20) : ℝ) = 16 - 1 / 2 ^ 20 by norm_num, v9]
  rw [s0, show (-(1 / 2) * (16 - 1 / 2 ^ 20) : ℝ) = -(8 - 1 / 2 ^ 21) by norm_num, v10, sub_zero, v8,
    show (8 + -(8 - 1 / 2 ^ 21) : ℝ) = 1 / 2 ^ 21 by norm_num, v11, show (5 - 1 : ℝ) = 4 by norm_num, v12] at ho
  rcases ho with ho | ho
  · rw [ho, show (1 / 2 ^ 21 * 4 : ℝ) = 1 / 2 ^ 19 by norm_num, v13, show (1 / 2 ^ 19 + 8 : ℝ) = 8 + 1 / 2 ^ 19 by norm_num, v14]
  · rw [ho, show (1 / 2 ^ 21 * 4 + 8 : ℝ) = 8 + 1 / 2 ^ 19 by norm_num, v14]

/-- A compressor with a ratio of 4, a threshold of -20 dB and a knee of 8 dB: the hypotheses of the theorems above hold, and the
computation has a result. -/
example : ∃ out, IsCompressor binary32 (-18) (-20) 4 8 out ∧ out ≤ -18 ∧
    |out - Verif.Drc.Spec.compressor (-18) (-20) 4 8| ≤ 1 / 2 ^ 14 := by
  have hx : binary32 (-18) = -18 := by
    have := Verif.FloatQuadratic.int_exact (n := -18) (by norm_num)
    exact_mod_cast this
  have : ∃ out, IsCompressor binary32 (-18) (-20) 4 8 out := by
    unfold IsCompressor IsSmoothReLU
    simp only [show (0 : ℝ) < 8 by norm_num, if_true]
    exact ⟨_, _, ⟨_, Or.inl rfl, rfl⟩, Or.inl rfl⟩
  obtain ⟨out, h⟩ := this
  refine ⟨out, h, C128_compressor_not_above hx (by norm_num) h, (C128_compressor_error (Or.inr (by norm_num)) (by norm_num) h).trans ?_⟩
  norm_num

end Verif.FloatDrc
