import Verif.Proof.FloatSmoothers

/-!
# C110: the vector smoothers in floating point
-/

namespace Verif.FloatSmoothers
open Verif.Rounding Verif.VectorUtil Finset

section
variable {rnd : ℝ → ℝ} {u η c : ℝ}

/-- **C110.** `ForwardSmoothVector` computes the exponential average with an error that does not grow with the length of the
container: at most a few rounding units divided by the coefficient. -/
theorem C110_forward (hr : Accurate rnd u η) (u0 : 0 ≤ u) (u1 : u ≤ 1 / 64) (c0 : 0 < c) (c1 : c ≤ 1) {B : ℝ}
    (hB : 2 * (7 * u + u / c) * B + 4 * η / c ≤ B) {s : ℝ} {x : List ℝ} (hs : |s| ≤ B) (hx : ∀ v ∈ x, |v| ≤ B)
    {t : ℝ} {y : List ℝ} (h : Forward rnd c s x t y) :
    y.length = x.length ∧ ∀ n (hn : n < y.length),
      |y[n] - ((1 - c) ^ (n + 1) * s + ∑ k ∈ range (n + 1), c * (1 - c) ^ k * x.getD (n - k) 0)| ≤
        2 * (7 * u + u / c) * B + 4 * η / c := by
  have B0 : 0 ≤ B := (abs_nonneg s).trans hs
  have f := (forward_close hr u0 u1 c0 c1 (ε := 0) rfl B0 le_rfl (by rw [zero_add]; exact hB) hs hx
    (by rw [sub_self, abs_zero, zero_add]; exact passError_nonneg u0 hr.eta_nonneg c0 B0)
    (x' := x) (List.forall₂_same.2 (by simp)) h).2
  obtain ⟨l, e, -⟩ := C64_forward c s x
  have hl : y.length = x.length := f.length_eq.symm.trans l
  refine ⟨hl, fun n hn => ?_⟩
  have := f.get (i := n) (by omega) hn
  have e' := e n (by omega)
  rw [List.getElem?_eq_getElem (by omega), Option.some.injEq] at e'
  rw [List.get_eq_getElem, List.get_eq_getElem, e', zero_add] at this
  exact this

/-- **C110.** The same for `BackwardSmoothVector`. -/
theorem C110_backward (hr : Accurate rnd u η) (u0 : 0 ≤ u) (u1 : u ≤ 1 / 64) (c0 : 0 < c) (c1 : c ≤ 1) {B : ℝ}
    (hB : 2 * (7 * u + u / c) * B + 4 * η / c ≤ B) {s : ℝ} {x : List ℝ} (hs : |s| ≤ B) (hx : ∀ v ∈ x, |v| ≤ B)
    {t : ℝ} {y : List ℝ} (h : Backward rnd c s x t y) :
    y.length = x.length ∧ ∀ n (hn : n < y.length),
      |y[n] - ((1 - c) ^ (x.length - n) * s + ∑ k ∈ range (x.length - n), c * (1 - c) ^ k * x.getD (n + k) 0)| ≤
        2 * (7 * u + u / c) * B + 4 * η / c := by
  have B0 : 0 ≤ B := (abs_nonneg s).trans hs
  have f := (backward_close hr u0 u1 c0 c1 (ε := 0) rfl B0 le_rfl (by rw [zero_add]; exact hB) hs hx
    (by rw [sub_self, abs_zero, zero_add]; exact passError_nonneg u0 hr.eta_nonneg c0 B0)
    (x' := x) (List.forall₂_same.2 (by simp)) h).2
  have l := f.length_eq
  rw [backwardSmooth_length] at l
  refine ⟨l.symm, fun n hn => ?_⟩
  have := f.get (i := n) (by rw [backwardSmooth_length]; omega) hn
  have e' := C64_backward c s x n (by omega)
  rw [List.getElem?_eq_getElem (by rw [backwardSmooth_length]; omega), Option.some.injEq] at e'
  rw [List.get_eq_getElem, List.get_eq_getElem, e', zero_add] at this
  exact this

/-- **C110.** `SmoothVector` differs from the exact smoother (`smoothVector`, C64) by at most four times that. -/
theorem C110_smooth (hr : Accurate rnd u η) (u0 : 0 ≤ u) (u1 : u ≤ 1 / 64) (hη : η ≤ u) (c0 : 0 < c) (c1 : c ≤ 1) {B : ℝ}
    (hB : 4 * (2 * (7 * u + u / c) * B + 4 * η / c) ≤ B) {x y : List ℝ} (hx : ∀ v ∈ x, |v| ≤ B) (h : Smooth rnd c x y) :
    ∃ z, smoothVector c x = .ok z ∧ y.length = x.length ∧ z.length = x.length ∧
      ∀ n (hn : n < y.length), |y[n] - z.getD n 0| ≤ 4 * (2 * (7 * u + u / c) * B + 4 * η / c) := by
  cases x with
  | nil => exact h.elim
  | cons x0 x =>
    obtain ⟨s1, y1, s2, h1, h2⟩ := h
    have hx0 := hx x0 (by simp)
    have B0 : 0 ≤ B := (abs_nonneg _).trans hx0
    have G0 := passError_nonneg u0 hr.eta_nonneg c0 B0
    change 4 * passError u η c B ≤ B at hB
    change ∃ z, _ ∧ _ ∧ _ ∧ ∀ n hn, _ ≤ 4 * passError u η c B
    have p1 := pass_close hr u0 u1 hη c0 c1 rfl B0 le_rfl (by linarith) hx0 hx (s' := x0) (by simp)
      (x' := x0 :: x) (List.forall₂_same.2 (by simp)) h1
    have b : -B ≤ 0 := by linarith
    have r1 := smoothPass_range c (-B) B c0.le c1 b B0 (x0, x0 :: x) (abs_le.1 hx0) (fun v hv => abs_le.1 (hx v hv))
    have p2 := pass_close hr u0 u1 hη c0 c1 rfl B0 (by linarith) (by linarith) (abs_le.2 r1.1)
      (fun v hv => abs_le.2 (r1.2.1 v hv)) p1.1 p1.2 h2
    have r2 := smoothPass_range c (-B) B c0.le c1 b B0 _ r1.1 r1.2.1
    have l1 : (smoothPass c (smoothPass c (x0, x0 :: x))).2.length = (x0 :: x).length := r2.2.2.trans r1.2.2
    have l2 := p2.2.length_eq
    refine ⟨_, rfl, l2.symm.trans l1, l1, fun n hn => ?_⟩
    have := p2.2.get (i := n) (l2.symm ▸ hn) hn
    rw [List.get_eq_getElem, List.get_eq_getElem, zero_add] at this
    rw [List.getD_eq_getElem _ _ (l2.symm ▸ hn)]
    exact this.trans (by linarith)

end

/-! ### Range, in `float` -/

section
variable {c : ℝ}

/-- Below the smallest normal number the difference of two `float` numbers is exact. -/
theorem sub_exact {a b : ℝ} (ha : binary32 a = a) (hb : binary32 b = b) (h : |a - b| ≤ 1 / 2 ^ 126) :
    binary32 (a - b) = a - b := by
  obtain ⟨m, e, -, he, h1⟩ := ieee_representable 24 (-149) a
  obtain ⟨m', e', -, he', h1'⟩ := ieee_representable 24 (-149) b
  change binary32 a = _ at h1
  change binary32 b = _ at h1'
  rw [ha, two_zpow_split he] at h1
  rw [hb, two_zpow_split he'] at h1'
  refine ieee_of_representable (by norm_num) ⟨m * 2 ^ (e - -149).toNat - m' * 2 ^ (e' - -149).toNat, -149, ?_, le_rfl, ?_⟩
  · have e1 : a - b = ((m * 2 ^ (e - -149).toNat - m' * 2 ^ (e' - -149).toNat : ℤ) : ℝ) * 2 ^ (-149 : ℤ) := by
      rw [h1, h1']; push_cast; ring
    rw [e1, abs_mul, abs_of_pos (zpow_pos (by norm_num : (0 : ℝ) < 2) _)] at h
    have h2 : |((m * 2 ^ (e - -149).toNat - m' * 2 ^ (e' - -149).toNat : ℤ) : ℝ)| ≤ 2 ^ 23 := by
      rw [← le_div_iff₀ (zpow_pos (by norm_num : (0 : ℝ) < 2) _)] at h
      refine h.trans (le_of_eq ?_)
      norm_num
    have : |m * 2 ^ (e - -149).toNat - m' * 2 ^ (e' - -149).toNat| ≤ 2 ^ 23 := by exact_mod_cast h2
    exact this.trans (by norm_num)
  · rw [h1, h1']; push_cast; ring

/-- The step does not go beyond an upper bound. -/
theorem step_le (c0 : 0 ≤ c) (c1 : c ≤ 1 - 4 / 2 ^ 24) {hi s x s1 : ℝ} (hh : binary32 hi = hi) (hs : binary32 s = s)
    (hsB : s ≤ hi) (hx : x ≤ hi) (h : IsMulAdd binary32 c (binary32 (x - s)) s s1) : s1 ≤ hi := by
  have R := binary32_regular
  have y0 : 0 ≤ hi - s := by linarith
  have d : binary32 (x - s) ≤ binary32 (hi - s) := R.mono (by linarith)
  have cd : c * binary32 (x - s) ≤ c * binary32 (hi - s) := mul_le_mul_of_nonneg_left d c0
  have ry0 : 0 ≤ binary32 (hi - s) := R.nonneg y0
  have key : c * binary32 (hi - s) ≤ hi - s ∧ binary32 (c * binary32 (hi - s)) ≤ hi - s := by
    have c1' : c ≤ 1 := c1.trans (by norm_num)
    by_cases hy : binary32 (hi - s) ≤ hi - s
    · have a : c * binary32 (hi - s) ≤ binary32 (hi - s) := mul_le_of_le_one_left ry0 c1'
      refine ⟨a.trans hy, (R.mono a).trans ?_⟩
      rw [R.idem]
      exact hy
    · have big : 1 / 2 ^ 126 < hi - s := by
        by_contra h'
        push Not at h'
        apply hy
        rw [sub_exact hh hs (by rwa [abs_of_nonneg y0])]
      generalize hi - s = y at *
      have e1 := (abs_le.1 (binary32_accurate y)).2
      rw [abs_of_nonneg y0] at e1
      have e2 : c * binary32 y ≤ (1 - 4 / 2 ^ 24) * ((1 + 2 / 2 ^ 24) * y) := by
        apply mul_le_mul c1 _ ry0 (by norm_num)
        norm_num at big e1 ⊢
        linarith
      have e3 := (abs_le.1 (binary32_accurate (c * binary32 y))).2
      rw [abs_of_nonneg (mul_nonneg c0 ry0)] at e3
      constructor
      · refine e2.trans ?_
        norm_num
        linarith
      · norm_num at big e2 e3 ⊢
        linarith
  rcases h with rfl | rfl
  · have := R.mono (show binary32 (c * binary32 (x - s)) + s ≤ hi by linarith [R.mono cd])
    rwa [hh] at this
  · have := R.mono (show c * binary32 (x - s) + s ≤ hi by linarith)
    rwa [hh] at this

theorem isMulAdd_neg {x s s1 : ℝ} (h : IsMulAdd binary32 c (binary32 (x - s)) s s1) :
    IsMulAdd binary32 c (binary32 (-x - -s)) (-s) (-s1) := by
  have R := binary32_regular
  rw [show -x - -s = -(x - s) by ring, R.neg]
  rcases h with rfl | rfl
  · left; rw [← R.neg, mul_neg, R.neg (c * _)]; congr 1; ring
  · right; rw [← R.neg]; congr 1; ring

/-- The step stays in a range, and is a `float`. -/
theorem step_range (c0 : 0 ≤ c) (c1 : c ≤ 1 - 4 / 2 ^ 24) {lo hi s x s1 : ℝ} (hl : binary32 lo = lo) (hh : binary32 hi = hi)
    (hs : binary32 s = s) (hsB : lo ≤ s ∧ s ≤ hi) (hx : lo ≤ x ∧ x ≤ hi) (h : IsMulAdd binary32 c (binary32 (x - s)) s s1) :
    (lo ≤ s1 ∧ s1 ≤ hi) ∧ binary32 s1 = s1 := by
  have R := binary32_regular
  refine ⟨⟨?_, step_le c0 c1 hh hs hsB.2 hx.2 h⟩, ?_⟩
  · have := step_le c0 c1 (hi := -lo) (s := -s) (x := -x) (s1 := -s1) (by rw [R.neg, hl]) (by rw [R.neg, hs])
      (by linarith) (by linarith) (isMulAdd_neg h)
    linarith
  · rcases h with rfl | rfl <;> exact R.idem _

theorem forward_range (c0 : 0 ≤ c) (c1 : c ≤ 1 - 4 / 2 ^ 24) {lo hi : ℝ} (hl : binary32 lo = lo) (hh : binary32 hi = hi) :
    ∀ {x : List ℝ} {s t : ℝ} {y : List ℝ}, binary32 s = s → lo ≤ s ∧ s ≤ hi → (∀ v ∈ x, lo ≤ v ∧ v ≤ hi) →
      Forward binary32 c s x t y → ((lo ≤ t ∧ t ≤ hi) ∧ binary32 t = t) ∧ ∀ v ∈ y, lo ≤ v ∧ v ≤ hi := by
  intro x
  induction x with
  | nil =>
    rintro s t y hs hsB _ ⟨rfl, rfl⟩
    exact ⟨⟨hsB, hs⟩, by simp⟩
  | cons v x ih =>
    rintro s t y hs hsB hx ⟨s1, y', h1, h2, rfl⟩
    obtain ⟨a, b⟩ := step_range c0 c1 hl hh hs hsB (hx v (by simp)) h1
    obtain ⟨i1, i2⟩ := ih b a (fun w hw => hx w (by simp [hw])) h2
    refine ⟨i1, ?_⟩
    intro w hw
    rcases List.mem_cons.1 hw with rfl | hw
    · exact a
    · exact i2 w hw

/-- **C110.** In `float`, for coefficients up to `1 - 2 ^ -22`, smoothing leaves no range that contains the elements and the
state: not by one rounding error. -/
theorem C110_range (c0 : 0 ≤ c) (c1 : c ≤ 1 - 4 / 2 ^ 24) {lo hi : ℝ} (hl : binary32 lo = lo) (hh : binary32 hi = hi)
    {x : List ℝ} {s t : ℝ} {y : List ℝ} (hs : binary32 s = s) (hsB : lo ≤ s ∧ s ≤ hi) (hx : ∀ v ∈ x, lo ≤ v ∧ v ≤ hi) :
    (Forward binary32 c s x t y → ∀ v ∈ y, lo ≤ v ∧ v ≤ hi) ∧
    (Backward binary32 c s x t y → ∀ v ∈ y, lo ≤ v ∧ v ≤ hi) := by
  refine ⟨fun h => (forward_range c0 c1 hl hh hs hsB hx h).2, fun h => ?_⟩
  have := (forward_range c0 c1 hl hh hs hsB (by simpa using hx) h).2
  simpa using this

theorem scale_range (c0 : 0 ≤ c) (c1 : c ≤ 1) {lo hi s : ℝ} (hs : binary32 s = s) (hlo : lo ≤ 0) (hhi : 0 ≤ hi)
    (hsB : lo ≤ s ∧ s ≤ hi) : lo ≤ binary32 (s * binary32 (1 - c)) ∧ binary32 (s * binary32 (1 - c)) ≤ hi := by
  have R := binary32_regular
  have r0 : 0 ≤ binary32 (1 - c) := R.nonneg (by linarith)
  have r1 : binary32 (1 - c) ≤ 1 := by
    have := R.mono (show 1 - c ≤ 1 by linarith)
    rwa [R.one] at this
  rcases le_total 0 s with h | h
  · have a := R.nonneg (mul_nonneg h r0)
    have b := R.mono (show s * binary32 (1 - c) ≤ s from mul_le_of_le_one_right h r1)
    rw [hs] at b
    exact ⟨hlo.trans a, b.trans hsB.2⟩
  · have a := R.mono (show s * binary32 (1 - c) ≤ 0 from mul_nonpos_of_nonpos_of_nonneg h r0)
    have b := R.mono (show s ≤ s * binary32 (1 - c) by nlinarith)
    rw [hs] at b
    rw [R.zero] at a
    exact ⟨hsB.1.trans b, a.trans hhi⟩

theorem pass_range (c0 : 0 ≤ c) (c1 : c ≤ 1 - 4 / 2 ^ 24) {lo hi : ℝ} (hl : binary32 lo = lo) (hh : binary32 hi = hi)
    (hlo : lo ≤ 0) (hhi : 0 ≤ hi) {x : List ℝ} {s t : ℝ} {y : List ℝ} (hs : binary32 s = s) (hsB : lo ≤ s ∧ s ≤ hi)
    (hx : ∀ v ∈ x, lo ≤ v ∧ v ≤ hi) (h : Pass binary32 c s x t y) :
    ((lo ≤ t ∧ t ≤ hi) ∧ binary32 t = t) ∧ ∀ v ∈ y, lo ≤ v ∧ v ≤ hi := by
  have R := binary32_regular
  have c1' : c ≤ 1 := c1.trans (by norm_num)
  obtain ⟨s1, y1, hf, hb⟩ := h
  obtain ⟨⟨a1, a2⟩, a3⟩ := forward_range c0 c1 hl hh (R.idem _) (scale_range c0 c1' hs hlo hhi hsB) hx hf
  obtain ⟨b1, b2⟩ := forward_range c0 c1 hl hh (R.idem _) (scale_range c0 c1' a2 hlo hhi a1) (by simpa using a3) hb
  exact ⟨b1, by simpa using b2⟩

/-- **C110.** The same for `SmoothVector` and ranges that contain zero. -/
theorem C110_smooth_range (c0 : 0 ≤ c) (c1 : c ≤ 1 - 4 / 2 ^ 24) {lo hi : ℝ} (hl : binary32 lo = lo) (hh : binary32 hi = hi)
    (hlo : lo ≤ 0) (hhi : 0 ≤ hi) {x y : List ℝ} (hf : ∀ v ∈ x, binary32 v = v) (hx : ∀ v ∈ x, lo ≤ v ∧ v ≤ hi)
    (h : Smooth binary32 c x y) : ∀ v ∈ y, lo ≤ v ∧ v ≤ hi := by
  cases x with
  | nil => exact h.elim
  | cons x0 x =>
    obtain ⟨s1, y1, s2, h1, h2⟩ := h
    obtain ⟨⟨a1, a2⟩, a3⟩ := pass_range c0 c1 hl hh hlo hhi (hf x0 (by simp)) (hx x0 (by simp)) hx h1
    exact (pass_range c0 c1 hl hh hlo hhi a2 a1 a3 h2).2

end

/-! ### The coefficient 1 -/

/-- With the coefficient 1 the state becomes the rounded sum of itself and the rounded difference. -/
theorem step_one {s x d r s1 : ℝ} (h : IsMulAdd binary32 1 (binary32 (x - s)) s s1) (hd : binary32 (x - s) = d)
    (hr : binary32 (d + s) = r) : s1 = r := by
  have R := binary32_regular
  rcases h with rfl | rfl
  · rw [one_mul, R.idem, hd, hr]
  · rw [one_mul, hd, hr]

theorem float_int {x : ℝ} (m : ℤ) (e : ℤ) (h : |m| ≤ 2 ^ 24) (he : -149 ≤ e) (hx : x = m * 2 ^ e) : binary32 x = x :=
  ieee_of_representable (by norm_num) ⟨m, e, h, he, hx⟩

/-- **C110 is violated.** For scales up to 0.01, here 0, `SmootherCoefficientFromScale` returns 1 ("negligible smoothing requested"), but
`SmoothVector` with the coefficient 1 changes the signal: it turns `{-16777216, 3}` into `{-16777216, 4}`, which is not even
in the range of the signal. -/
theorem C110_identity_violation {y : List ℝ} (h : Smooth binary32 (smootherCoefficient 0) [-16777216, 3] y) :
    y = [-16777216, 4] := by
  have R := binary32_regular
  have one : smootherCoefficient 0 = 1 := by
    unfold smootherCoefficient
    rw [if_pos (by norm_num)]
  rw [one] at h
  obtain ⟨s1, y1, s2, h1, h2⟩ := h
  have z : binary32 (1 - 1) = 0 := by rw [sub_self, R.zero]
  have f0 : binary32 (-16777216) = -16777216 := float_int (-16777216) 0 (by norm_num) (by norm_num) (by norm_num)
  have f3 : binary32 (3 - -16777216) = 16777220 := by
    unfold binary32
    rw [ieee_eq (e := 1) (m := 8388610) (by norm_num) (by norm_num) (by norm_num) (by rw [abs_lt, abs_le]; norm_num)]
    norm_num
  have f4 : binary32 4 = 4 := float_int 4 0 (by norm_num) (by norm_num) (by norm_num)
  have f5 : binary32 (4 - -16777216) = 16777220 := by
    rw [float_int 8388610 1 (by norm_num) (by norm_num) (by norm_num)]
    norm_num
  have f6 : binary32 (-16777216 - 4) = -16777220 := by
    rw [float_int (-8388610) 1 (by norm_num) (by norm_num) (by norm_num)]
    norm_num
  -- a pass over `{-16777216, v}`
  have key : ∀ s v t (y : List ℝ), binary32 (v - -16777216) = 16777220 → Pass binary32 1 s [-16777216, v] t y →
      y = [-16777216, 4] := by
    rintro s v t y hv ⟨s1, y1, hf, hb⟩
    rw [z, mul_zero, R.zero] at hf hb
    obtain ⟨a1, y', a2, ⟨b1, y'', b2, ⟨-, rfl⟩, rfl⟩, rfl⟩ := hf
    have e1 := step_one a2 (d := -16777216) (by rw [sub_zero, f0]) (by rw [add_zero, f0])
    subst e1
    have e2 := step_one b2 (d := 16777220) hv (r := 4) (by rw [show (16777220 : ℝ) + -16777216 = 4 by norm_num, f4])
    subst e2
    obtain ⟨c1, z', c2, ⟨d1, z'', d2, ⟨-, rfl⟩, rfl⟩, hy⟩ := hb
    have e3 := step_one c2 (d := 4) (by rw [sub_zero, f4]) (by rw [add_zero, f4])
    subst e3
    have e4 := step_one d2 (d := -16777220) f6 (r := -16777216)
      (by rw [show (-16777220 : ℝ) + 4 = -16777216 by norm_num, f0])
    subst e4
    have := congrArg List.reverse hy
    simpa using this
  have r1 := key _ _ _ _ f3 h1
  subst r1
  exact key _ _ _ _ f5 h2

/-! ### The hypotheses are met -/

theorem Forward.exists (rnd : ℝ → ℝ) (c : ℝ) (x : List ℝ) : ∀ s, ∃ t y, Forward rnd c s x t y := by
  induction x with
  | nil => exact fun s => ⟨s, [], rfl, rfl⟩
  | cons v x ih =>
    intro s
    obtain ⟨t, y, h⟩ := ih (rnd (rnd (c * rnd (v - s)) + s))
    exact ⟨t, _, _, y, Or.inl rfl, h, rfl⟩

theorem Smooth.exists (rnd : ℝ → ℝ) (c : ℝ) {x : List ℝ} (hx : x ≠ []) : ∃ y, Smooth rnd c x y := by
  have p : ∀ s x, ∃ t y, Pass rnd c s x t y := by
    intro s x
    obtain ⟨s1, y1, h1⟩ := Forward.exists rnd c x (rnd (s * rnd (1 - c)))
    obtain ⟨t, y, h2⟩ := Forward.exists rnd c y1.reverse (rnd (s1 * rnd (1 - c)))
    exact ⟨t, y.reverse, s1, y1, h1, by unfold Backward; rwa [List.reverse_reverse]⟩
  cases x with
  | nil => exact absurd rfl hx
  | cons x0 x =>
    obtain ⟨s1, y1, h1⟩ := p x0 (x0 :: x)
    obtain ⟨s2, y2, h2⟩ := p s1 y1
    exact ⟨y2, s1, y1, s2, h1, h2⟩

/-- The container of the violation. -/
example : Smooth binary32 (smootherCoefficient 0) [-16777216, 3] [-16777216, 4] := by
  obtain ⟨y, h⟩ := Smooth.exists binary32 (smootherCoefficient 0) (x := [-16777216, 3]) (by simp)
  exact C110_identity_violation h ▸ h

/-- Any container of numbers up to 1, coefficient 1/8: the error is below 0.00001, and the range kept. -/
example {x : List ℝ} (hne : x ≠ []) (hf : ∀ v ∈ x, binary32 v = v) (hx : ∀ v ∈ x, -1 ≤ v ∧ v ≤ 1) :
    ∃ y z, Smooth binary32 (1 / 8) x y ∧ smoothVector (1 / 8) x = .ok z ∧ (∀ v ∈ y, -1 ≤ v ∧ v ≤ 1) ∧
      ∀ n (hn : n < y.length), |y[n] - z.getD n 0| ≤ 1 / 100000 := by
  have R := binary32_regular
  obtain ⟨y, h⟩ := Smooth.exists binary32 (1 / 8) hne
  obtain ⟨z, h1, -, -, h2⟩ := C110_smooth binary32_accurate (by norm_num) (by norm_num) (by norm_num) (by norm_num) (by norm_num)
    (B := 1) (by norm_num) (fun v hv => abs_le.2 (hx v hv)) h
  refine ⟨y, z, h, h1, C110_smooth_range (by norm_num) (by norm_num) (by rw [R.neg, R.one]) R.one (by norm_num) (by norm_num)
    hf hx h, fun n hn => (h2 n hn).trans (by norm_num)⟩

/-- A step from 0 to 1. -/
example : ∃ t y, Forward binary32 (1 / 4) 0 [1, 1, 1] t y ∧ ∀ v ∈ y, (0 : ℝ) ≤ v ∧ v ≤ 1 := by
  have R := binary32_regular
  obtain ⟨t, y, h⟩ := Forward.exists binary32 (1 / 4) [1, 1, 1] 0
  exact ⟨t, y, h, (C110_range (by norm_num) (by norm_num) R.zero R.one R.zero (by norm_num) (by simp)).1 h⟩

end Verif.FloatSmoothers
