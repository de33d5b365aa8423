import Verif.Theorems.WindowFourier
import Verif.Theorems.Bessel

/-!
# C62: accuracy of the quadrature used for the Kaiser and the Planck-taper window
-/

namespace Verif.Windows
open Verif.WindowSpec MeasureTheory

/-- The trapezoidal rule on one cell on which the window is monotone. -/
theorem cell {w : ℝ → ℝ} {a b ω : ℝ} (hab : a ≤ b)
    (hw : ∀ x, a ≤ x → x ≤ b → (w a ≤ w x ∧ w x ≤ w b) ∨ (w b ≤ w x ∧ w x ≤ w a)) (h01 : ∀ x, 0 ≤ w x ∧ w x ≤ 1)
    (hi : IntervalIntegrable (fun x => w x * Real.cos (ω * x)) volume a b) :
    |(∫ x in a..b, w x * Real.cos (ω * x)) - (b - a) * ((w a * Real.cos (ω * a) + w b * Real.cos (ω * b)) / 2)| ≤
      (b - a) * (|w a - w b| / 2 + |ω| * (b - a) / 2) := by
  have e : (∫ x in a..b, w x * Real.cos (ω * x)) - (b - a) * ((w a * Real.cos (ω * a) + w b * Real.cos (ω * b)) / 2) =
      ∫ x in a..b, (w x * Real.cos (ω * x) - (w a * Real.cos (ω * a) + w b * Real.cos (ω * b)) / 2) := by
    rw [intervalIntegral.integral_sub hi intervalIntegrable_const, intervalIntegral.integral_const, smul_eq_mul]
  rw [e]
  have := intervalIntegral.norm_integral_le_of_norm_le_const (a := a) (b := b)
    (f := fun x => w x * Real.cos (ω * x) - (w a * Real.cos (ω * a) + w b * Real.cos (ω * b)) / 2)
    (C := |w a - w b| / 2 + |ω| * (b - a) / 2) ?_
  · rw [Real.norm_eq_abs, abs_of_nonneg (sub_nonneg.2 hab)] at this
    linarith
  · intro x hx
    rw [Set.uIoc_of_le hab] at hx
    have x1 := hx.1.le
    have x2 := hx.2
    have ca := Real.abs_cos_sub_cos_le (ω * x) (ω * a)
    have cb := Real.abs_cos_sub_cos_le (ω * x) (ω * b)
    rw [← mul_sub, abs_mul, abs_of_nonneg (sub_nonneg.2 x1)] at ca
    rw [← mul_sub, abs_mul, abs_of_nonpos (sub_nonpos.2 x2)] at cb
    have wa : |(w x - w a) * Real.cos (ω * a)| ≤ |w x - w a| := by
      rw [abs_mul]; exact mul_le_of_le_one_right (abs_nonneg _) (Real.abs_cos_le_one _)
    have wb : |(w x - w b) * Real.cos (ω * b)| ≤ |w x - w b| := by
      rw [abs_mul]; exact mul_le_of_le_one_right (abs_nonneg _) (Real.abs_cos_le_one _)
    have da : |w x * (Real.cos (ω * x) - Real.cos (ω * a))| ≤ |ω| * (x - a) := by
      rw [abs_mul, abs_of_nonneg (h01 x).1]
      exact (mul_le_of_le_one_left (abs_nonneg _) (h01 x).2).trans ca
    have db : |w x * (Real.cos (ω * x) - Real.cos (ω * b))| ≤ |ω| * -(x - b) := by
      rw [abs_mul, abs_of_nonneg (h01 x).1]
      exact (mul_le_of_le_one_left (abs_nonneg _) (h01 x).2).trans cb
    have s : |w x - w a| + |w x - w b| = |w a - w b| := by
      rcases hw x x1 x2 with ⟨p, q⟩ | ⟨p, q⟩
      · rw [abs_of_nonneg (by linarith), abs_of_nonpos (by linarith), abs_of_nonpos (by linarith)]; ring
      · rw [abs_of_nonpos (by linarith), abs_of_nonneg (by linarith), abs_of_nonneg (by linarith)]; ring
    rw [Real.norm_eq_abs, abs_le]
    rw [abs_le] at wa wb da db
    obtain ⟨wa1, wa2⟩ := wa
    obtain ⟨wb1, wb2⟩ := wb
    obtain ⟨da1, da2⟩ := da
    obtain ⟨db1, db2⟩ := db
    constructor <;> nlinarith

/-- The rectangle rule with `2 N + 1` points in `[-r, r]` for a function that falls from 1 in the middle. -/
theorem rule_error {r tol : ℝ} {w : ℝ → ℝ} (hr : 0 < r) (hw : IsWindow r tol w) (ω : ℝ) {N : ℕ} (hN : 0 < N) :
    |(∑ n ∈ Finset.range (2 * N + 1), w (r * ((n : ℝ) - N) / N) * Real.cos (ω * (r * ((n : ℝ) - N) / N)) * (r / N)) -
      ∫ x in (-r)..r, w x * Real.cos (ω * x)| ≤ r / N * (1 + |ω| * r) := by
  have N0 : (0 : ℝ) < N := by exact_mod_cast hN
  obtain ⟨x, hx⟩ : ∃ x : ℕ → ℝ, x = fun n : ℕ => r * ((n : ℝ) - N) / N := ⟨_, rfl⟩
  obtain ⟨F, hF⟩ : ∃ F : ℝ → ℝ, F = fun t => w t * Real.cos (ω * t) := ⟨_, rfl⟩
  have step : ∀ n, x (n + 1) - x n = r / N := by
    intro n; rw [hx]; push_cast; ring
  have h0 : 0 < r / N := by positivity
  have x0 : x 0 = -r := by rw [hx]; field_simp; simp
  have x2 : x (2 * N) = r := by rw [hx]; push_cast; field_simp; ring
  have le : ∀ n, x n ≤ x (n + 1) := fun n => by linarith [step n]
  have left : ∀ n, n < N → x (n + 1) ≤ 0 := by
    intro n hn
    have : ((n + 1 : ℕ) : ℝ) ≤ N := by exact_mod_cast hn
    rw [hx]
    exact div_nonpos_of_nonpos_of_nonneg (mul_nonpos_of_nonneg_of_nonpos hr.le (by linarith)) N0.le
  have right : ∀ n, N ≤ n → 0 ≤ x n := by
    intro n hn
    have : (N : ℝ) ≤ n := by exact_mod_cast hn
    rw [hx]
    exact div_nonneg (mul_nonneg hr.le (by linarith)) N0.le
  have mono : ∀ n, (∀ t, x n ≤ t → t ≤ x (n + 1) → (w (x n) ≤ w t ∧ w t ≤ w (x (n + 1)))) ∨
      (∀ t, x n ≤ t → t ≤ x (n + 1) → (w (x (n + 1)) ≤ w t ∧ w t ≤ w (x n))) := by
    intro n
    rcases lt_or_ge n N with h | h
    · left
      intro t t1 t2
      have := left n h
      refine ⟨hw.unimodal _ _ ?_, hw.unimodal _ _ ?_⟩
      · rw [abs_of_nonpos (by linarith), abs_of_nonpos (by linarith)]; linarith
      · rw [abs_of_nonpos (by linarith), abs_of_nonpos (by linarith)]; linarith
    · right
      intro t t1 t2
      have := right n h
      refine ⟨hw.unimodal _ _ ?_, hw.unimodal _ _ ?_⟩
      · rw [abs_of_nonneg (by linarith), abs_of_nonneg (by linarith)]; linarith
      · rw [abs_of_nonneg (by linarith), abs_of_nonneg (by linarith)]; linarith
  have int : ∀ n, IntervalIntegrable F volume (x n) (x (n + 1)) := by
    intro n
    rw [hF]
    refine IntervalIntegrable.mul_continuousOn ?_ (Continuous.continuousOn (by fun_prop))
    rcases lt_or_ge n N with h | h
    · refine MonotoneOn.intervalIntegrable ?_
      rw [Set.uIcc_of_le (le n)]
      intro s hs t ht hst
      have := left n h
      apply hw.unimodal
      rw [abs_of_nonpos (by linarith [ht.2]), abs_of_nonpos (by linarith [ht.2])]; linarith
    · refine AntitoneOn.intervalIntegrable ?_
      rw [Set.uIcc_of_le (le n)]
      intro s hs t ht hst
      have := right n h
      apply hw.unimodal
      rw [abs_of_nonneg (by linarith [hs.1]), abs_of_nonneg (by linarith [hs.1])]; linarith
  have sumint : ∑ n ∈ Finset.range (2 * N), ∫ t in x n..x (n + 1), F t = ∫ t in (-r)..r, F t := by
    rw [intervalIntegral.sum_integral_adjacent_intervals (fun k _ => int k), x0, x2]
  have cells : ∀ n, |(∫ t in x n..x (n + 1), F t) - r / N * ((F (x n) + F (x (n + 1))) / 2)| ≤
      r / N * (|w (x n) - w (x (n + 1))| / 2 + |ω| * (r / N) / 2) := by
    intro n
    have := cell (w := w) (ω := ω) (le n) (fun t t1 t2 => (mono n).imp (fun h => h t t1 t2) (fun h => h t t1 t2)) hw.range
      (by have := int n; rw [hF] at this; exact this)
    rw [step] at this
    rw [hF]
    exact this
  have var : ∑ n ∈ Finset.range (2 * N), |w (x n) - w (x (n + 1))| = 2 * (1 - w r) := by
    have xN : x N = 0 := by rw [hx]; simp
    rw [two_mul N, Finset.sum_range_add]
    have a : ∑ n ∈ Finset.range N, |w (x n) - w (x (n + 1))| = ∑ n ∈ Finset.range N, (w (x (n + 1)) - w (x n)) := by
      apply Finset.sum_congr rfl
      intro n hn
      have := left n (Finset.mem_range.1 hn)
      have le := le n
      have : w (x n) ≤ w (x (n + 1)) := by
        apply hw.unimodal
        rw [abs_of_nonpos (by linarith), abs_of_nonpos (by linarith)]; linarith
      rw [abs_of_nonpos (by linarith)]; ring
    have b : ∑ n ∈ Finset.range N, |w (x (N + n)) - w (x (N + n + 1))| =
        ∑ n ∈ Finset.range N, (w (x (N + n)) - w (x (N + (n + 1)))) := by
      apply Finset.sum_congr rfl
      intro n hn
      have := right (N + n) (by omega)
      have le := le (N + n)
      have : w (x (N + n + 1)) ≤ w (x (N + n)) := by
        apply hw.unimodal
        rw [abs_of_nonneg (by linarith), abs_of_nonneg (by linarith)]; linarith
      rw [abs_of_nonneg (by linarith)]; rfl
    rw [a, b, Finset.sum_range_sub (fun n => w (x n)), Finset.sum_range_sub' (fun n => w (x (N + n))), add_zero, xN, x0,
      ← two_mul, x2, hw.even, hw.center]
    ring
  have split : (∑ n ∈ Finset.range (2 * N + 1), F (x n) * (r / N)) =
      (∑ n ∈ Finset.range (2 * N), r / N * ((F (x n) + F (x (n + 1))) / 2)) + r / N * ((F (x 0) + F (x (2 * N))) / 2) := by
    have a : (∑ n ∈ Finset.range (2 * N + 1), F (x n)) = (∑ n ∈ Finset.range (2 * N), F (x n)) + F (x (2 * N)) :=
      Finset.sum_range_succ _ _
    have b : (∑ n ∈ Finset.range (2 * N + 1), F (x n)) = (∑ n ∈ Finset.range (2 * N), F (x (n + 1))) + F (x 0) :=
      Finset.sum_range_succ' _ _
    rw [← Finset.sum_mul, ← Finset.mul_sum, ← Finset.sum_div, Finset.sum_add_distrib]
    linear_combination (r / N) / 2 * a + (r / N) / 2 * b
  have goal : (∑ n ∈ Finset.range (2 * N + 1), w (r * ((n : ℝ) - N) / N) * Real.cos (ω * (r * ((n : ℝ) - N) / N)) * (r / N)) =
      ∑ n ∈ Finset.range (2 * N + 1), F (x n) * (r / N) := by rw [hF, hx]
  have goal2 : (∫ x in (-r)..r, w x * Real.cos (ω * x)) = ∫ t in (-r)..r, F t := by rw [hF]
  rw [goal, goal2, split, ← sumint]
  have t1 : |∑ n ∈ Finset.range (2 * N), ((∫ t in x n..x (n + 1), F t) - r / N * ((F (x n) + F (x (n + 1))) / 2))| ≤
      r / N * ((1 - w r) + |ω| * r) := by
    refine (Finset.abs_sum_le_sum_abs _ _).trans ((Finset.sum_le_sum fun n _ => cells n).trans (le_of_eq ?_))
    rw [← Finset.mul_sum, Finset.sum_add_distrib, ← Finset.sum_div, var, Finset.sum_const, Finset.card_range, nsmul_eq_mul]
    push_cast
    field_simp
  rw [Finset.sum_sub_distrib] at t1
  have t2 : |r / N * ((F (x 0) + F (x (2 * N))) / 2)| ≤ r / N * w r := by
    have : F (x 0) = F (x (2 * N)) := by rw [x0, x2, hF]; dsimp only; rw [hw.even, mul_neg, Real.cos_neg]
    rw [abs_mul, abs_of_pos h0, this, x2]
    refine mul_le_mul_of_nonneg_left ?_ h0.le
    rw [show (F r + F r) / 2 = F r by ring, hF, abs_mul, abs_of_nonneg (hw.range r).1]
    exact mul_le_of_le_one_right (hw.range r).1 (Real.abs_cos_le_one _)
  generalize (∑ n ∈ Finset.range (2 * N), ∫ t in x n..x (n + 1), F t) = I at *
  generalize (∑ n ∈ Finset.range (2 * N), r / N * ((F (x n) + F (x (n + 1))) / 2)) = S at *
  generalize r / N * ((F (x 0) + F (x (2 * N))) / 2) = T at *
  rw [abs_le] at *
  constructor <;> nlinarith [t1.1, t1.2, t2.1, t2.2]

/-- **C62.** The generic `EvalFourierTransform`, for every window function of the documented shape: the error is at most
`(1 + 2 pi |f| r) r / 512` at every frequency. -/
theorem C62_quadrature_error (w : Window) {tol : ℝ} (hr : 0 < w.radius) (hw : IsWindow w.radius tol w.eval) (f : ℝ)
    (memo : List ℝ) (hm : memo = [] ∨ ∃ f' : ℝ, memo = (genericFt w [] f').2) :
    |(genericFt w memo f).1 - fourier w.radius w.eval f| ≤ w.radius / 512 * (1 + 2 * Real.pi * |f| * w.radius) := by
  rw [C62_quadrature w hw.center hw.even f memo hm]
  have h := rule_error hr hw (2 * Real.pi * f) (N := 512) (by norm_num)
  rw [abs_mul, abs_of_pos Real.two_pi_pos] at h
  exact h

/-- **C62.** `KaiserWindow`. -/
theorem C62_kaiser (i0 : ℝ → ℝ) (hpos : ∀ x, 0 ≤ x → 0 < i0 x) (hmono : ∀ x y, 0 ≤ x → x ≤ y → i0 x ≤ i0 y) (beta : ℝ)
    (hb : 0 ≤ beta) (r : ℝ) (hr : 0 < r) (z : Bool) (f : ℝ) :
    |(genericFt ⟨r, z, kaiser i0 beta r⟩ [] f).1 - fourier r (kaiser i0 beta r) f| ≤
      r / 512 * (1 + 2 * Real.pi * |f| * r) :=
  C62_quadrature_error ⟨r, z, kaiser i0 beta r⟩ hr (C37_kaiser i0 hpos hmono beta hb r hr).1 f [] (.inl rfl)

/-- **C62.** `PlanckTaperWindow`. -/
theorem C62_planck_taper (epsilon r : ℝ) (he : 0 < epsilon) (her : epsilon ≤ r) (z : Bool) (f : ℝ) :
    |(genericFt ⟨r, z, planckTaper epsilon r⟩ [] f).1 - fourier r (planckTaper epsilon r) f| ≤
      r / 512 * (1 + 2 * Real.pi * |f| * r) :=
  C62_quadrature_error ⟨r, z, planckTaper epsilon r⟩ (he.trans_le her) (C37_planck_taper epsilon r he her).1 f []
    (.inl rfl)

/-- The hypotheses on the Bessel function are met, for instance, by the exponential function. -/
example : (∀ x : ℝ, 0 ≤ x → 0 < Real.exp x) ∧ ∀ x y : ℝ, 0 ≤ x → x ≤ y → Real.exp x ≤ Real.exp y :=
  ⟨fun x _ => Real.exp_pos x, fun _ _ _ h => Real.exp_le_exp.2 h⟩

open Verif.Bessel Verif.Bessel.Spec in
theorem I_pos_mono {x y : ℝ} (hx : 0 ≤ x) (h : x ≤ y) : 1 ≤ I 0 x ∧ I 0 x ≤ I 0 y := by
  constructor
  · have := (term_summable 0 x).le_tsum 0 fun k _ => term_nonneg hx 0 k
    rw [term_zero] at this
    unfold I
    simpa using this
  · refine (term_summable 0 x).tsum_le_tsum (fun k => ?_) (term_summable 0 y)
    unfold term
    gcongr

open Verif.Bessel Verif.Bessel.Spec in
/-- The window with `BesselI0` of the code is close to the Kaiser window. -/
theorem kaiser_close {beta : ℝ} (hb : 0 ≤ beta) (r x : ℝ) :
    |kaiser besselI0 beta r x - kaiser (I 0) beta r x| ≤ 3 / 10 ^ 15 := by
  unfold kaiser
  dsimp only
  split_ifs with h
  · obtain ⟨z, hz⟩ : ∃ z, z = beta * √(max 0 (1 - |x / r| * |x / r|)) := ⟨_, rfl⟩
    have z0 : 0 ≤ z := by rw [hz]; positivity
    have z1 : z ≤ beta := by
      rw [hz]
      refine mul_le_of_le_one_right hb (Real.sqrt_le_iff.2 ⟨one_pos.le, ?_⟩)
      rw [max_le_iff]
      constructor
      · norm_num
      · nlinarith [mul_self_nonneg |x / r|]
    rw [← hz]
    have ea := C90_I0 z
    have eb := C90_I0 beta
    obtain ⟨a1, ab⟩ := I_pos_mono z0 z1
    generalize I 0 z = a at *
    generalize I 0 beta = b at *
    generalize besselI0 z = a' at *
    generalize besselI0 beta = b' at *
    have b0 : 0 < b := by linarith
    have b'0 : (1 - 1 / 10 ^ 15) * b ≤ b' := by linarith [(abs_le.1 eb).2]
    have b'1 : 0 < b' := lt_of_lt_of_le (by positivity) b'0
    rw [div_sub_div _ _ b'1.ne' b0.ne', abs_div, abs_of_pos (mul_pos b'1 b0), div_le_iff₀ (mul_pos b'1 b0)]
    have e : a' * b - b' * a = (b - b') * a - (a - a') * b := by ring
    rw [e]
    have t1 : |(b - b') * a| ≤ 1 / 10 ^ 15 * b * b := by
      rw [abs_mul, abs_of_nonneg (by linarith : (0 : ℝ) ≤ a)]
      exact mul_le_mul eb ab (by linarith) (by positivity)
    have t2 : |(a - a') * b| ≤ 1 / 10 ^ 15 * b * b := by
      rw [abs_mul, abs_of_pos b0]
      refine mul_le_mul_of_nonneg_right (ea.trans ?_) b0.le
      exact mul_le_mul_of_nonneg_left ab (by norm_num)
    have t3 := mul_le_mul_of_nonneg_right b'0 b0.le
    have t4 := abs_sub ((b - b') * a) ((a - a') * b)
    have t5 : 0 ≤ b * b := by positivity
    nlinarith
  · rw [sub_self, abs_zero]; norm_num

open Verif.Bessel Verif.Bessel.Spec in
/-- **C62.** `KaiserWindow` with the `BesselI0` of the code, compared with the Kaiser window of the exact Bessel
function, for every `beta`, radius and frequency. -/
theorem C62_kaiser_bessel (beta : ℝ) (hb : 0 ≤ beta) (r : ℝ) (hr : 0 < r) (z : Bool) (f : ℝ) :
    |(genericFt ⟨r, z, kaiser besselI0 beta r⟩ [] f).1 - fourier r (kaiser (I 0) beta r) f| ≤
      r / 512 * (1 + 2 * Real.pi * |f| * r) + r / 10 ^ 14 := by
  have even : ∀ (i0 : ℝ → ℝ) x, kaiser i0 beta r (-x) = kaiser i0 beta r x := by
    intro i0 x
    unfold kaiser
    rw [neg_div, abs_neg]
  have pos : besselI0 beta ≠ 0 := by
    have h1 := (abs_le.1 (C90_I0 beta)).2
    have h2 := (I_pos_mono hb le_rfl).1
    intro h
    rw [h] at h1
    linarith
  have center : kaiser besselI0 beta r 0 = 1 := by
    unfold kaiser
    simp [pos]
    norm_num
  have q1 := C62_quadrature ⟨r, z, kaiser besselI0 beta r⟩ center (even _) f [] (.inl rfl)
  have w := (C37_kaiser (I 0) (fun x hx => by linarith [(I_pos_mono hx le_rfl).1])
    (fun x y hx h => (I_pos_mono hx h).2) beta hb r hr).1
  have q2 := C62_quadrature ⟨r, z, kaiser (I 0) beta r⟩ w.center w.even f [] (.inl rfl)
  have e := C62_quadrature_error ⟨r, z, kaiser (I 0) beta r⟩ hr w f [] (.inl rfl)
  have d : |(genericFt ⟨r, z, kaiser besselI0 beta r⟩ [] f).1 - (genericFt ⟨r, z, kaiser (I 0) beta r⟩ [] f).1| ≤
      r / 10 ^ 14 := by
    rw [q1, q2, ← Finset.sum_sub_distrib]
    refine (Finset.abs_sum_le_sum_abs _ _).trans ?_
    refine (Finset.sum_le_sum (g := fun _ => 3 / 10 ^ 15 * (r / 512)) fun n _ => ?_).trans ?_
    · dsimp only
      rw [← sub_mul, ← sub_mul, abs_mul, abs_mul, abs_of_pos (by positivity : (0 : ℝ) < r / 512)]
      refine mul_le_mul_of_nonneg_right ?_ (by positivity)
      exact (mul_le_of_le_one_right (abs_nonneg _) (Real.abs_cos_le_one _)).trans (kaiser_close hb r _)
    · rw [Finset.sum_const, Finset.card_range, nsmul_eq_mul]
      norm_num
      linarith
  have := abs_sub_le (genericFt ⟨r, z, kaiser besselI0 beta r⟩ [] f).1 (genericFt ⟨r, z, kaiser (I 0) beta r⟩ [] f).1
    (fourier r (kaiser (I 0) beta r) f)
  dsimp only at e
  linarith

end Verif.Windows
