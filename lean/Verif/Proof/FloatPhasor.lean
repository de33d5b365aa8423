import Verif.Model.FloatPhasor
import Verif.Proof.Rounding
import Mathlib.Analysis.Complex.Trigonometric
import Mathlib.Analysis.Real.Pi.Bounds

/-! Lemmas about the phasor rotator in floating point. -/

namespace Verif.FloatPhasor
open Verif.Rounding Verif.Phasor

/-- Constants of the error analysis: `u = 2 ^ -24`, and errors of `double` and underflow are much smaller. -/
structure Small (m : Machine) (u η : ℝ) : Prop where
  f : Accurate m.f u η
  d : Accurate m.d (u ^ 2) η
  cos : ∀ x, |m.cosine x - Real.cos x| ≤ u ^ 2
  sin : ∀ x, |m.sine x - Real.sin x| ≤ u ^ 2
  u0 : 0 < u
  u1 : u ≤ 1 / 10 ^ 7
  eta : η ≤ u ^ 3

/-- The phasor. -/
noncomputable def phasor (o : Rotator) : ℂ := ⟨o.phasor0, o.phasor1⟩

/-- The rotator. -/
noncomputable def rotator (o : Rotator) : ℂ := ⟨o.rotator0, o.rotator1⟩

theorem norm_le_of_parts {z : ℂ} {b : ℝ} (hb : 0 ≤ b) (h0 : |z.re| ≤ b) (h1 : |z.im| ≤ b) : ‖z‖ ≤ 283 / 200 * b := by
  rw [Complex.norm_def, Real.sqrt_le_iff]
  refine ⟨by positivity, ?_⟩
  rw [Complex.normSq_apply]
  have := sq_le_sq' (neg_le_of_abs_le h0) (le_of_abs_le h0)
  have := sq_le_sq' (neg_le_of_abs_le h1) (le_of_abs_le h1)
  nlinarith [sq_nonneg b]

/-- Error of a vector whose parts have relative errors. -/
theorem norm_le_of_rel {z w : ℂ} {u t : ℝ} (hu : 0 ≤ u) (ht : 0 ≤ t) (h0 : |z.re| ≤ u * |w.re| + t)
    (h1 : |z.im| ≤ u * |w.im| + t) : ‖z‖ ≤ u * ‖w‖ + 2 * t := by
  have e : ‖z‖ ≤ ‖(⟨u * |w.re| + t, u * |w.im| + t⟩ : ℂ)‖ := by
    rw [Complex.norm_def, Complex.norm_def]
    apply Real.sqrt_le_sqrt
    rw [Complex.normSq_apply, Complex.normSq_apply]
    have p : 0 ≤ u * |w.re| + t := by positivity
    have q : 0 ≤ u * |w.im| + t := by positivity
    have := sq_le_sq' (by linarith [neg_le_of_abs_le h0]) (le_of_abs_le h0)
    have := sq_le_sq' (by linarith [neg_le_of_abs_le h1]) (le_of_abs_le h1)
    dsimp only
    nlinarith
  have e2 : (⟨u * |w.re| + t, u * |w.im| + t⟩ : ℂ) = (u : ℂ) * ⟨|w.re|, |w.im|⟩ + (t : ℂ) * ⟨1, 1⟩ := by
    apply Complex.ext <;> simp
  have n1 : ‖(⟨|w.re|, |w.im|⟩ : ℂ)‖ = ‖w‖ := by
    rw [Complex.norm_def, Complex.norm_def, Complex.normSq_apply, Complex.normSq_apply]
    simp
  have n2 : ‖(⟨1, 1⟩ : ℂ)‖ ≤ 2 := by
    have := norm_le_of_parts (z := (⟨1, 1⟩ : ℂ)) (b := 1) (by norm_num) (by norm_num) (by norm_num)
    linarith
  rw [e2] at e
  have := norm_add_le ((u : ℂ) * ⟨|w.re|, |w.im|⟩) ((t : ℂ) * ⟨1, 1⟩)
  rw [norm_mul, norm_mul, n1, Complex.norm_real, Complex.norm_real, Real.norm_of_nonneg hu, Real.norm_of_nonneg ht]
    at this
  have := mul_le_mul_of_nonneg_left n2 ht
  linarith

theorem cauchy (r z : ℂ) : |r.re * z.re| + |r.im * z.im| ≤ ‖r‖ * ‖z‖ := by
  rw [Complex.norm_def, Complex.norm_def, ← Real.sqrt_mul (Complex.normSq_nonneg r)]
  apply Real.le_sqrt_of_sq_le
  rw [Complex.normSq_apply, Complex.normSq_apply, abs_mul, abs_mul]
  have h0 := sq_abs r.re
  have h1 := sq_abs r.im
  have h2 := sq_abs z.re
  have h3 := sq_abs z.im
  rw [← pow_two, ← pow_two, ← pow_two, ← pow_two, ← h0, ← h1, ← h2, ← h3]
  nlinarith [sq_nonneg (|r.re| * |z.im| - |r.im| * |z.re|)]

theorem cauchy' (r z : ℂ) : |r.im * z.re| + |r.re * z.im| ≤ ‖r‖ * ‖z‖ := by
  rw [Complex.norm_def, Complex.norm_def, ← Real.sqrt_mul (Complex.normSq_nonneg r)]
  apply Real.le_sqrt_of_sq_le
  rw [Complex.normSq_apply, Complex.normSq_apply, abs_mul, abs_mul]
  have h0 := sq_abs r.re
  have h1 := sq_abs r.im
  have h2 := sq_abs z.re
  have h3 := sq_abs z.im
  rw [← pow_two, ← pow_two, ← pow_two, ← pow_two, ← h0, ← h1, ← h2, ← h3]
  nlinarith [sq_nonneg (|r.im| * |z.im| - |r.re| * |z.re|)]

/-- One complex multiplication in `float`. -/
theorem mul_error {m : Machine} {u η : ℝ} (h : Small m u η) {r z p : ℂ}
    (h0 : IsSumOfProducts m.f r.re z.re (-r.im) z.im p.re) (h1 : IsSumOfProducts m.f r.im z.re r.re z.im p.im)
    (hrz : 1 / 2 ≤ ‖r‖ * ‖z‖) : ‖p - r * z‖ ≤ 29 / 10 * u * (‖r‖ * ‖z‖) := by
  have u0 := h.u0
  have u1 := h.u1
  have hη := h.f.eta_nonneg
  have he := h.eta
  have e0 := h0.error h.f u0.le
  have e1 := h1.error h.f u0.le
  have c0 := cauchy r z
  have c1 := cauchy' r z
  rw [show |(-r.im) * z.im| = |r.im * z.im| by rw [neg_mul, abs_neg]] at e0
  have k : ∀ x : ℝ, x ≤ ‖r‖ * ‖z‖ →
      (2 * u + u ^ 2) * x + (3 + 2 * u) * η ≤ 2049 / 1000 * u * (‖r‖ * ‖z‖) := by
    intro x hx
    have a1 := mul_le_mul_of_nonneg_left hx (by positivity : 0 ≤ 2 * u + u ^ 2)
    have a2 : (3 + 2 * u) * η ≤ 4 * u ^ 3 := by nlinarith [pow_pos u0 3]
    have a3 : u ^ 2 ≤ u * (1 / 10 ^ 7) := by nlinarith
    have a4 : u ^ 3 ≤ u * (1 / 10 ^ 7) := by nlinarith
    nlinarith
  have b0 : |(p - r * z).re| ≤ 2049 / 1000 * u * (‖r‖ * ‖z‖) := by
    rw [Complex.sub_re, Complex.mul_re, show r.re * z.re - r.im * z.im = r.re * z.re + -r.im * z.im by ring]
    exact e0.trans (k _ c0)
  have b1 : |(p - r * z).im| ≤ 2049 / 1000 * u * (‖r‖ * ‖z‖) := by
    rw [Complex.sub_im, Complex.mul_im, show r.re * z.im + r.im * z.re = r.im * z.re + r.re * z.im by ring]
    exact e1.trans (k _ c1)
  have := norm_le_of_parts (by positivity) b0 b1
  have : 0 ≤ u * (‖r‖ * ‖z‖) := by positivity
  nlinarith

/-- Normalized vectors are close if the vectors are. -/
theorem unit_sub {a b : ℂ} (ha : a ≠ 0) (hb : b ≠ 0) : ‖a / ‖a‖ - b / ‖b‖‖ ≤ 2 * ‖a - b‖ / ‖a‖ := by
  have pa := norm_pos_iff.2 ha
  have pb := norm_pos_iff.2 hb
  have ca : (‖a‖ : ℂ) ≠ 0 := by exact_mod_cast pa.ne'
  have cb : (‖b‖ : ℂ) ≠ 0 := by exact_mod_cast pb.ne'
  have e : a / ‖a‖ - b / ‖b‖ = (a - b) / ‖a‖ + b / ‖b‖ * (((‖b‖ - ‖a‖ : ℝ) : ℂ) / ‖a‖) := by
    push_cast; field_simp; ring
  rw [e]
  refine (norm_add_le _ _).trans ?_
  have n1 : ‖b / (‖b‖ : ℂ)‖ = 1 := by
    rw [norm_div, Complex.norm_real, Real.norm_of_nonneg pb.le, div_self pb.ne']
  rw [norm_mul, n1, one_mul, norm_div, norm_div, Complex.norm_real, Complex.norm_real, Real.norm_of_nonneg pa.le,
    ← add_div]
  gcongr
  have := abs_norm_sub_norm_le b a
  rw [norm_sub_rev] at this
  rw [Real.norm_eq_abs]
  linarith

theorem chain {t t' a α β η : ℝ} (a0 : 0 ≤ a) (a1 : a ≤ 6 / 5) (hη : 0 ≤ η) (h : |t * a - 1| ≤ α)
    (h' : |t' - t| ≤ β * |t| + η) (hβ : 0 ≤ β := by positivity) : |t' * a - 1| ≤ α + β * (1 + α) + 6 / 5 * η := by
  have e1 : |t * a| ≤ 1 + α := by
    have := abs_add_le (t * a - 1) 1
    rw [sub_add_cancel, abs_one] at this
    linarith
  have e2 : |t' * a - t * a| ≤ β * (1 + α) + 6 / 5 * η := by
    rw [← sub_mul, abs_mul, abs_of_nonneg a0]
    have h1 := mul_le_mul_of_nonneg_right h' a0
    rw [abs_mul, abs_of_nonneg a0] at e1
    have h2 := mul_le_mul_of_nonneg_left e1 hβ
    have h3 := mul_le_mul_of_nonneg_left a1 hη
    have e : (β * |t| + η) * a = β * (|t| * a) + η * a := by ring
    rw [e] at h1
    linarith
  have := abs_add_le (t' * a - t * a) (t * a - 1)
  rw [sub_add_sub_cancel] at this
  linarith

theorem recip {r a β : ℝ} (a0 : 0 < a) (h : |r * a⁻¹ - 1| ≤ β) (hβ : β ≤ 1 / 2) : |1 / r * a - 1| ≤ β + 2 * β ^ 2 := by
  have e : 1 / r * a = 1 / (r * a⁻¹) := by field_simp
  rw [e]
  generalize r * a⁻¹ = y at h
  obtain ⟨h0, h1⟩ := abs_le.1 h
  have y0 : 0 < y := by linarith
  have b0 : 0 ≤ β := (abs_nonneg _).trans h
  have c0 : 0 ≤ β ^ 2 * (1 - 2 * β) := mul_nonneg (sq_nonneg β) (by linarith)
  rw [abs_le]
  constructor
  · rw [le_sub_iff_add_le, le_div_iff₀ y0]
    have : y * (1 - β - 2 * β ^ 2) ≤ (1 + β) * (1 - β - 2 * β ^ 2) ∨ 1 - β - 2 * β ^ 2 < 0 := by
      rcases lt_or_ge (1 - β - 2 * β ^ 2) 0 with hn | hp
      · exact Or.inr hn
      · exact Or.inl (mul_le_mul_of_nonneg_right (by linarith) hp)
    rcases this with h2 | h2
    · nlinarith [pow_nonneg b0 3]
    · nlinarith
  · rw [sub_le_iff_le_add, div_le_iff₀ y0]
    have : (1 - β) * (1 + β + 2 * β ^ 2) ≤ y * (1 + β + 2 * β ^ 2) :=
      mul_le_mul_of_nonneg_right (by linarith) (by positivity)
    nlinarith

/-- The factor of `PhasorRotatorRenormalize` is close to the reciprocal of the amplitude. -/
theorem normalization_error {m : Machine} {u η : ℝ} (h : Small m u η) {z : ℂ} {s : ℝ}
    (hs : IsSumOfProducts m.f z.re z.re z.im z.im s) (z0 : 9 / 10 ≤ ‖z‖) (z1 : ‖z‖ ≤ 11 / 10) :
    |m.f (m.d (1 / m.d √s)) * ‖z‖ - 1| ≤ 21 / 10 * u := by
  have u0 := h.u0
  have u1 := h.u1
  have hη := h.f.eta_nonneg
  have he := h.eta
  have e0 := hs.error h.f u0.le
  have hz : z.re * z.re + z.im * z.im = ‖z‖ ^ 2 := by
    rw [← Complex.normSq_apply, Complex.normSq_eq_norm_sq]
  rw [abs_of_nonneg (mul_self_nonneg z.re), abs_of_nonneg (mul_self_nonneg z.im), hz] at e0
  have u2 : u ^ 2 ≤ u * (1 / 10 ^ 7) := by nlinarith
  have u3 : u ^ 3 ≤ u * (1 / 10 ^ 14) := by nlinarith
  have e1 : |s - ‖z‖ ^ 2| ≤ 2001 / 1000 * u * ‖z‖ ^ 2 := by
    refine e0.trans ?_
    have : (3 + 2 * u) * η ≤ 4 * u ^ 3 := by nlinarith [pow_pos u0 3]
    have z2 : 81 / 100 ≤ ‖z‖ ^ 2 := by nlinarith
    nlinarith
  obtain ⟨e2, e3⟩ := abs_le.1 e1
  generalize ha : ‖z‖ = a at *
  have a0 : 0 < a := by linarith
  -- the root
  have q0 : a * (1 - 1002 / 1000 * u) ≤ √s := by
    apply Real.le_sqrt_of_sq_le
    have : (1 - 1002 / 1000 * u) ^ 2 ≤ 1 - 2001 / 1000 * u := by nlinarith
    nlinarith [mul_le_mul_of_nonneg_left this (sq_nonneg a)]
  have q1 : √s ≤ a * (1 + 1002 / 1000 * u) := by
    rw [Real.sqrt_le_iff]
    refine ⟨by positivity, ?_⟩
    have : 1 + 2001 / 1000 * u ≤ (1 + 1002 / 1000 * u) ^ 2 := by nlinarith
    nlinarith [mul_le_mul_of_nonneg_left this (sq_nonneg a)]
  have qa : |√s * a⁻¹ - 1| ≤ 1002 / 1000 * u := by
    rw [← div_eq_mul_inv, abs_le]
    constructor
    · rw [le_sub_iff_add_le, le_div_iff₀ a0]; linarith
    · rw [sub_le_iff_le_add, div_le_iff₀ a0]; linarith
  have i0 : 0 ≤ a⁻¹ := (inv_pos.2 a0).le
  have i1 : a⁻¹ ≤ 6 / 5 := by
    rw [inv_le_comm₀ a0 (by norm_num)]; linarith
  have z1' : a ≤ 6 / 5 := by linarith
  have ra := chain i0 i1 hη qa (h.d √s)
  have k1 : u ^ 2 * (1 + 1002 / 1000 * u) ≤ 2 * u ^ 2 := by
    have : 1 + 1002 / 1000 * u ≤ 2 := by linarith
    have := mul_le_mul_of_nonneg_left this (sq_nonneg u)
    linarith
  have k2 : 1002 / 1000 * u + u ^ 2 * (1 + 1002 / 1000 * u) + 6 / 5 * η ≤ 1003 / 1000 * u := by linarith
  have va := recip a0 (ra.trans k2) (by linarith)
  have k3 : 1003 / 1000 * u + 2 * (1003 / 1000 * u) ^ 2 ≤ 1004 / 1000 * u := by nlinarith
  have wa := chain a0.le z1' hη (va.trans k3) (h.d (1 / m.d √s))
  have xa := chain a0.le z1' hη wa (h.f _)
  refine xa.trans ?_
  have k1 : u ^ 2 * (1 + 1004 / 1000 * u) ≤ 2 * u ^ 2 := by
    have : 1 + 1004 / 1000 * u ≤ 2 := by linarith
    have := mul_le_mul_of_nonneg_left this (sq_nonneg u)
    linarith
  have k2 : 1004 / 1000 * u + u ^ 2 * (1 + 1004 / 1000 * u) + 6 / 5 * η ≤ 1005 / 1000 * u := by linarith
  generalize 1004 / 1000 * u + u ^ 2 * (1 + 1004 / 1000 * u) + 6 / 5 * η = w at k2 ⊢
  have k3 : u * w ≤ u * (1005 / 1000 * u) := mul_le_mul_of_nonneg_left k2 u0.le
  have k4 : u * (1005 / 1000 * u) = 1005 / 1000 * u ^ 2 := by ring
  have k5 : u * (1 + w) = u + u * w := by ring
  rw [k5]
  linarith

/-- The point of the unit circle at angle `t`. -/
noncomputable def circle (t : ℝ) : ℂ := ⟨Real.cos t, Real.sin t⟩

theorem circle_norm (t : ℝ) : ‖circle t‖ = 1 := by
  rw [Complex.norm_def, Complex.normSq_apply, Real.sqrt_eq_one]
  have := Real.cos_sq_add_sin_sq t
  simp only [circle]
  nlinarith

theorem circle_add (s t : ℝ) : circle (s + t) = circle s * circle t := by
  apply Complex.ext <;> simp only [circle, Complex.mul_re, Complex.mul_im, Real.cos_add, Real.sin_add] <;> ring

/-- The rotator is close to the unit circle. -/
theorem rotator_error {m : Machine} {u η t : ℝ} (h : Small m u η) :
    ‖(⟨m.f (m.cosine t), m.f (m.sine t)⟩ : ℂ) - circle t‖ ≤ 101 / 100 * u := by
  have u0 := h.u0
  have u1 := h.u1
  have he := h.eta
  have hη := h.f.eta_nonneg
  have k : ∀ x y : ℝ, |x - y| ≤ u ^ 2 → |m.f x - y| ≤ u * |y| + 2 * u ^ 2 := by
    intro x y hxy
    have e := h.f x
    have a1 := abs_add_le (x - y) y
    rw [sub_add_cancel] at a1
    have a2 := abs_add_le (m.f x - x) (x - y)
    rw [sub_add_sub_cancel] at a2
    have a3 := mul_le_mul_of_nonneg_left (a1.trans (add_le_add_left hxy _)) u0.le
    have u3 : u ^ 3 ≤ u ^ 2 * (1 / 10 ^ 7) := by nlinarith [sq_nonneg u]
    nlinarith [sq_nonneg u]
  have := norm_le_of_rel (z := (⟨m.f (m.cosine t), m.f (m.sine t)⟩ : ℂ) - circle t) (w := circle t) u0.le
    (by positivity : 0 ≤ 2 * u ^ 2) (k _ _ (h.cos t)) (k _ _ (h.sin t))
  rw [circle_norm] at this
  have u2 : u ^ 2 ≤ u * (1 / 10 ^ 7) := by nlinarith
  linarith

/-- What holds after `n` steps. -/
structure Inv (u t : ℝ) (n : ℕ) (o : Rotator) : Prop where
  rot : ‖rotator o - circle t‖ ≤ 101 / 100 * u
  count : o.counter < 1000
  amp : |‖phasor o‖ - 1| ≤ 4 * u * (1 + o.counter)
  phase : ‖phasor o / ‖phasor o‖ - circle (n * t)‖ ≤ 10 * u * n

theorem unit_scale {z : ℂ} {a : ℝ} (ha : 0 < a) : ((a : ℂ) * z) / ‖(a : ℂ) * z‖ = z / ‖z‖ := by
  have : (a : ℂ) ≠ 0 := by exact_mod_cast ha.ne'
  rw [norm_mul, Complex.norm_real, Real.norm_of_nonneg ha.le]
  push_cast
  rw [mul_div_mul_left _ _ this]

/-- One step before the renormalization. -/
theorem step_plain {m : Machine} {u η t : ℝ} {n : ℕ} {o : Rotator} {p : ℂ} (h : Small m u η) (hi : Inv u t n o)
    (h0 : IsSumOfProducts m.f o.rotator0 o.phasor0 (-o.rotator1) o.phasor1 p.re)
    (h1 : IsSumOfProducts m.f o.rotator1 o.phasor0 o.rotator0 o.phasor1 p.im) :
    |‖p‖ - 1| ≤ 4 * u * (2 + o.counter) ∧ ‖p / ‖p‖ - circle ((n + 1) * t)‖ ≤ 10 * u * n + 79 / 10 * u := by
  obtain ⟨hr, hc, ha, hp⟩ := hi
  have u0 := h.u0
  have u1 := h.u1
  have hc' : (o.counter : ℝ) ≤ 999 := by
    have : o.counter ≤ 999 := by omega
    exact_mod_cast this
  have ha' : |‖phasor o‖ - 1| ≤ 4 / 10 ^ 4 := by
    refine ha.trans ?_
    nlinarith
  obtain ⟨z0, z1⟩ := abs_le.1 ha'
  have r0 : |‖rotator o‖ - 1| ≤ 101 / 100 * u := by
    have := abs_norm_sub_norm_le (rotator o) (circle t)
    rw [circle_norm] at this
    exact this.trans hr
  obtain ⟨r1, r2⟩ := abs_le.1 r0
  have hrz : 1 / 2 ≤ ‖rotator o‖ * ‖phasor o‖ := by nlinarith
  have hrz2 : ‖rotator o‖ * ‖phasor o‖ ≤ 1001 / 1000 := by nlinarith
  have e := mul_error h (r := rotator o) (z := phasor o) (p := p) h0 h1 hrz
  have np : |‖p‖ - ‖rotator o‖ * ‖phasor o‖| ≤ 29 / 10 * u * (‖rotator o‖ * ‖phasor o‖) := by
    have := abs_norm_sub_norm_le p (rotator o * phasor o)
    rw [norm_mul] at this
    exact this.trans e
  have z00 : phasor o ≠ 0 := norm_pos_iff.1 (by linarith)
  have r00 : rotator o ≠ 0 := norm_pos_iff.1 (by linarith)
  have b1 : 29 / 10 * u * (‖rotator o‖ * ‖phasor o‖) ≤ 2903 / 1000 * u := by nlinarith
  constructor
  · have b2 : |‖rotator o‖ * ‖phasor o‖ - ‖phasor o‖| ≤ 1015 / 1000 * u := by
      rw [← sub_one_mul, abs_mul, abs_of_nonneg (norm_nonneg (phasor o))]
      have := mul_le_mul r0 (by linarith : ‖phasor o‖ ≤ 10004 / 10000) (norm_nonneg _) (by positivity)
      linarith
    have b3 := abs_add_le (‖p‖ - ‖rotator o‖ * ‖phasor o‖) (‖rotator o‖ * ‖phasor o‖ - ‖phasor o‖)
    rw [sub_add_sub_cancel] at b3
    have b4 := abs_add_le (‖p‖ - ‖phasor o‖) (‖phasor o‖ - 1)
    rw [sub_add_sub_cancel] at b4
    nlinarith
  · have p0 : p ≠ 0 := by
      apply norm_pos_iff.1
      have := (abs_le.1 np).1
      linarith
    have c1 := unit_sub (mul_ne_zero r00 z00) p0
    have d1 : 2 * ‖rotator o * phasor o - p‖ / ‖rotator o * phasor o‖ ≤ 58 / 10 * u := by
      rw [div_le_iff₀ (norm_pos_iff.2 (mul_ne_zero r00 z00)), norm_sub_rev, norm_mul]
      linarith
    have cz : circle t ≠ 0 := norm_pos_iff.1 (by rw [circle_norm]; norm_num)
    have c2 := unit_sub cz r00
    rw [circle_norm, norm_sub_rev (circle t) (rotator o)] at c2
    have e2 : ‖(rotator o * phasor o) / ‖rotator o * phasor o‖ - circle ((n + 1) * t)‖ ≤
        2 * (101 / 100 * u) + 10 * u * n := by
      have : (rotator o * phasor o) / ‖rotator o * phasor o‖ - circle ((n + 1) * t) =
          (rotator o / ‖rotator o‖ - circle t) * (phasor o / ‖phasor o‖) +
            circle t * (phasor o / ‖phasor o‖ - circle (n * t)) := by
        rw [show ((n : ℝ) + 1) * t = t + n * t by ring, circle_add, norm_mul]
        push_cast
        rw [mul_div_mul_comm]
        ring
      rw [this]
      refine (norm_add_le _ _).trans ?_
      have n1 : ‖phasor o / (‖phasor o‖ : ℂ)‖ = 1 := by
        rw [norm_div, Complex.norm_real, Real.norm_of_nonneg (norm_nonneg _), div_self (by linarith)]
      rw [norm_mul, norm_mul, n1, circle_norm, mul_one, one_mul]
      refine add_le_add ?_ hp
      rw [norm_sub_rev]
      simp only [Complex.ofReal_one, div_one] at c2
      linarith
    have := norm_sub_le_norm_sub_add_norm_sub (p / ‖p‖) ((rotator o * phasor o) / ‖rotator o * phasor o‖)
      (circle ((n + 1) * t))
    rw [norm_sub_rev (p / ‖p‖) ((rotator o * phasor o) / ‖rotator o * phasor o‖)] at this
    linarith

/-- The renormalization. -/
theorem step_renorm {m : Machine} {u η : ℝ} {p q w : ℂ} {s b : ℝ} (h : Small m u η)
    (ha : |‖p‖ - 1| ≤ 5 / 10 ^ 4) (hp : ‖p / ‖p‖ - w‖ ≤ b)
    (hs : IsSumOfProducts m.f p.re p.re p.im p.im s)
    (hq : q = ⟨m.f (p.re * m.f (m.d (1 / m.d √s))), m.f (p.im * m.f (m.d (1 / m.d √s)))⟩) :
    |‖q‖ - 1| ≤ 4 * u ∧ ‖q / ‖q‖ - w‖ ≤ b + 21 / 10 * u := by
  have u0 := h.u0
  have u1 := h.u1
  have he := h.eta
  have hη := h.f.eta_nonneg
  obtain ⟨a0, a1⟩ := abs_le.1 ha
  have e := normalization_error h hs (by linarith) (by linarith)
  generalize m.f (m.d (1 / m.d √s)) = c at *
  obtain ⟨e0, e1⟩ := abs_le.1 e
  have c0 : 0 < c := by
    by_contra hc
    push Not at hc
    nlinarith
  have nc : ‖(c : ℂ) * p‖ = c * ‖p‖ := by rw [norm_mul, Complex.norm_real, Real.norm_of_nonneg c0.le]
  have d : ‖q - c * p‖ ≤ u * (c * ‖p‖) + 2 * η := by
    rw [← nc]
    apply norm_le_of_rel u0.le hη
    · rw [hq]
      simp only [Complex.sub_re, Complex.re_ofReal_mul]
      have := h.f (p.re * c)
      rwa [mul_comm p.re c] at this ⊢
    · rw [hq]
      simp only [Complex.sub_im, Complex.im_ofReal_mul]
      have := h.f (p.im * c)
      rwa [mul_comm p.im c] at this ⊢
  have u2 : u ^ 2 ≤ u * (1 / 10 ^ 7) := by nlinarith
  have u3 : u ^ 3 ≤ u * (1 / 10 ^ 7) := by nlinarith
  have d1 : u * (c * ‖p‖) + 2 * η ≤ 101 / 100 * u := by nlinarith
  have d2 : u * (c * ‖p‖) + 2 * η ≤ 105 / 100 * u * (c * ‖p‖) := by nlinarith
  have n1 := abs_norm_sub_norm_le q (c * p)
  rw [nc] at n1
  constructor
  · have := abs_add_le (‖q‖ - c * ‖p‖) (c * ‖p‖ - 1)
    rw [sub_add_sub_cancel] at this
    linarith
  · have p0 : p ≠ 0 := norm_pos_iff.1 (by linarith)
    have cp0 : (c : ℂ) * p ≠ 0 := norm_pos_iff.1 (by rw [nc]; linarith)
    have q0 : q ≠ 0 := by
      apply norm_pos_iff.1
      have := (abs_le.1 n1).1
      linarith
    have f := unit_sub cp0 q0
    rw [unit_scale c0, norm_sub_rev ((c : ℂ) * p) q, nc] at f
    have f2 : 2 * ‖q - c * p‖ / (c * ‖p‖) ≤ 21 / 10 * u := by
      rw [div_le_iff₀ (by linarith)]
      linarith
    have := norm_sub_le_norm_sub_add_norm_sub (q / ‖q‖) (p / ‖p‖) w
    rw [norm_sub_rev (q / ‖q‖) (p / ‖p‖)] at this
    linarith

theorem step_inv {m : Machine} {u η t : ℝ} {n : ℕ} {o o' : Rotator} (h : Small m u η) (hi : Inv u t n o)
    (hn : m.Next o o') : Inv u t (n + 1) o' := by
  obtain ⟨p0, p1, h0, h1, hn⟩ := hn
  have u0 := h.u0
  have u1 := h.u1
  obtain ⟨k1, k2⟩ := step_plain (p := ⟨p0, p1⟩) h hi h0 h1
  obtain ⟨hr, hc, ha, hp⟩ := hi
  have hc' : (o.counter : ℝ) ≤ 999 := by
    have : o.counter ≤ 999 := by omega
    exact_mod_cast this
  have k3 : |‖(⟨p0, p1⟩ : ℂ)‖ - 1| ≤ 5 / 10 ^ 4 := by
    refine k1.trans ?_
    have := mul_le_mul u1 hc' (Nat.cast_nonneg _) (by norm_num)
    linarith
  split_ifs at hn with h1000
  · obtain ⟨s, hs, rfl⟩ := hn
    obtain ⟨l1, l2⟩ := step_renorm (p := ⟨p0, p1⟩) h k3 k2 hs rfl
    refine ⟨hr, by norm_num, ?_, ?_⟩
    · simpa [phasor] using l1
    · push_cast
      simp only [phasor]
      refine l2.trans ?_
      linarith
  · subst hn
    refine ⟨hr, by simp only; omega, ?_, ?_⟩
    · push_cast
      simp only [phasor]
      rw [show 1 + ((o.counter : ℝ) + 1) = 2 + o.counter by ring]
      exact k1
    · push_cast
      simp only [phasor]
      refine k2.trans ?_
      linarith

theorem run_inv {m : Machine} {u η frequency rate : ℝ} {o : Rotator} (h : Small m u η)
    (hi : m.init frequency rate = some o) : ∀ {n : ℕ} {o' : Rotator}, m.Run o n o' → Inv u (m.radians frequency rate) n o' := by
  intro n
  induction n with
  | zero =>
    rintro o' rfl
    unfold Machine.init at hi
    split_ifs at hi
    simp only [Option.some.injEq] at hi
    subst hi
    refine ⟨rotator_error h, by norm_num, ?_, ?_⟩
    · have : phasor ⟨m.f (m.cosine (m.radians frequency rate)), m.f (m.sine (m.radians frequency rate)), 1, 0, 0⟩ = 1 := rfl
      rw [this]
      have := h.u0
      simp
      positivity
    · have : phasor ⟨m.f (m.cosine (m.radians frequency rate)), m.f (m.sine (m.radians frequency rate)), 1, 0, 0⟩ = 1 := rfl
      rw [this]
      have : circle 0 = 1 := by simp [circle]; rfl
      simp [this]
  | succ n ih =>
    rintro o' ⟨o'', h1, h2⟩
    exact step_inv h (ih h1) h2

end Verif.FloatPhasor
