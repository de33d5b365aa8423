import Verif.Model.FloatEnvelope
import Verif.Proof.Envelope
import Verif.Proof.FloatBiquad
import Verif.Proof.Ieee

/-! Lemmas about the attack/release envelope in floating point. -/

namespace Verif.Rounding

/-- Multiples of the smallest subnormal number. -/
def OnGrid (emin : ℤ) (x : ℝ) : Prop := ∃ k : ℤ, x = k * 2 ^ emin

theorem Representable.onGrid {p : ℕ} {emin : ℤ} {x : ℝ} (h : Representable p emin x) : OnGrid emin x := by
  obtain ⟨m, e, -, he, rfl⟩ := h
  refine ⟨m * 2 ^ (e - emin).toNat, ?_⟩
  have := two_zpow_split he
  push_cast at this ⊢
  rw [mul_assoc, ← this]

theorem OnGrid.sub {emin : ℤ} {x y : ℝ} (hx : OnGrid emin x) (hy : OnGrid emin y) : OnGrid emin (x - y) := by
  obtain ⟨k, rfl⟩ := hx
  obtain ⟨l, rfl⟩ := hy
  exact ⟨k - l, by push_cast; ring⟩

/-- In the normal range the error is relative. -/
theorem ieee_error_normal {p : ℕ} {emin : ℤ} {x : ℝ} (hx : x ≠ 0) (h : emin ≤ Int.log 2 |x| + 1 - p) :
    |ieee p emin x - x| ≤ 1 / 2 ^ p * |x| := by
  have hq : 0 < |x| := abs_pos.2 hx
  have l := log_lower hq
  unfold ieee
  dsimp only
  rw [max_eq_left h]
  have hu : (0 : ℝ) < 2 ^ (Int.log 2 |x| + 1 - p) := zpow_pos (by norm_num) _
  have e := rhe_err (x / 2 ^ (Int.log 2 |x| + 1 - p))
  have s : (2 : ℝ) ^ (Int.log 2 |x| + 1 - p) = 2 * (1 / 2 ^ p * 2 ^ Int.log 2 |x|) := by
    rw [zpow_sub₀ (by norm_num), zpow_add₀ (by norm_num), zpow_natCast, zpow_one]; ring
  have k : (roundHalfEven (x / 2 ^ (Int.log 2 |x| + 1 - p)) : ℝ) * 2 ^ (Int.log 2 |x| + 1 - p) - x =
      ((roundHalfEven (x / 2 ^ (Int.log 2 |x| + 1 - p)) : ℝ) - x / 2 ^ (Int.log 2 |x| + 1 - p)) *
        2 ^ (Int.log 2 |x| + 1 - p) := by field_simp
  rw [k, abs_mul, abs_of_pos hu]
  have m1 := mul_le_mul_of_nonneg_right e hu.le
  have m2 := mul_le_mul_of_nonneg_left l (by positivity : (0 : ℝ) ≤ 1 / 2 ^ p)
  linarith

/-- The error for a multiple of the smallest subnormal number, in particular for a difference of two numbers, is
relative. -/
theorem OnGrid.error {p : ℕ} {emin : ℤ} {x : ℝ} (hx : OnGrid emin x) : |ieee p emin x - x| ≤ 1 / 2 ^ p * |x| := by
  by_cases h0 : x = 0
  · subst h0; simp [ieee_zero]
  rcases le_total emin (Int.log 2 |x| + 1 - p) with h | h
  · exact ieee_error_normal h0 h
  · obtain ⟨k, hk⟩ := hx
    have e : x = k * (2 : ℝ) ^ max (Int.log 2 |x| + 1 - p) emin := by rw [max_eq_right h]; exact hk
    have : ieee p emin x = x := le_antisymm ((ieee_le_mul e.le).trans e.ge) (e.le.trans (mul_le_ieee e.ge))
    rw [this, sub_self, abs_zero]
    positivity

/-- Rounding does not carry a number over a multiple of the smallest subnormal number that is not very close. -/
theorem OnGrid.le {p : ℕ} {emin : ℤ} {x q : ℝ} (hq : OnGrid emin q) (x0 : 0 ≤ x) (h : (1 + 1 / 2 ^ p) * x ≤ q) :
    ieee p emin x ≤ q := by
  rcases x0.eq_or_lt with rfl | hx
  · rw [ieee_zero]; linarith
  have hp : (0 : ℝ) < 1 / 2 ^ p := by positivity
  rcases le_total emin (Int.log 2 |x| + 1 - p) with g | g
  · have := ieee_error_normal hx.ne' g
    rw [abs_of_pos hx] at this
    have := (abs_le.1 this).2
    linarith
  · obtain ⟨k, hk⟩ := hq
    have := ieee_le_mul (p := p) (emin := emin) (x := x) (m := k) (by
      rw [max_eq_right g, ← hk]
      have := mul_pos hp hx
      linarith)
    rwa [max_eq_right g, ← hk] at this

theorem IsMulAdd.neg {rnd : ℝ → ℝ} (h : Regular rnd) {a b c r : ℝ} (hr : IsMulAdd rnd a b c r) :
    IsMulAdd rnd a (-b) (-c) (-r) := by
  rcases hr with rfl | rfl
  · left; rw [mul_neg, h.neg, ← neg_add, h.neg]
  · right; rw [mul_neg, ← neg_add, h.neg]

theorem follow_up {p : ℕ} (hp : 1 ≤ p) {emin : ℤ} (he : emin ≤ 0) {e r c e' : ℝ} (re : ieee p emin e = e)
    (rr : ieee p emin r = r) (c0 : 0 ≤ c) (c1 : c * (1 + 1 / 2 ^ p) ^ 2 ≤ 1) (h : e ≤ r)
    (hs : IsMulAdd (ieee p emin) c (ieee p emin (r - e)) e e') : e ≤ e' ∧ e' ≤ r := by
  have reg := ieee_regular hp he
  have ge : OnGrid emin e := re ▸ (ieee_representable p emin e).onGrid
  have gr : OnGrid emin r := rr ▸ (ieee_representable p emin r).onGrid
  have gd := gr.sub ge
  have err := gd.error (p := p)
  have d0 : 0 ≤ ieee p emin (r - e) := reg.nonneg (by linarith)
  rw [abs_of_nonneg (by linarith : 0 ≤ r - e)] at err
  have d1 := (abs_le.1 err).2
  generalize ieee p emin (r - e) = d at *
  have u0 : (0 : ℝ) ≤ 1 / 2 ^ p := by positivity
  obtain ⟨u, hu⟩ : ∃ u : ℝ, 1 / 2 ^ p = u := ⟨_, rfl⟩
  rw [hu] at u0 c1 d1
  have k1 : (1 + u) * (c * d) ≤ r - e := by
    have a1 : c * d ≤ c * ((1 + u) * (r - e)) := mul_le_mul_of_nonneg_left (by linarith) c0
    have a2 := mul_le_mul_of_nonneg_left a1 (by linarith : 0 ≤ 1 + u)
    have a3 := mul_le_mul_of_nonneg_right c1 (by linarith : 0 ≤ r - e)
    nlinarith
  have cd0 : 0 ≤ c * d := mul_nonneg c0 d0
  have k2 : c * d ≤ r - e := by nlinarith
  rcases hs with rfl | rfl
  · have p0 : 0 ≤ ieee p emin (c * d) := reg.nonneg cd0
    have p1 : ieee p emin (c * d) ≤ r - e := by
      apply gd.le cd0
      rw [hu]; exact k1
    constructor
    · rw [← re]
      conv_rhs => rw [re]
      apply reg.mono; linarith
    · rw [← rr]; apply reg.mono; linarith
  · constructor
    · rw [← re]
      conv_rhs => rw [re]
      apply reg.mono; linarith
    · rw [← rr]; apply reg.mono; linarith

/-- The update of a follower stays between the old value and the target, in floating point too. -/
theorem follow {p : ℕ} (hp : 1 ≤ p) {emin : ℤ} (he : emin ≤ 0) {e r c e' : ℝ} (re : ieee p emin e = e)
    (rr : ieee p emin r = r) (c0 : 0 ≤ c) (c1 : c * (1 + 1 / 2 ^ p) ^ 2 ≤ 1)
    (hs : IsMulAdd (ieee p emin) c (ieee p emin (r - e)) e e') :
    min e r ≤ e' ∧ e' ≤ max e r ∧ ieee p emin e' = e' := by
  have id : ieee p emin e' = e' := by
    rcases hs with rfl | rfl <;> exact ieee_idem hp emin _
  rcases le_total e r with h | h
  · obtain ⟨h1, h2⟩ := follow_up hp he re rr c0 c1 h hs
    exact ⟨(min_le_left _ _).trans h1, h2.trans (le_max_right _ _), id⟩
  · have reg := ieee_regular hp he
    have hs' := hs.neg reg
    rw [← reg.neg, show -(r - e) = -r - -e by ring] at hs'
    obtain ⟨h1, h2⟩ := follow_up hp he (by rw [reg.neg, re]) (by rw [reg.neg, rr]) c0 c1 (neg_le_neg h) hs'
    exact ⟨(min_le_right _ _).trans (by linarith), (by linarith : e' ≤ e).trans (le_max_left _ _), id⟩

end Verif.Rounding

namespace Verif.FloatEnvelope
open Verif.Rounding Verif.Biquad Verif.Envelope

/-- A filter with real poles `p`, `q` in `[0, 1)` and nonnegative feedforward coefficients. -/
structure RealPoles (f : Biquad.Filter ℝ) (p q : ℝ) : Prop where
  hp : 0 ≤ p
  hp1 : p < 1
  hq : 0 ≤ q
  hq1 : q < 1
  ff0 : 0 ≤ f.ff0
  ff1 : 0 ≤ f.ff1
  ff2 : 0 ≤ f.ff2
  fb1 : f.fb1 = -(p + q)
  fb2 : f.fb2 = p * q

theorem next_range {p q m M s1 s2 x : ℝ} (hp : 0 ≤ p) (hp1 : p < 1) (hq : 0 ≤ q) (hq1 : q < 1)
    (hs : InRange p q m M (s1, s2)) (hx : m ≤ x ∧ x ≤ M) :
    InRange p q m M (x - (s1 * -(p + q) + s2 * (p * q)), s1) := by
  have := (Overdamped.step_range (f := ⟨(1 - p) * (1 - q) / 4, 2 * ((1 - p) * (1 - q) / 4), (1 - p) * (1 - q) / 4,
    -(p + q), p * q⟩) ⟨hp, hp1, hq, hq1, rfl, rfl, rfl, rfl, rfl⟩ hs hx).1
  exact this

/-- One step of the smoother in floating point. -/
theorem smoother_step {f : Biquad.Filter ℝ} {p q m M Δ ε τ D B : ℝ} (hf : RealPoles f p q) (hD : D = (1 - p) * (1 - q))
    (hB : B = f.ff0 + f.ff1 + f.ff2) (ε0 : 0 ≤ ε) (τ0 : 0 ≤ τ) (m0 : 0 ≤ m) (hΔ : Δ = 7 * ε * (M / D) + τ)
    (hΔM : Δ ≤ M)
    {s s' : ℝ × ℝ} {v y : ℝ} (hs : InRange p q (m - Δ) (M + Δ) s) (hv : m ≤ v ∧ v ≤ M)
    (hc : FloatBiquad.Close f ε τ s v s' y) :
    InRange p q (m - Δ) (M + Δ) s' ∧
      B * ((m - Δ) / D) - (ε * (B * (2 * M / D)) + τ) ≤ y ∧ y ≤ B * ((M + Δ) / D) + (ε * (B * (2 * M / D)) + τ) := by
  obtain ⟨hp, hp1, hq, hq1, f0, f1, f2, b1, b2⟩ := hf
  have p' : 0 < 1 - p := by linarith
  have q' : 0 < 1 - q := by linarith
  have D0 : 0 < D := by rw [hD]; positivity
  have D1 : D ≤ 1 := by rw [hD]; nlinarith
  have M0 : 0 ≤ M := m0.trans (hv.1.trans hv.2)
  have Δ0 : 0 ≤ Δ := by rw [hΔ]; positivity
  have bound : ∀ {t : ℝ}, m - Δ ≤ t * D → t * D ≤ M + Δ → (m - Δ) / D ≤ t ∧ t ≤ (M + Δ) / D ∧ |t| ≤ 2 * M / D := by
    intro t h1 h2
    refine ⟨(div_le_iff₀ D0).2 h1, (le_div_iff₀ D0).2 h2, ?_⟩
    rw [abs_le, ← neg_div]
    exact ⟨(div_le_iff₀ D0).2 (by linarith), (le_div_iff₀ D0).2 (by linarith)⟩
  obtain ⟨l1, u1, l2, u2, l3, u3⟩ := id hs
  rw [← hD] at l1 u1 l2 u2
  obtain ⟨a1, a2, a3⟩ := bound l1 u1
  obtain ⟨c1, c2, c3⟩ := bound l2 u2
  -- the rounding error as an additional input
  have W0 : 0 ≤ 2 * M / D := by positivity
  have d : |s'.1 - (v - (s.1 * f.fb1 + s.2 * f.fb2))| ≤ Δ := by
    refine hc.next.trans ?_
    rw [abs_of_nonneg (m0.trans hv.1), abs_mul, abs_mul, b1, b2, abs_neg, abs_of_nonneg (by linarith : 0 ≤ p + q),
      abs_of_nonneg (by positivity : 0 ≤ p * q)]
    have e1 : |s.1| * (p + q) ≤ 2 * M / D * 2 := mul_le_mul a3 (by linarith) (by linarith) W0
    have e2 : |s.2| * (p * q) ≤ 2 * M / D * 1 := mul_le_mul c3 (by nlinarith) (by positivity) W0
    have e3 : v ≤ M / D := hv.2.trans (by rw [le_div_iff₀ D0]; nlinarith)
    have e4 : v + |s.1| * (p + q) + |s.2| * (p * q) ≤ 7 * (M / D) := by
      have : 2 * M / D = 2 * (M / D) := by ring
      linarith
    have := mul_le_mul_of_nonneg_left e4 ε0
    rw [hΔ]
    linarith
  obtain ⟨d1, d2⟩ := abs_le.1 d
  have n := next_range hp hp1 hq hq1 (s1 := s.1) (s2 := s.2) hs
    (x := v + (s'.1 - (v - (s.1 * f.fb1 + s.2 * f.fb2)))) ⟨by linarith, by linarith⟩
  have es : (v + (s'.1 - (v - (s.1 * f.fb1 + s.2 * f.fb2))) - (s.1 * -(p + q) + s.2 * (p * q)), s.1) = s' := by
    apply Prod.ext
    · rw [b1, b2]; ring
    · exact hc.shift.symm
  rw [es] at n
  refine ⟨n, ?_⟩
  obtain ⟨n1, n2, -⟩ := n
  rw [← hD] at n1 n2
  obtain ⟨g1, g2, g3⟩ := bound n1 n2
  have o := hc.out
  rw [abs_mul, abs_mul, abs_mul, abs_of_nonneg f0, abs_of_nonneg f1, abs_of_nonneg f2] at o
  have o1 : |s'.1| * f.ff0 + |s.1| * f.ff1 + |s.2| * f.ff2 ≤ B * (2 * M / D) := by
    have k0 := mul_le_mul_of_nonneg_right g3 f0
    have k1 := mul_le_mul_of_nonneg_right a3 f1
    have k2 := mul_le_mul_of_nonneg_right c3 f2
    rw [hB]
    linarith
  have o2 := mul_le_mul_of_nonneg_left o1 ε0
  obtain ⟨o3, o4⟩ := abs_le.1 o
  have k0 := mul_le_mul_of_nonneg_right g1 f0
  have k1 := mul_le_mul_of_nonneg_right a1 f1
  have k2 := mul_le_mul_of_nonneg_right c1 f2
  have r0 := mul_le_mul_of_nonneg_right g2 f0
  have r1 := mul_le_mul_of_nonneg_right a2 f1
  have r2 := mul_le_mul_of_nonneg_right c2 f2
  have eB : ∀ t, B * t = t * f.ff0 + t * f.ff1 + t * f.ff2 := by intro t; rw [hB]; ring
  rw [eB ((m - Δ) / D), eB ((M + Δ) / D)]
  constructor <;> linarith

/-- The lowpass filter as a function of the tangent of half the angle of the corner frequency. -/
noncomputable def lowpassOf (t Q : ℝ) : Biquad.Filter ℝ :=
  ⟨t ^ 2 / (1 + t / Q + t ^ 2), 2 * t ^ 2 / (1 + t / Q + t ^ 2), t ^ 2 / (1 + t / Q + t ^ 2),
    2 * (t ^ 2 - 1) / (1 + t / Q + t ^ 2), (1 - t / Q + t ^ 2) / (1 + t / Q + t ^ 2)⟩

theorem lowpassFilter_eq {rate hz Q : ℝ} (h0 : 0 < hz) (h1 : hz < rate / 2) (h2 : rate / 10 ^ 7 ≤ hz) (hQ : 0 < Q) :
    lowpassFilter rate hz Q = some (lowpassOf (Real.tan (Real.pi * hz / rate)) Q) := by
  have hr : 0 < rate := by linarith
  have hpi := Real.pi_pos
  have hw : 0 < 2 * Real.pi * hz := by positivity
  have ht : 0 < Real.tan (Real.pi * hz / rate) := by
    refine Real.tan_pos_of_pos_of_lt_pi_div_two (by positivity) ?_
    rw [div_lt_div_iff₀ hr (by norm_num)]
    nlinarith
  unfold lowpassFilter FilterDesign.lowpass
  rw [if_pos ⟨h1, h0, hQ⟩]
  unfold FilterDesign.bilinearTransform
  dsimp only
  rw [if_pos ⟨rfl, rfl, hr, h0.le, h1⟩]
  have hK : FilterDesign.computeK hz rate = 2 * Real.pi * hz / Real.tan (Real.pi * hz / rate) := by
    unfold FilterDesign.computeK
    rw [if_neg (by push Not; linarith)]
  rw [hK]
  generalize Real.tan (Real.pi * hz / rate) = t at *
  generalize 2 * Real.pi * hz = w at *
  have hden : w / t * (w / t) + w / Q * (w / t) + w * w = (w / t) ^ 2 * (1 + t / Q + t ^ 2) := by
    field_simp
  have hA : 0 < 1 + t / Q + t ^ 2 := by positivity
  have hden0 : w / t * (w / t) + w / Q * (w / t) + w * w ≠ 0 := by rw [hden]; positivity
  simp only [Option.bind_eq_bind, Option.bind_some]
  have ha : (coeffsOf (FilterDesign.normalize ⟨FilterDesign.bilinearMap [0, 0, w * w] (w / t),
      FilterDesign.bilinearMap [1, w / Q, w * w] (w / t)⟩)) =
      ⟨t ^ 2 / (1 + t / Q + t ^ 2), 2 * t ^ 2 / (1 + t / Q + t ^ 2), t ^ 2 / (1 + t / Q + t ^ 2), 1,
        2 * (t ^ 2 - 1) / (1 + t / Q + t ^ 2), (1 - t / Q + t ^ 2) / (1 + t / Q + t ^ 2)⟩ := by
    have e : ∀ n : ℝ, (w / t) ^ 2 * n / (w / t * (w / t) + w / Q * (w / t) + w * w) = n / (1 + t / Q + t ^ 2) := by
      intro n
      rw [hden, mul_div_mul_left _ _ (by positivity)]
    have e1 := e (t ^ 2)
    have e2 := e (2 * t ^ 2)
    have e3 := e (2 * (t ^ 2 - 1))
    have e4 := e (1 - t / Q + t ^ 2)
    rw [show (w / t) ^ 2 * t ^ 2 = w * w by field_simp] at e1
    rw [show (w / t) ^ 2 * (2 * t ^ 2) = 2 * (w * w) by field_simp] at e2
    rw [show (w / t) ^ 2 * (2 * (t ^ 2 - 1)) = 2 * (w * w - w / t * (w / t)) by field_simp] at e3
    rw [show (w / t) ^ 2 * (1 - t / Q + t ^ 2) = w / t * (w / t) - w / Q * (w / t) + w * w by field_simp] at e4
    simp [coeffsOf, FilterDesign.normalize, FilterDesign.bilinearMap, div_self hden0, e1, e2, e3, e4]
  rw [ha]
  unfold Biquad.init lowpassOf
  dsimp only
  rw [if_neg one_ne_zero]
  simp

theorem Stored.error {δ c v : ℝ} (h : Stored binary32 δ c v) (hδ : δ ≤ 1 / 2 ^ 30) :
    |v - c| ≤ 21 / 20 * (1 / 2 ^ 24) * |c| + 1 / 2 ^ 150 := by
  obtain ⟨d, h1, rfl⟩ := h
  have e := binary32_accurate d
  have h2 : |d - c| ≤ 1 / 2 ^ 30 * |c| := h1.trans (mul_le_mul_of_nonneg_right hδ (abs_nonneg c))
  have h3 := abs_add_le (d - c) c
  rw [sub_add_cancel] at h3
  have h4 := abs_add_le (binary32 d - d) (d - c)
  rw [sub_add_sub_cancel] at h4
  have := abs_nonneg c
  nlinarith

theorem stored_poles_aux {b a1 a2 : ℝ} {g : Biquad.Filter ℝ}
    (e0 : |g.ff0 - b| ≤ 21 / 20 * (1 / 2 ^ 24) * |b| + 1 / 2 ^ 150)
    (e1 : |g.ff1 - 2 * b| ≤ 21 / 20 * (1 / 2 ^ 24) * |2 * b| + 1 / 2 ^ 150)
    (e2 : |g.ff2 - b| ≤ 21 / 20 * (1 / 2 ^ 24) * |b| + 1 / 2 ^ 150)
    (e3 : |g.fb1 - a1| ≤ 21 / 20 * (1 / 2 ^ 24) * |a1| + 1 / 2 ^ 150)
    (e4 : |g.fb2 - a2| ≤ 21 / 20 * (1 / 2 ^ 24) * |a2| + 1 / 2 ^ 150)
    (s1 : 1 + a1 + a2 = 4 * b) (b0 : 0 < b) (b3 : 3 / 10 ^ 6 ≤ b) (b1 : b ≤ 1 / 5) (n1 : a1 ≤ 0) (n2 : -2 + 1 / 200 ≤ a1)
    (n2' : a1 ≤ -1 / 10) (n3 : 1 / 50 ≤ a2) (n4 : a2 ≤ 1) (s3 : 5 / 10 ^ 6 ≤ a1 ^ 2 - 4 * a2) :
    ∃ p q, RealPoles g p q ∧ |(1 - p) * (1 - q) - 4 * b| ≤ 7 / 2 * (1 / 2 ^ 24) ∧
      |g.ff0 + g.ff1 + g.ff2 - 4 * b| ≤ 3 / 2 * (1 / 2 ^ 24) := by
  have η0 : (1 : ℝ) / 2 ^ 150 ≤ 1 / 2 ^ 24 / 10 ^ 9 := by norm_num
  generalize (1 : ℝ) / 2 ^ 150 = η at *
  have u1 : (1 : ℝ) / 2 ^ 24 ≤ 6 / 10 ^ 8 := by norm_num
  have u0 : (0 : ℝ) < 1 / 2 ^ 24 := by norm_num
  generalize (1 : ℝ) / 2 ^ 24 = u at *
  rw [abs_of_pos b0] at e0 e2
  rw [abs_of_pos (by linarith : 0 < 2 * b)] at e1
  rw [abs_of_nonpos n1] at e3
  rw [abs_of_pos (by linarith : 0 < a2)] at e4
  obtain ⟨e0l, e0u⟩ := abs_le.1 e0
  obtain ⟨e1l, e1u⟩ := abs_le.1 e1
  obtain ⟨e2l, e2u⟩ := abs_le.1 e2
  obtain ⟨e3l, e3u⟩ := abs_le.1 e3
  obtain ⟨e4l, e4u⟩ := abs_le.1 e4
  have uu : 0 ≤ 21 / 20 * u := by linarith
  have w1 : 21 / 20 * u * -a1 ≤ 21 / 10 * u :=
    (mul_le_mul_of_nonneg_left (by linarith : -a1 ≤ 2) uu).trans (by linarith)
  have w2 : 21 / 20 * u * a2 ≤ 21 / 20 * u := (mul_le_mul_of_nonneg_left n4 uu).trans (by linarith)
  have wb : 21 / 20 * u * b ≤ 1 / 10 ^ 6 * b := mul_le_mul_of_nonneg_right (by linarith) b0.le
  have wb1 : 21 / 20 * u * (2 * b) = 2 * (21 / 20 * u * b) := by ring
  have wb2 : 21 / 20 * u * b ≤ 21 / 100 * u := (mul_le_mul_of_nonneg_left b1 uu).trans (by linarith)
  rw [wb1] at e1l e1u
  generalize 21 / 20 * u * b = X at *
  generalize 21 / 20 * u * -a1 = Y at *
  generalize 21 / 20 * u * a2 = Z at *
  have disc : 0 ≤ g.fb1 ^ 2 - 4 * g.fb2 := by
    have k1 : |g.fb1 - a1| ≤ 13 / 10 ^ 8 := by rw [abs_le]; constructor <;> linarith
    have k2 : |g.fb1 + a1| ≤ 4 := by rw [abs_le]; constructor <;> linarith
    have k3 : |(g.fb1 - a1) * (g.fb1 + a1)| ≤ 13 / 10 ^ 8 * 4 := by
      rw [abs_mul]; exact mul_le_mul k1 k2 (abs_nonneg _) (by norm_num)
    have k4 := (abs_le.1 k3).1
    have k5 : (g.fb1 - a1) * (g.fb1 + a1) = g.fb1 ^ 2 - a1 ^ 2 := by ring
    rw [k5] at k4
    linarith
  obtain ⟨r, hr⟩ : ∃ r, r = √(g.fb1 ^ 2 - 4 * g.fb2) := ⟨_, rfl⟩
  have r2 : r ^ 2 = g.fb1 ^ 2 - 4 * g.fb2 := by rw [hr]; exact Real.sq_sqrt disc
  have r0 : 0 ≤ r := hr ▸ Real.sqrt_nonneg _
  have fbn : g.fb1 < 0 := by linarith
  have rle : r ≤ -g.fb1 := by
    have : r ^ 2 ≤ (-g.fb1) ^ 2 := by rw [r2]; nlinarith
    exact le_of_sq_le_sq this (by linarith)
  have hD : (1 - (-g.fb1 + r) / 2) * (1 - (-g.fb1 - r) / 2) = 1 + g.fb1 + g.fb2 := by
    linear_combination (-1 / 4) * r2
  have Dpos : 0 < 1 + g.fb1 + g.fb2 := by linarith
  have q1 : (-g.fb1 - r) / 2 < 1 := by linarith
  have p1 : (-g.fb1 + r) / 2 < 1 := by
    by_contra hc
    push Not at hc
    have : (1 - (-g.fb1 + r) / 2) * (1 - (-g.fb1 - r) / 2) ≤ 0 :=
      mul_nonpos_of_nonpos_of_nonneg (by linarith) (by linarith)
    linarith
  refine ⟨(-g.fb1 + r) / 2, (-g.fb1 - r) / 2, ⟨by linarith, p1, by linarith, q1, by linarith, by linarith, by linarith,
    by ring, by linear_combination (1 / 4) * r2⟩, ?_, ?_⟩
  · rw [hD, abs_le]
    constructor <;> linarith
  · rw [abs_le]
    constructor <;> linarith

/-- The smoother as it is stored: two real poles, and a gain at 0 Hz of nearly one. -/
theorem stored_poles {t δ : ℝ} (h1 : 3 / 1000 ≤ t) (h2 : t ≤ 10 / 17) (hδ : δ ≤ 1 / 2 ^ 30) {g : Biquad.Filter ℝ}
    (hg : StoredFilter binary32 δ (lowpassOf t (2055209 / 4194304)) g) :
    ∃ p q, RealPoles g p q ∧ |(1 - p) * (1 - q) - 4 * t ^ 2 / (1 + t / (2055209 / 4194304) + t ^ 2)| ≤ 7 / 2 * (1 / 2 ^ 24) ∧
      |g.ff0 + g.ff1 + g.ff2 - 4 * t ^ 2 / (1 + t / (2055209 / 4194304) + t ^ 2)| ≤ 3 / 2 * (1 / 2 ^ 24) := by
  have e0 := hg.ff0.error hδ
  have e1 := hg.ff1.error hδ
  have e2 := hg.ff2.error hδ
  have e3 := hg.fb1.error hδ
  have e4 := hg.fb2.error hδ
  simp only [lowpassOf] at e0 e1 e2 e3 e4
  have t0 : 0 < t := by linarith
  obtain ⟨A, hA⟩ : ∃ A, A = 1 + t / (2055209 / 4194304) + t ^ 2 := ⟨_, rfl⟩
  have A1 : 1 ≤ A := by rw [hA]; have : 0 < t / (2055209 / 4194304) := by positivity
                        nlinarith
  have A0 : 0 < A := by linarith
  have tq : t / (2055209 / 4194304) = 4194304 / 2055209 * t := by ring
  rw [← hA] at e0 e1 e2 e3 e4 ⊢
  have A2 : A ≤ 2.55 := by rw [hA, tq]; nlinarith
  -- the exact coefficients
  obtain ⟨b, hb⟩ : ∃ b, b = t ^ 2 / A := ⟨_, rfl⟩
  have hb2 : 2 * t ^ 2 / A = 2 * b := by rw [hb]; ring
  have hb4 : 4 * t ^ 2 / A = 4 * b := by rw [hb]; ring
  rw [hb2] at e1
  rw [← hb] at e0 e2
  rw [hb4]
  obtain ⟨a1, ha1⟩ : ∃ a1, a1 = 2 * (t ^ 2 - 1) / A := ⟨_, rfl⟩
  obtain ⟨a2, ha2⟩ : ∃ a2, a2 = (1 - t / (2055209 / 4194304) + t ^ 2) / A := ⟨_, rfl⟩
  rw [← ha1] at e3
  rw [← ha2] at e4
  have s1 : 1 + a1 + a2 = 4 * b := by
    rw [ha1, ha2, hb, hA]
    field_simp
    ring
  have s2 : a1 ^ 2 - 4 * a2 = 4 * (1 / (2055209 / 4194304) ^ 2 - 4) * (t / A) ^ 2 := by
    rw [ha1, ha2, hA]
    field_simp
    ring
  have b0 : 0 < b := by rw [hb]; positivity
  have b3 : 3 / 10 ^ 6 ≤ b := by
    rw [hb, le_div_iff₀ A0]
    have : (3 / 1000) ^ 2 ≤ t ^ 2 := pow_le_pow_left₀ (by norm_num) h1 2
    linarith
  have b1 : b ≤ 1 / 5 := by
    rw [hb, div_le_iff₀ A0, hA, tq]
    nlinarith
  have n1 : a1 ≤ 0 := by
    rw [ha1]
    exact div_nonpos_of_nonpos_of_nonneg (by nlinarith) A0.le
  have n2 : -2 + 1 / 200 ≤ a1 := by
    rw [ha1, le_div_iff₀ A0, hA, tq]
    nlinarith
  have n2' : a1 ≤ -1 / 10 := by
    rw [ha1, div_le_iff₀ A0]
    nlinarith
  have n3 : 1 / 50 ≤ a2 := by
    rw [ha2, le_div_iff₀ A0, tq]
    nlinarith
  have n4 : a2 ≤ 1 := by
    rw [ha2, div_le_one A0, hA, tq]
    linarith
  have tA : 28 / 10000 ≤ t / A := by
    rw [le_div_iff₀ A0, hA, tq]
    nlinarith
  have s3 : 5 / 10 ^ 6 ≤ a1 ^ 2 - 4 * a2 := by
    rw [s2]
    have : (28 / 10000 : ℝ) ^ 2 ≤ (t / A) ^ 2 := pow_le_pow_left₀ (by norm_num) tA 2
    norm_num at this ⊢
    linarith
  exact stored_poles_aux e0 e1 e2 e3 e4 s1 b0 b3 b1 n1 n2 n2' n3 n4 s3

theorem denominator_error {f : Biquad.Filter ℝ} {p q D : ℝ} (hf : RealPoles f p q) (hD : D = (1 - p) * (1 - q)) :
    |denominator binary32 f - D| ≤ 5 / 2 * (1 / 2 ^ 24) := by
  obtain ⟨hp, hp1, hq, hq1, -, -, -, b1, b2⟩ := hf
  have p' : 0 < 1 - p := by linarith
  have q' : 0 < 1 - q := by linarith
  have D0 : 0 < D := by rw [hD]; positivity
  have D1 : D ≤ 1 := by rw [hD]; nlinarith
  have e : f.fb1 + f.fb2 = D - 1 := by rw [b1, b2, hD]; ring
  unfold denominator
  rw [e]
  have a1 := binary32_accurate (D - 1)
  have a2 := binary32_accurate (binary32 (D - 1) + 1)
  rw [abs_of_nonpos (by linarith : D - 1 ≤ 0)] at a1
  generalize binary32 (D - 1) = c at *
  have η0 : (1 : ℝ) / 2 ^ 150 ≤ 1 / 2 ^ 24 / 10 ^ 9 := by norm_num
  generalize (1 : ℝ) / 2 ^ 150 = η at *
  have u1 : (1 : ℝ) / 2 ^ 24 ≤ 6 / 10 ^ 8 := by norm_num
  have u0 : (0 : ℝ) < 1 / 2 ^ 24 := by norm_num
  generalize (1 : ℝ) / 2 ^ 24 = u at *
  have k1 : u * -(D - 1) ≤ u * 1 := mul_le_mul_of_nonneg_left (by linarith) u0.le
  obtain ⟨a1l, a1u⟩ := abs_le.1 a1
  have k2 : |c + 1| ≤ 11 / 10 := by rw [abs_le]; constructor <;> linarith
  have k3 : u * |c + 1| ≤ u * (11 / 10) := mul_le_mul_of_nonneg_left k2 u0.le
  obtain ⟨a2l, a2u⟩ := abs_le.1 a2
  rw [abs_le]
  constructor <;> linarith

/-- The state after `SetSteadyStateCondition`. -/
theorem steady_inRange {f : Biquad.Filter ℝ} {p q D m M Δ v : ℝ} {s : ℝ × ℝ} (hf : RealPoles f p q)
    (hD : D = (1 - p) * (1 - q)) (D100 : 100 * (1 / 2 ^ 24) ≤ D) (m0 : 0 ≤ m) (hv : m ≤ v ∧ v ≤ M)
    (hΔ : Δ = 7 * (4 * (1 / 2 ^ 24)) * (M / D) + 6 * (1 / 2 ^ 150)) (hs : Steady binary32 f v s) :
    InRange p q (m - Δ) (M + Δ) s := by
  obtain ⟨-, rfl⟩ := hs
  have den := denominator_error hf hD
  have D0 : 0 < D := lt_of_lt_of_le (by norm_num) D100
  have D1 : D ≤ 1 := by have := hf.hp; have := hf.hq; have := hf.hp1; have := hf.hq1; rw [hD]; nlinarith
  have e := binary32_accurate (v / denominator binary32 f)
  generalize binary32 (v / denominator binary32 f) = σ at *
  generalize denominator binary32 f = d at *
  have η0 : (0 : ℝ) ≤ 1 / 2 ^ 150 := by norm_num
  generalize (1 : ℝ) / 2 ^ 150 = η at *
  have u1 : (1 : ℝ) / 2 ^ 24 ≤ 6 / 10 ^ 8 := by norm_num
  have u0 : (0 : ℝ) < 1 / 2 ^ 24 := by norm_num
  generalize (1 : ℝ) / 2 ^ 24 = u at *
  obtain ⟨dl, du⟩ := abs_le.1 den
  have d1 : 39 / 40 * D ≤ d := by linarith
  have d0 : 0 < d := by linarith
  have v0 : 0 ≤ v := m0.trans hv.1
  have key : |σ * D - v| ≤ Δ := by
    -- v / d is close to v / D
    have w0 : 0 ≤ v / d := by positivity
    have w1 : v / d ≤ 40 / 39 * (M / D) := by
      rw [div_le_iff₀ d0]
      have h1 : v * D ≤ M * (40 / 39 * d) := mul_le_mul hv.2 (by linarith) D0.le (v0.trans hv.2)
      have : 40 / 39 * (M / D) * d = M * (40 / 39 * d) / D := by ring
      rw [this, le_div_iff₀ D0]
      exact h1
    have w2 : v / d * D - v = v / d * (D - d) := by field_simp
    have w3 : |v / d * (D - d)| ≤ 40 / 39 * (M / D) * (5 / 2 * u) := by
      rw [abs_mul, abs_of_nonneg w0]
      refine mul_le_mul w1 ?_ (abs_nonneg _) (w0.trans w1)
      rw [abs_sub_comm]; exact den
    have w4 : |(σ - v / d) * D| ≤ u * (40 / 39 * (M / D)) + η := by
      rw [abs_mul, abs_of_pos D0]
      have : |σ - v / d| ≤ u * (40 / 39 * (M / D)) + η := by
        refine e.trans ?_
        rw [abs_of_nonneg w0]
        have := mul_le_mul_of_nonneg_left w1 u0.le
        linarith
      exact (mul_le_mul this D1 D0.le ((abs_nonneg _).trans this)).trans (by linarith)
    have w5 := abs_add_le ((σ - v / d) * D) (v / d * (D - d))
    rw [show (σ - v / d) * D + v / d * (D - d) = σ * D - v by rw [← w2]; ring] at w5
    have MD : 0 ≤ u * (M / D) := by have := v0.trans hv.2; positivity
    rw [hΔ]
    linarith
  obtain ⟨kl, ku⟩ := abs_le.1 key
  have e2 : (σ - p * σ) * (1 - q) = σ * D := by rw [hD]; ring
  rw [hD] at kl ku e2
  constructor <;> (first | (rw [e2]; linarith) | (dsimp only; linarith))

/-- The coefficients that the smoother delivers. -/
theorem coefficient_range {f : Biquad.Filter ℝ} {p q D B m M Δ v y : ℝ} {s s' : ℝ × ℝ} (hf : RealPoles f p q)
    (hD : D = (1 - p) * (1 - q)) (hB : B = f.ff0 + f.ff1 + f.ff2) (hBD : |B - D| ≤ 5 * (1 / 2 ^ 24))
    (hm : 1 / 2 ^ 60 ≤ m) (hM : M ≤ 1 / 2) (ratio : 104 * (1 / 2 ^ 24) * M ≤ D * m)
    (hΔ : Δ = 7 * (4 * (1 / 2 ^ 24)) * (M / D) + 6 * (1 / 2 ^ 150)) (hv : m ≤ v ∧ v ≤ M)
    (hs : InRange p q (m - Δ) (M + Δ) s) (hr : FloatBiquad.Step binary32 f s v s' y) :
    InRange p q (m - Δ) (M + Δ) s' ∧ 0 ≤ y ∧ y ≤ 4 / 5 := by
  have cl := FloatBiquad.Step.close binary32_accurate (by norm_num) (by norm_num) hr
  have m0 : 0 < m := lt_of_lt_of_le (by norm_num) hm
  have M0 : 0 < M := by linarith
  have p' : 0 < 1 - p := by linarith [hf.hp1]
  have q' : 0 < 1 - q := by linarith [hf.hq1]
  have D0 : 0 < D := by rw [hD]; positivity
  have D1 : D ≤ 1 := by have := hf.hp; have := hf.hq; rw [hD]; nlinarith
  have u0 : (0 : ℝ) < 1 / 2 ^ 24 := by norm_num
  have η0 : (1 : ℝ) / 2 ^ 150 ≤ 1 / 2 ^ 60 / 1000 := by norm_num
  have uη : 6 * ((1 : ℝ) / 2 ^ 150) ≤ m * (6 / 1000) := by linarith
  have η1 : (0 : ℝ) ≤ 1 / 2 ^ 150 := by norm_num
  have r1 : 1 / 2 ^ 24 * (M / D) ≤ m / 104 := by
    rw [← mul_div_assoc, div_le_div_iff₀ D0 (by norm_num)]
    linarith
  have Δm : Δ ≤ 3 / 10 * m := by rw [hΔ]; linarith
  have Δ0 : 0 ≤ Δ := by rw [hΔ]; positivity
  have r2 : (1 : ℝ) / 2 ^ 24 ≤ D / 104 := by
    have : 104 * (1 / 2 ^ 24) * m ≤ D * m := (mul_le_mul_of_nonneg_left (hv.1.trans hv.2) (by norm_num)).trans ratio
    have := le_of_mul_le_mul_right this m0
    linarith
  obtain ⟨b1, b2⟩ := abs_le.1 hBD
  have b3 : 19 / 20 * D ≤ B := by linarith
  have b4 : B ≤ 21 / 20 * D := by linarith
  obtain ⟨k1, k2, k3⟩ := smoother_step hf hD hB (by positivity) (by positivity) m0.le hΔ (by linarith [hv.1.trans hv.2]) hs hv cl
  refine ⟨k1, ?_, ?_⟩
  · have e1 : 19 / 20 * (m - Δ) ≤ B * ((m - Δ) / D) := by
      rw [← mul_div_assoc, le_div_iff₀ D0]
      have := mul_le_mul_of_nonneg_right b3 (by linarith : 0 ≤ m - Δ)
      linarith
    have e2 : 4 * (1 / 2 ^ 24) * (B * (2 * M / D)) ≤ 1 / 10 * m := by
      have : 4 * (1 / 2 ^ 24) * (B * (2 * M / D)) = 8 * (1 / 2 ^ 24 * (M / D)) * B := by ring
      rw [this]
      have : 8 * (1 / 2 ^ 24 * (M / D)) * B ≤ 8 * (m / 104) * (21 / 20) :=
        mul_le_mul (by linarith) (by linarith) (by linarith) (by positivity)
      linarith
    linarith
  · have e1 : B * ((M + Δ) / D) ≤ 21 / 20 * (M + Δ) := by
      rw [← mul_div_assoc, div_le_iff₀ D0]
      have := mul_le_mul_of_nonneg_right b4 (by linarith : 0 ≤ M + Δ)
      linarith
    have e2 : 4 * (1 / 2 ^ 24) * (B * (2 * M / D)) ≤ 1 / 10 * m := by
      have : 4 * (1 / 2 ^ 24) * (B * (2 * M / D)) = 8 * (1 / 2 ^ 24 * (M / D)) * B := by ring
      rw [this]
      have : 8 * (1 / 2 ^ 24 * (M / D)) * B ≤ 8 * (m / 104) * (21 / 20) :=
        mul_le_mul (by linarith) (by linarith) (by linarith) (by positivity)
      linarith
    linarith [hv.1.trans hv.2]

end Verif.FloatEnvelope
