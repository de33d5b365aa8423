import Verif.Model.FloatLadder
import Verif.Proof.FloatEnvelope
import Mathlib.Analysis.Real.Pi.Bounds

/-!
# The smoothing of the reflection coefficients in `float`
-/

namespace Verif.FloatLadder
open Verif.Rounding Verif.Biquad Verif.Envelope Verif.FloatEnvelope

theorem InRange.neg {p q M : ℝ} {s : ℝ × ℝ} (h : InRange p q (-M) M s) : InRange p q (-M) M (-s.1, -s.2) := by
  obtain ⟨l1, u1, l2, u2, l3, u3⟩ := h
  have e : (-s.1 - p * -s.2) * (1 - q) = -((s.1 - p * s.2) * (1 - q)) := by ring
  constructor <;> simp only [e, neg_mul] <;> linarith

/-- One step of a smoother with inputs of either sign. -/
theorem smoother_step_sym {f : Biquad.Filter ℝ} {p q M Δ ε τ D B : ℝ} (hf : RealPoles f p q) (hD : D = (1 - p) * (1 - q))
    (hB : B = f.ff0 + f.ff1 + f.ff2) (ε0 : 0 ≤ ε) (τ0 : 0 ≤ τ) (M0 : 0 ≤ M) (hΔ : Δ = 7 * ε * (M / D) + τ) (hΔM : Δ ≤ M)
    {s s' : ℝ × ℝ} {v y : ℝ} (hs : InRange p q (-(M + Δ)) (M + Δ) s) (hv : |v| ≤ M)
    (hc : FloatBiquad.Close f ε τ s v s' y) :
    InRange p q (-(M + Δ)) (M + Δ) s' ∧ |y| ≤ B * ((M + Δ) / D) + (ε * (B * (2 * M / D)) + τ) := by
  obtain ⟨hp, hp1, hq, hq1, f0, f1, f2, b1, b2⟩ := hf
  have p' : 0 < 1 - p := by linarith
  have q' : 0 < 1 - q := by linarith
  have D0 : 0 < D := by rw [hD]; positivity
  have D1 : D ≤ 1 := by rw [hD]; nlinarith
  have Δ0 : 0 ≤ Δ := by rw [hΔ]; positivity
  have bound : ∀ {t : ℝ}, -(M + Δ) ≤ t * D → t * D ≤ M + Δ → |t| ≤ (M + Δ) / D ∧ |t| ≤ 2 * M / D := by
    intro t h1 h2
    have : |t| ≤ (M + Δ) / D := by
      rw [le_div_iff₀ D0, ← abs_of_pos D0, ← abs_mul]; exact abs_le.2 ⟨h1, h2⟩
    exact ⟨this, this.trans (by apply div_le_div_of_nonneg_right _ D0.le; linarith)⟩
  obtain ⟨l1, u1, l2, u2, l3, u3⟩ := id hs
  rw [← hD] at l1 u1 l2 u2
  obtain ⟨a1, a3⟩ := bound l1 u1
  obtain ⟨c1, c3⟩ := bound l2 u2
  have W0 : 0 ≤ 2 * M / D := by positivity
  have d : |s'.1 - (v - (s.1 * f.fb1 + s.2 * f.fb2))| ≤ Δ := by
    refine hc.next.trans ?_
    rw [abs_mul, abs_mul, b1, b2, abs_neg, abs_of_nonneg (by linarith : 0 ≤ p + q),
      abs_of_nonneg (by positivity : 0 ≤ p * q)]
    have e1 : |s.1| * (p + q) ≤ 2 * M / D * 2 := mul_le_mul a3 (by linarith) (by linarith) W0
    have e2 : |s.2| * (p * q) ≤ 2 * M / D * 1 := mul_le_mul c3 (by nlinarith) (by positivity) W0
    have e3 : |v| ≤ M / D := hv.trans (by rw [le_div_iff₀ D0]; nlinarith)
    have e4 : |v| + |s.1| * (p + q) + |s.2| * (p * q) ≤ 7 * (M / D) := by
      have : 2 * M / D = 2 * (M / D) := by ring
      linarith
    have := mul_le_mul_of_nonneg_left e4 ε0
    rw [hΔ]
    linarith
  obtain ⟨d1, d2⟩ := abs_le.1 d
  obtain ⟨v1, v2⟩ := abs_le.1 hv
  have n := next_range hp hp1 hq hq1 (s1 := s.1) (s2 := s.2) hs
    (x := v + (s'.1 - (v - (s.1 * f.fb1 + s.2 * f.fb2)))) ⟨by linarith, by linarith⟩
  have es : (v + (s'.1 - (v - (s.1 * f.fb1 + s.2 * f.fb2))) - (s.1 * -(p + q) + s.2 * (p * q)), s.1) = s' := by
    apply Prod.ext
    · rw [b1, b2]; ring
    · exact hc.shift.symm
  rw [es] at n
  refine ⟨n, ?_⟩
  obtain ⟨n1, n2, -⟩ := n
  rw [← hD] at n1 n2
  obtain ⟨g1, g3⟩ := bound n1 n2
  have o := hc.out
  have o0 := abs_sub_le y (s'.1 * f.ff0 + (s.1 * f.ff1 + s.2 * f.ff2)) 0
  rw [sub_zero, sub_zero] at o0
  have o1 := abs_add_le (s'.1 * f.ff0) (s.1 * f.ff1 + s.2 * f.ff2)
  have o2 := abs_add_le (s.1 * f.ff1) (s.2 * f.ff2)
  rw [abs_mul] at o1
  rw [abs_mul, abs_mul] at o2
  rw [abs_mul, abs_mul, abs_mul] at o
  rw [abs_of_nonneg f0] at o o1
  rw [abs_of_nonneg f1, abs_of_nonneg f2] at o o2
  have eB : ∀ t, B * t = t * f.ff0 + t * f.ff1 + t * f.ff2 := by intro t; rw [hB]; ring
  have k1 : |s'.1| * f.ff0 + |s.1| * f.ff1 + |s.2| * f.ff2 ≤ B * (2 * M / D) := by
    rw [eB]
    have k0 := mul_le_mul_of_nonneg_right g3 f0
    have k1 := mul_le_mul_of_nonneg_right a3 f1
    have k2 := mul_le_mul_of_nonneg_right c3 f2
    linarith
  have k2 : |s'.1| * f.ff0 + |s.1| * f.ff1 + |s.2| * f.ff2 ≤ B * ((M + Δ) / D) := by
    rw [eB]
    have k0 := mul_le_mul_of_nonneg_right g1 f0
    have k1 := mul_le_mul_of_nonneg_right a1 f1
    have k2 := mul_le_mul_of_nonneg_right c1 f2
    linarith
  have k3 := mul_le_mul_of_nonneg_left k1 ε0
  linarith

theorem steady_sym {f : Biquad.Filter ℝ} {p q D M Δ v : ℝ} {s : ℝ × ℝ} (hf : RealPoles f p q)
    (hD : D = (1 - p) * (1 - q)) (D100 : 100 * (1 / 2 ^ 24) ≤ D) (hv : |v| ≤ M)
    (hΔ : Δ = 7 * (4 * (1 / 2 ^ 24)) * (M / D) + 6 * (1 / 2 ^ 150)) (hs : Steady binary32 f v s) :
    InRange p q (-(M + Δ)) (M + Δ) s := by
  have M0 : 0 ≤ M := (abs_nonneg v).trans hv
  have weak : ∀ {t : ℝ × ℝ}, InRange p q (0 - Δ) (M + Δ) t → InRange p q (-(M + Δ)) (M + Δ) t := by
    rintro t ⟨l1, u1, l2, u2, l3, u3⟩
    constructor <;> linarith
  obtain ⟨v1, v2⟩ := abs_le.1 hv
  rcases le_or_gt 0 v with h | h
  · exact weak (steady_inRange hf hD D100 le_rfl ⟨h, v2⟩ hΔ hs)
  · have hs' : Steady binary32 f (-v) (-s.1, -s.2) := by
      obtain ⟨h1, rfl⟩ := hs
      refine ⟨h1, ?_⟩
      rw [neg_div, binary32_regular.neg]
    have := InRange.neg (weak (steady_inRange hf hD D100 le_rfl ⟨by linarith, by linarith⟩ hΔ hs'))
    simpa using this

/-- The smoother that the code designs. -/
theorem IsSmoother.poles {δ : ℝ} (hδ : δ ≤ 1 / 2 ^ 30) {g : Biquad.Filter ℝ} (h : IsSmoother binary32 δ g) :
    ∃ p q D, RealPoles g p q ∧ D = (1 - p) * (1 - q) ∧ 8 / 10 ^ 4 ≤ D ∧
      |g.ff0 + g.ff1 + g.ff2 - D| ≤ 5 * (1 / 2 ^ 24) := by
  obtain ⟨f, hf, hg⟩ := h
  rw [lowpassFilter_eq (by norm_num) (by norm_num) (by norm_num) (by norm_num [overdamped])] at hf
  cases hf
  have π3 := Real.pi_gt_d2
  have π4 := Real.pi_lt_d2
  obtain ⟨x, hx⟩ : ∃ x, Real.pi * (5 / 1000) / 1 = x := ⟨_, rfl⟩
  rw [hx] at hg
  have x1 : 157 / 10000 ≤ x := by rw [← hx]; linarith
  have x2 : x ≤ 158 / 10000 := by rw [← hx]; linarith
  have t1 : x < Real.tan x := Real.lt_tan (by linarith) (by linarith)
  have t2 : Real.tan x ≤ 1 / 50 := by
    have c1 := Real.one_sub_sq_div_two_le_cos (x := x)
    have s1 := Real.sin_le (by linarith : 0 ≤ x)
    have c2 : 99 / 100 ≤ Real.cos x := by nlinarith
    rw [Real.tan_eq_sin_div_cos, div_le_iff₀ (by linarith)]
    linarith
  generalize Real.tan x = t at *
  obtain ⟨p, q, h1, h2, h3⟩ := stored_poles (t := t) (by linarith) (by linarith) hδ (by simpa [overdamped] using hg)
  refine ⟨p, q, _, h1, rfl, ?_, ?_⟩
  · have t0 : 0 < t := by linarith
    have A0 : 0 < 1 + t / (2055209 / 4194304) + t ^ 2 := by positivity
    have A1 : 1 + t / (2055209 / 4194304) + t ^ 2 ≤ 105 / 100 := by
      have : t / (2055209 / 4194304) = 4194304 / 2055209 * t := by ring
      rw [this]; nlinarith
    have : 9 / 10 ^ 4 ≤ 4 * t ^ 2 / (1 + t / (2055209 / 4194304) + t ^ 2) := by
      rw [le_div_iff₀ A0]; nlinarith
    obtain ⟨b1, b2⟩ := abs_le.1 h2
    have : (7 : ℝ) / 2 * (1 / 2 ^ 24) ≤ 1 / 10 ^ 4 := by norm_num
    linarith
  · have := abs_sub_le (g.ff0 + g.ff1 + g.ff2) (4 * t ^ 2 / (1 + t / (2055209 / 4194304) + t ^ 2)) ((1 - p) * (1 - q))
    rw [abs_sub_comm (4 * t ^ 2 / (1 + t / (2055209 / 4194304) + t ^ 2))] at this
    linarith

/-- The width of the range of the smoother's state. -/
noncomputable def slack (D M : ℝ) : ℝ := 7 * (4 * (1 / 2 ^ 24)) * (M / D) + 6 * (1 / 2 ^ 150)

/-- A smoothed coefficient exceeds the bound of its targets by at most 0.0029. -/
theorem smoothed_range {f : Biquad.Filter ℝ} {p q D M v y : ℝ} (hf : RealPoles f p q) (hD : D = (1 - p) * (1 - q))
    (D8 : 8 / 10 ^ 4 ≤ D) (hB : |f.ff0 + f.ff1 + f.ff2 - D| ≤ 5 * (1 / 2 ^ 24)) (M0 : 1 / 100 ≤ M) (M1 : M ≤ 1)
    {s s' : ℝ × ℝ} (hs : InRange p q (-(M + slack D M)) (M + slack D M) s) (hv : |v| ≤ M)
    (hstep : FloatBiquad.Step binary32 f s v s' y) :
    InRange p q (-(M + slack D M)) (M + slack D M) s' ∧ |y| ≤ M + 29 / 10 ^ 4 := by
  have D0 : 0 < D := lt_of_lt_of_le (by norm_num) D8
  have MD : M / D ≤ 1250 * M := by
    rw [div_le_iff₀ D0]; nlinarith
  have S0 : slack D M ≤ 21 / 10 ^ 4 * M := by
    unfold slack
    have : (6 : ℝ) * (1 / 2 ^ 150) ≤ 1 / 10 ^ 9 := by norm_num
    have : (7 : ℝ) * (4 * (1 / 2 ^ 24)) ≤ 168 / 10 ^ 8 := by norm_num
    have := mul_le_mul this MD (by positivity) (by norm_num)
    linarith
  have S1 : 0 ≤ slack D M := by unfold slack; positivity
  have cl := FloatBiquad.Step.close binary32_accurate (by norm_num) (by norm_num) hstep
  obtain ⟨a, b⟩ := smoother_step_sym hf hD rfl (by norm_num) (by norm_num) (by linarith : 0 ≤ M) rfl
    (show slack D M ≤ M by nlinarith) hs hv cl
  refine ⟨a, b.trans ?_⟩
  obtain ⟨B, eB⟩ : ∃ B, f.ff0 + f.ff1 + f.ff2 = B := ⟨_, rfl⟩
  change (f.ff0 + f.ff1 + f.ff2) * ((M + slack D M) / D) + (4 * (1 / 2 ^ 24) * ((f.ff0 + f.ff1 + f.ff2) * (2 * M / D)) +
    6 * (1 / 2 ^ 150)) ≤ _
  rw [eB] at hB ⊢
  obtain ⟨B1, B2⟩ := abs_le.1 hB
  have u1 : (5 : ℝ) * (1 / 2 ^ 24) ≤ 3 / 10 ^ 7 := by norm_num
  have BD : B ≤ (1 + 4 / 10 ^ 4) * D := by linarith
  have e1 : B * ((M + slack D M) / D) ≤ (1 + 4 / 10 ^ 4) * (M + slack D M) := by
    rw [mul_div_assoc', div_le_iff₀ D0]
    have := mul_le_mul_of_nonneg_right BD (by linarith : 0 ≤ M + slack D M)
    linarith
  have e2 : B * (2 * M / D) ≤ (1 + 4 / 10 ^ 4) * (2 * M) := by
    rw [mul_div_assoc', div_le_iff₀ D0]
    have := mul_le_mul_of_nonneg_right BD (by linarith : 0 ≤ 2 * M)
    linarith
  have e3 := mul_le_mul_of_nonneg_left e2 (by norm_num : (0 : ℝ) ≤ 4 * (1 / 2 ^ 24))
  have e4 : 4 * (1 / 2 ^ 24) * ((1 + 4 / 10 ^ 4) * (2 * M)) ≤ 1 / 10 ^ 6 := by
    have : (4 : ℝ) * (1 / 2 ^ 24) ≤ 24 / 10 ^ 8 := by norm_num
    nlinarith
  have e5 : (6 : ℝ) * (1 / 2 ^ 150) ≤ 1 / 10 ^ 9 := by norm_num
  linarith

end Verif.FloatLadder
