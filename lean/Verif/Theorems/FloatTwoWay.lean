import Verif.Proof.FloatTwoWay
import Verif.Theorems.DrcCurves

/-!
# C129: the two-way compression curve in float arithmetic
-/

namespace Verif.FloatDrc
open Verif.Rounding
open Verif.Drc

/-- A knee width as in C128, at most `L`. -/
def Knee (L w : ℝ) : Prop := (w = 0 ∨ 1 / 2 ^ 20 ≤ w ∧ w ≤ 2 ^ 100) ∧ w ≤ L

theorem up_ratio {q : ℝ} (h1 : 1 ≤ q) (h2 : q ≤ 2 ^ 100) :
    |binary32 (binary64 (1 / q)) - 1 / q| ≤ 1.1 / 2 ^ 24 * (1 / q) ∧ binary32 (binary64 (1 / q)) ≤ 1 := by
  have i0 : 0 < 1 / q := by positivity
  have i1 : 1 / q ≤ 1 := by rw [div_le_one (by linarith)]; exact h1
  have i2 : 1 / 2 ^ 100 ≤ 1 / q := one_div_le_one_div_of_le (by linarith) h2
  have A := binary64_accurate (1 / q)
  have tiny : (1 : ℝ) / 2 ^ 1075 ≤ 1 / 2 ^ 150 :=
    one_div_le_one_div_of_le (by positivity) (pow_le_pow_right₀ (by norm_num) (by norm_num))
  have m1 := binary64_regular.mono i1
  rw [binary64_regular.one] at m1
  have m2 := binary32_regular.mono m1
  rw [binary32_regular.one] at m2
  refine ⟨?_, m2⟩
  rw [abs_of_pos i0] at A
  obtain ⟨a1, a2⟩ := abs_le.1 A
  have e : (1 : ℝ) / 2 ^ 150 ≤ 1 / 2 ^ 50 * (1 / 2 ^ 100) := by norm_num
  generalize (1 : ℝ) / 2 ^ 1075 = ε at *
  generalize 1 / q = i at *
  generalize binary64 i = d at *
  have dp : |d| ≤ 1.01 * i := by rw [abs_le]; constructor <;> linarith
  obtain ⟨b1, b2⟩ := abs_le.1 (Verif.FloatQuadratic.r32 dp)
  rw [abs_le]
  constructor <;> linarith

set_option maxHeartbeats 2000000 in
/-- For levels, thresholds and knees of at most `L` dB the float computation differs from the exact two-way curve by at most
`L / 2^15` times the product of the ratios of the expander and the upwards compressor. -/
theorem C129_error {p : TwoWay} {x out L : ℝ} (hL : 1 ≤ L) (hx : |x| ≤ L)
    (t1 : |p.expander.threshold| ≤ L) (t2 : |p.upwards.threshold| ≤ L) (t3 : |p.soft.threshold| ≤ L) (t4 : |p.hard.threshold| ≤ L)
    (k1 : Knee L p.expander.knee) (k2 : Knee L p.upwards.knee) (k3 : Knee L p.soft.knee) (k4 : Knee L p.hard.knee)
    (R3 : 1 ≤ p.soft.ratio) (hup : p.upwards.ratio ≤ 2 ^ 100) (h : IsTwoWay binary32 binary64 x p out) :
    ∃ y, twoWay x p = some y ∧ |out - y| ≤ L / 2 ^ 15 * (p.expander.ratio * p.upwards.ratio) := by
  obtain ⟨hv, s, hT, c, up, eT, g1, g2, g3, g4, g5, g6⟩ := h
  have R1 : 1 ≤ p.expander.ratio := by
    by_contra hc; unfold verifyParams at hv; split_ifs at hv <;> linarith
  have R2 : 1 ≤ p.upwards.ratio := by
    by_contra hc; unfold verifyParams at hv; split_ifs at hv <;> linarith
  have R4 : p.soft.ratio ≤ p.hard.ratio := by
    by_contra hc; unfold verifyParams at hv; split_ifs at hv <;> linarith
  refine ⟨_, by unfold twoWay; rw [if_pos hv], ?_⟩
  unfold adjustedRatio
  obtain ⟨k1, l1⟩ := k1
  obtain ⟨k2, l2⟩ := k2
  obtain ⟨k3, l3⟩ := k3
  obtain ⟨k4, l4⟩ := k4
  have n1 := width_nonneg k1
  have n2 := width_nonneg k2
  have n3 := width_nonneg k3
  have n4 := width_nonneg k4
  have tiny : (1 : ℝ) / 2 ^ 118 ≤ 1 / 2 ^ 60 := by norm_num
  have tiny2 : (1 : ℝ) / 2 ^ 150 ≤ 1 / 2 ^ 60 := by norm_num
  -- soft compression
  have E1 := C128_compressor_error k3 R3 g1
  rw [← compressor_eq n3] at E1
  have Z1 := compressor_size (w := p.soft.knee) R3 n3 hx t3
  generalize compressor x p.soft.threshold p.soft.ratio p.soft.knee = y1 at *
  -- the threshold of the hard compressor
  have E2 := C128_compressor_error (Or.inl rfl) R3 g2
  rw [← compressor_eq le_rfl] at E2
  have Z2 := compressor_size (w := 0) R3 le_rfl t4 t3
  generalize compressor p.hard.threshold p.soft.threshold p.soft.ratio 0 = y2 at *
  -- the ratio of the hard compressor
  have q1 : 1 ≤ p.hard.ratio / p.soft.ratio := by rw [le_div_iff₀ (by linarith)]; linarith
  generalize p.hard.ratio / p.soft.ratio = q at *
  have q1' : 1 ≤ binary32 q := by
    have := mono q1
    rwa [binary32_regular.one] at this
  have qe : |1 / binary32 q - 1 / q| ≤ 1.1 / 2 ^ 24 := by
    have A := binary32_accurate q
    rw [abs_of_pos (show 0 < q by linarith)] at A
    rw [div_sub_div _ _ (show binary32 q ≠ 0 by positivity) (show q ≠ 0 by positivity), abs_div, abs_of_pos (show 0 < binary32 q * q by positivity),
      div_le_iff₀ (by positivity)]
    have : |1 * q - binary32 q * 1| = |binary32 q - q| := by rw [abs_sub_comm]; ring_nf
    rw [this]
    have := mul_le_mul_of_nonneg_right q1' (show 0 ≤ q by linarith)
    linarith
  generalize binary32 q = q' at *
  have e1 : |s - y1| ≤ 60.1 / 2 ^ 24 * L := by
    generalize (1 : ℝ) / 2 ^ 118 = η at *
    linarith
  have e2 : |hT - y2| ≤ 40.1 / 2 ^ 24 * L := by
    generalize (1 : ℝ) / 2 ^ 118 = η at *
    linarith
  have Z1' : |y1| ≤ 1.125 * L := by linarith
  have Z2' : |y2| ≤ 1.125 * L := by linarith
  have s' : |s| ≤ 1.126 * L := by
    have := abs_add_le (s - y1) y1
    rw [sub_add_cancel] at this
    linarith
  have hT' : |hT| ≤ 1.001 * L := by
    have := abs_add_le (hT - y2) y2
    rw [sub_add_cancel] at this
    linarith
  have E3 := C128_compressor_error k4 q1' g3
  rw [← compressor_eq n4] at E3
  have P3 := compressor_pert q1 q1' n4 e1 e2 qe (le_refl (|y1| + |y2| + p.hard.knee))
  have Z3 := compressor_size (w := p.hard.knee) q1 n4 Z1' Z2'
  have e3 : |c - compressor y1 y2 q p.hard.knee| ≤ 167 / 2 ^ 24 * L := by
    have := abs_sub_le c (compressor s hT q' p.hard.knee) (compressor y1 y2 q p.hard.knee)
    generalize (1 : ℝ) / 2 ^ 118 = η at *
    linarith
  generalize compressor s hT q' p.hard.knee = junk at *
  generalize compressor y1 y2 q p.hard.knee = y3 at *
  have Z3' : |y3| ≤ 1.25 * L := by linarith
  have c' : |c| ≤ 1.251 * L := by
    have := abs_add_le (c - y3) y3
    rw [sub_add_cancel] at this
    linarith
  -- upwards compression
  obtain ⟨pe, p1⟩ := up_ratio R2 hup
  have i0 : 0 < 1 / p.upwards.ratio := by positivity
  have i1 : 1 / p.upwards.ratio ≤ 1 := by rw [div_le_one (by linarith)]; exact R2
  have er : p.expander.ratio * p.upwards.ratio = p.expander.ratio / (1 / p.upwards.ratio) := by field_simp
  rw [er]
  generalize binary32 (binary64 (1 / p.upwards.ratio)) = i' at *
  generalize 1 / p.upwards.ratio = i at *
  obtain ⟨pe1, pe2⟩ := abs_le.1 pe
  have i'0 : 0 < i' := by linarith
  have pe' : |i' - i| ≤ 1.1 / 2 ^ 24 := pe.trans (by linarith)
  have E4 := C128_upwards_error k2 i'0.le p1 g4
  rw [← expander_eq n2] at E4
  have P4 := expander_pert (T := p.upwards.threshold) (T' := p.upwards.threshold) (f := 0) i'0.le le_rfl p1 n2 e3 (by simp) pe'
    (le_refl (|y3| + |p.upwards.threshold| + p.upwards.knee))
  have Z4 := expander_size (w := p.upwards.knee) i0.le i1 n2 Z3' (t2.trans (show L ≤ 1.25 * L by linarith))
  have e4 : |up - expander y3 p.upwards.threshold i p.upwards.knee| ≤ 274 / 2 ^ 24 * L := by
    have := abs_sub_le up (expander c p.upwards.threshold i' p.upwards.knee) (expander y3 p.upwards.threshold i p.upwards.knee)
    generalize (1 : ℝ) / 2 ^ 118 = η at *
    linarith
  generalize expander y3 p.upwards.threshold i p.upwards.knee = y4 at *
  have Z4' : |y4| ≤ 1.375 * L := by linarith
  have up' : |up| ≤ 1.376 * L := by
    have := abs_add_le (up - y4) y4
    rw [sub_add_cancel] at this
    linarith
  -- the threshold of the expander
  have E5 := C128_upwards_error (Or.inl rfl) i'0.le p1 g5
  rw [← expander_eq le_rfl] at E5
  have P5 := expander_pert (x := p.expander.threshold) (x' := p.expander.threshold) (e := 0) (T := p.upwards.threshold)
    (T' := p.upwards.threshold) (f := 0) i'0.le le_rfl p1 le_rfl (by simp) (by simp) pe'
    (le_refl (|p.expander.threshold| + |p.upwards.threshold| + 0))
  have Z5 := expander_size (w := 0) i0.le i1 le_rfl t1 t2
  have e5 : |eT - expander p.expander.threshold p.upwards.threshold i 0| ≤ 65 / 2 ^ 24 * L := by
    have := abs_sub_le eT (expander p.expander.threshold p.upwards.threshold i' 0)
      (expander p.expander.threshold p.upwards.threshold i 0)
    generalize (1 : ℝ) / 2 ^ 118 = η at *
    linarith
  generalize expander p.expander.threshold p.upwards.threshold i 0 = y5 at *
  have eT' : |eT| ≤ 1.001 * L := by
    have := abs_add_le (eT - y5) y5
    rw [sub_add_cancel] at this
    linarith
  -- the ratio of the expander
  have r1 : 1 ≤ p.expander.ratio / i := by rw [le_div_iff₀ i0]; linarith
  have r1' : 1 ≤ p.expander.ratio / i' := by rw [le_div_iff₀ i'0]; linarith
  have rr : |p.expander.ratio / i' - p.expander.ratio / i| ≤ 1.11 / 2 ^ 24 * (p.expander.ratio / i) := by
    have e : p.expander.ratio / i' - p.expander.ratio / i = p.expander.ratio / i * ((i - i') / i') := by field_simp
    rw [e, abs_mul, abs_of_pos (show 0 < p.expander.ratio / i by linarith), mul_comm]
    refine mul_le_mul_of_nonneg_right ?_ (by linarith)
    rw [abs_div, abs_of_pos i'0, div_le_iff₀ i'0, abs_sub_comm]
    linarith
  generalize p.expander.ratio / i = r at *
  generalize p.expander.ratio / i' = r0 at *
  have b1 : 1 ≤ binary32 r0 := by
    have := mono r1'
    rwa [binary32_regular.one] at this
  obtain ⟨rr1, rr2⟩ := abs_le.1 rr
  obtain ⟨rb1, rb2⟩ := abs_le.1 (Verif.FloatQuadratic.r32 (x := r0) (B := 1.001 * r) (by rw [abs_le]; constructor <;> linarith))
  generalize binary32 r0 = r' at *
  have re : |r' - r| ≤ 2.2 / 2 ^ 24 * r := by
    generalize (1 : ℝ) / 2 ^ 150 = η at *
    rw [abs_le]; constructor <;> linarith
  have r'M : r' ≤ 1.001 * r := by linarith [(abs_le.1 re).2]
  have E6 := expander_error k1 (by linarith) r'M (by linarith) g6
  rw [← expander_eq n1] at E6
  have P6 := expander_pert (by linarith) (show 1 ≤ 1.001 * r by linarith) r'M n1 e4 e5 re (le_refl (|y4| + |y5| + p.expander.knee))
  have := abs_sub_le out (expander up eT r' p.expander.knee) (expander y4 y5 r p.expander.knee)
  have Lr : L ≤ L * r := le_mul_of_one_le_right (by linarith) r1
  have S6 : (30 / 2 ^ 24 * (|up| + |eT| + p.expander.knee) + 1 / 2 ^ 118) * (1.001 * r) ≤ (102 / 2 ^ 24 * L) * (1.001 * r) :=
    mul_le_mul_of_nonneg_right (by
      generalize (1 : ℝ) / 2 ^ 118 = η at *
      linarith) (by linarith)
  have S7 : 2 * (|y4| + |y5| + p.expander.knee) * (2.2 / 2 ^ 24 * r) ≤ 7 * L * (2.2 / 2 ^ 24 * r) :=
    mul_le_mul_of_nonneg_right (by linarith) (by positivity)
  linarith

/-- With knees of width zero the result is the documented piecewise linear curve up to that error. -/
theorem C129_hard_knees {p : TwoWay} {x out L : ℝ} (hL : 1 ≤ L) (hx : |x| ≤ L)
    (t1 : |p.expander.threshold| ≤ L) (t2 : |p.upwards.threshold| ≤ L) (t3 : |p.soft.threshold| ≤ L) (t4 : |p.hard.threshold| ≤ L)
    (k1 : p.expander.knee = 0) (k2 : p.upwards.knee = 0) (k3 : p.soft.knee = 0) (k4 : p.hard.knee = 0)
    (R3 : 1 ≤ p.soft.ratio) (hup : p.upwards.ratio ≤ 2 ^ 100) (h : IsTwoWay binary32 binary64 x p out) :
    |out - Spec.twoWayHard x p.expander.threshold p.expander.ratio p.upwards.threshold p.upwards.ratio p.soft.threshold p.soft.ratio
      p.hard.threshold p.hard.ratio| ≤ L / 2 ^ 15 * (p.expander.ratio * p.upwards.ratio) := by
  obtain ⟨y, hy, he⟩ := C129_error hL hx t1 t2 t3 t4 ⟨Or.inl k1, by linarith⟩ ⟨Or.inl k2, by linarith⟩ ⟨Or.inl k3, by linarith⟩
    ⟨Or.inl k4, by linarith⟩ R3 hup h
  obtain ⟨T1, T2, T3, R1, R2, R4⟩ := verify_iff.1 h.1
  have := C29_two_way p x T1 T2 T3 R1 R2 R3 R4 k1.ge k2.ge k3.ge k4.ge (by rw [k1]; simp) (by rw [k2]; simp) (by rw [k3]; simp)
    (by rw [k4]; simp)
  rw [hy] at this
  rw [← Option.some.inj this]
  exact he

/-- The hypotheses hold for a curve with all four regions, and the computation has a result. -/
example : ∃ out, IsTwoWay binary32 binary64 (-50) ⟨⟨2, -60, 0⟩, ⟨4, -40, 0⟩, ⟨2, -20, 0⟩, ⟨8, -10, 0⟩⟩ out ∧
    |out - Spec.twoWayHard (-50) (-60) 2 (-40) 4 (-20) 2 (-10) 8| ≤ 60 / 2 ^ 15 * (2 * 4) := by
  have c : ∀ x T r, ∃ o, IsCompressor binary32 x T r 0 o := fun x T r => by
    unfold IsCompressor IsSmoothReLU
    simp only [lt_irrefl, if_false]
    exact ⟨_, _, rfl, Or.inl rfl⟩
  have e : ∀ x T r, ∃ o, IsExpander binary32 x T r 0 o := fun x T r => by
    unfold IsExpander IsSmoothReLU
    simp only [lt_irrefl, if_false]
    exact ⟨_, _, rfl, Or.inl rfl⟩
  obtain ⟨s, hs⟩ := c (-50) (-20) 2
  obtain ⟨t, ht⟩ := c (-10) (-20) 2
  obtain ⟨h, hh⟩ := c s t (binary32 (8 / 2))
  obtain ⟨u, hu⟩ := e h (-40) (binary32 (binary64 (1 / 4)))
  obtain ⟨v, hv⟩ := e (-60) (-40) (binary32 (binary64 (1 / 4)))
  obtain ⟨o, ho⟩ := e u v (binary32 (2 / binary32 (binary64 (1 / 4))))
  have H : IsTwoWay binary32 binary64 (-50) ⟨⟨2, -60, 0⟩, ⟨4, -40, 0⟩, ⟨2, -20, 0⟩, ⟨8, -10, 0⟩⟩ o :=
    ⟨verify_iff.2 (by norm_num), s, t, h, u, v, hs, ht, hh, hu, hv, ho⟩
  refine ⟨o, H, C129_hard_knees (L := 60) (by norm_num) ?_ ?_ ?_ ?_ ?_ rfl rfl rfl rfl (by norm_num) (by norm_num) H⟩ <;>
    norm_num [abs_le]

end Verif.FloatDrc
