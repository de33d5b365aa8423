import Verif.Model.FloatArithmeticSequence
import Verif.Proof.Ieee
import Verif.Proof.Rounding
import Mathlib.Tactic.Linarith
import Mathlib.Tactic.Positivity
import Mathlib.Tactic.LinearCombination

/-! Helper lemmas for `ArithmeticSequence` in floating point. -/

namespace Verif.FloatArithmeticSequence
open Verif.ArithmeticSequence Verif.Rounding

variable {rnd : ℝ → ℝ} {u η : ℝ}

/-- The documented tolerance, number_util.h:89, first argument of `min`. -/
def T (u B L : ℝ) : ℝ := 2 * u * (5 * (|B| + |L|) + 7 * |L - B|)

theorem rstep (hA : Accurate rnd u η) (hu : 0 ≤ u) {x X α β γ : ℝ} (h : |x - X| ≤ α * X) (hη : η ≤ β * X) (hX : 0 ≤ X)
    (hγ : α + β + u * (1 + α) ≤ γ) : |rnd x - X| ≤ γ * X := by
  have h1 := hA x
  have h2 : |x| ≤ (1 + α) * X := by
    have := abs_sub_abs_le_abs_sub x X
    rw [abs_of_nonneg hX] at this
    linarith
  have h3 := mul_le_mul_of_nonneg_left h2 hu
  have h4 := abs_sub_le (rnd x) x X
  have h5 := mul_le_mul_of_nonneg_right hγ hX
  linarith

theorem T_nonneg (hu : 0 ≤ u) (B L : ℝ) : 0 ≤ T u B L := by unfold T; positivity

theorem tol0_bound (hA : Accurate rnd u η) (hu : 0 ≤ u) (hu' : u ≤ 1 / 1000) {B L : ℝ}
    (hη : η ≤ u ^ 2 * (|B| + |L|)) : |tol0 rnd (2 * u) B L - T u B L| ≤ 5 * u * T u B L := by
  unfold tol0 T
  have hw : 0 ≤ |B| + |L| := by positivity
  have hd0 : 0 ≤ |L - B| := abs_nonneg _
  have huu : u ^ 2 ≤ u / 1000 := by nlinarith
  generalize |B| + |L| = w at *
  have hd := hA (L - B)
  have hη0 := hA.eta_nonneg
  have hd2 := abs_sub_abs_le_abs_sub (rnd (L - B)) (L - B)
  have hd3 := abs_sub_abs_le_abs_sub (L - B) (rnd (L - B))
  rw [abs_sub_comm (L - B) (rnd (L - B))] at hd3
  generalize |rnd (L - B)| = d at *
  generalize |L - B| = d0 at *
  have huw := mul_le_mul_of_nonneg_right huu hw
  have s1 : |rnd w - w| ≤ (101 / 100 * u) * w :=
    rstep hA hu (α := 0) (β := u ^ 2) (by simp) hη hw (by linarith)
  have s2 : |rnd (5 * rnd w) - 5 * w| ≤ (203 / 100 * u) * (5 * w) := by
    refine rstep hA hu (α := 101 / 100 * u) (β := u ^ 2) ?_ ?_ (by positivity) (by nlinarith)
    · rw [← mul_sub, abs_mul]
      norm_num
      linarith
    · nlinarith [mul_nonneg (sq_nonneg u) hw]
  have s3 : |rnd (7 * d) - 7 * d0| ≤ (201 / 100 * u) * (7 * d0) + 1 / 100 * u * w := by
    have hdd : |d - d0| ≤ u * d0 + η := abs_le.2 ⟨by linarith, by linarith⟩
    have h7 : |7 * d - 7 * d0| ≤ 7 * (u * d0 + η) := by
      rw [← mul_sub, abs_mul]
      norm_num
      linarith
    have h1 := hA (7 * d)
    have h2 := abs_sub_abs_le_abs_sub (7 * d) (7 * d0)
    rw [abs_of_nonneg (by positivity : 0 ≤ 7 * d0)] at h2
    have h3 : |7 * d| ≤ 7 * d0 + 7 * (u * d0 + η) := by linarith
    have h4 := mul_le_mul_of_nonneg_left h3 hu
    have h5 := abs_sub_le (rnd (7 * d)) (7 * d) (7 * d0)
    have h6 : u * η ≤ η / 1000 := by nlinarith
    have h7 : u * (u * d0) ≤ u * d0 / 1000 := by nlinarith [mul_nonneg hu hd0]
    nlinarith [mul_nonneg hu hd0]
  have s4 : |rnd (rnd (5 * rnd w) + rnd (7 * d)) - (5 * w + 7 * d0)| ≤ (306 / 100 * u) * (5 * w + 7 * d0) := by
    refine rstep hA hu (α := 204 / 100 * u) (β := u ^ 2) ?_ ?_ (by positivity) (by nlinarith)
    · have := abs_add_le (rnd (5 * rnd w) - 5 * w) (rnd (7 * d) - 7 * d0)
      rw [show rnd (5 * rnd w) + rnd (7 * d) - (5 * w + 7 * d0) = rnd (5 * rnd w) - 5 * w + (rnd (7 * d) - 7 * d0) by ring]
      nlinarith [mul_nonneg hu hd0, mul_nonneg hu hw]
    · nlinarith [mul_nonneg (sq_nonneg u) hw, mul_nonneg (sq_nonneg u) hd0]
  refine rstep hA hu (α := 306 / 100 * u) (β := u / 10) ?_ ?_ (by positivity) (by nlinarith)
  · rw [← mul_sub, abs_mul, abs_of_nonneg (by positivity : 0 ≤ 2 * u)]
    nlinarith [mul_le_mul_of_nonneg_left s4 hu]
  · nlinarith [mul_nonneg (sq_nonneg u) hw, mul_nonneg (sq_nonneg u) hd0]

theorem eta_T {B L : ℝ} (hu : 0 ≤ u) (hη : η ≤ u ^ 2 * (|B| + |L|)) : η ≤ u / 10 * T u B L := by
  unfold T
  nlinarith [mul_nonneg (sq_nonneg u) (abs_nonneg (L - B))]

/-- Also when the step is only a rounding error away from three tolerances. -/
theorem tol_bound (hA : Accurate rnd u η) (hu : 0 ≤ u) (hu' : u ≤ 1 / 1000) {B S L : ℝ}
    (hη : η ≤ u ^ 2 * (|B| + |L|)) (hS : 3 * T u B L ≤ |S|) :
    |tol rnd (2 * u) B S L - T u B L| ≤ 8 * u * T u B L := by
  have h0 := tol0_bound hA hu hu' hη
  have hT := T_nonneg hu B L
  have he := eta_T hu hη
  unfold tol
  split_ifs with hs
  · unfold Small at hs
    have h3 : |rnd (3 * tol0 rnd (2 * u) B L) - 3 * T u B L| ≤ (62 / 10 * u) * (3 * T u B L) := by
      refine rstep hA hu (α := 5 * u) (β := u / 10) ?_ ?_ (by positivity) (by nlinarith)
      · rw [← mul_sub, abs_mul]
        norm_num
        linarith
      · nlinarith [mul_nonneg hu hT]
    refine rstep hA hu (α := 62 / 10 * u) (β := u / 10) ?_ he hT (by nlinarith)
    have := (abs_le.1 h3).2
    rw [abs_le]
    constructor <;> nlinarith [mul_nonneg hu hT]
  · nlinarith [mul_nonneg hu hT]

/-- The numerator of the quotient that is rounded down. -/
theorem num_bound (hA : Accurate rnd u η) (hu : 0 ≤ u) (hu' : u ≤ 1 / 1000) {B L t : ℝ}
    (hη : η ≤ u ^ 2 * (|B| + |L|)) (ht : |t - T u B L| ≤ 8 * u * T u B L) :
    |rnd (rnd (L - B) + t) - (L - B + T u B L)| ≤ 5 / 2 * u * |L - B| + 1 / 5 * u * (|B| + |L|) := by
  have hT := T_nonneg hu B L
  have h1 := hA (L - B)
  have h2 := hA (rnd (L - B) + t)
  have hη0 := hA.eta_nonneg
  have hw : 0 ≤ |B| + |L| := by positivity
  have hd0 : 0 ≤ |L - B| := abs_nonneg _
  have h3 : |rnd (L - B) + t - (L - B + T u B L)| ≤ (u * |L - B| + η) + 8 * u * T u B L := by
    rw [show rnd (L - B) + t - (L - B + T u B L) = (rnd (L - B) - (L - B)) + (t - T u B L) by ring]
    exact (abs_add_le _ _).trans (by linarith)
  have h4 : |rnd (L - B) + t| ≤ |L - B| + T u B L + ((u * |L - B| + η) + 8 * u * T u B L) := by
    have a := abs_sub_abs_le_abs_sub (rnd (L - B) + t) (L - B + T u B L)
    have b := abs_add_le (L - B) (T u B L)
    rw [abs_of_nonneg hT] at b
    linarith
  have h5 := abs_sub_le (rnd (rnd (L - B) + t)) (rnd (L - B) + t) (L - B + T u B L)
  have h6 := mul_le_mul_of_nonneg_left h4 hu
  have hTe : T u B L = 2 * u * (5 * (|B| + |L|) + 7 * |L - B|) := rfl
  have huu : u * T u B L ≤ u / 100 * (|B| + |L|) + 14 / 1000 * u * |L - B| := by
    rw [hTe]
    nlinarith [mul_nonneg hu hw, mul_nonneg hu hd0]
  have huuu : u * (u * T u B L) ≤ u * T u B L / 1000 := by nlinarith [mul_nonneg hu hT]
  have huη : u * η ≤ η / 1000 := by nlinarith
  have hη2 : η ≤ u / 1000 * (|B| + |L|) := hη.trans (by nlinarith [mul_nonneg hu hw])
  have hud0 : u * (u * |L - B|) ≤ u * |L - B| / 1000 := by nlinarith [mul_nonneg hu hd0]
  generalize |B| + |L| = w at *
  generalize |L - B| = d0 at *
  nlinarith [mul_nonneg hu hw, mul_nonneg hu hd0]

/-- The bracket of the computed count, for a positive step. -/
theorem bracket (hA : Accurate rnd u η) (hu : 0 ≤ u) (hu' : u ≤ 1 / 1000) {B L S num : ℝ} (hS : 0 < S)
    (hη : η * (1 + S) ≤ u ^ 2 * (|B| + |L|))
    (hn : |num - (L - B + T u B L)| ≤ 5 / 2 * u * |L - B| + 1 / 5 * u * (|B| + |L|)) (m : ℤ)
    (hm : m = 1 + ⌊rnd (num / S)⌋) :
    B + (m - 1) * S ≤ L + T u B L + u * (4 * |L - B| + 1 / 2 * (|B| + |L|)) ∧
    L + T u B L - u * (4 * |L - B| + 1 / 2 * (|B| + |L|)) < B + m * S := by
  have hT := T_nonneg hu B L
  have hη0 := hA.eta_nonneg
  have hw : 0 ≤ |B| + |L| := by positivity
  have hd0 : 0 ≤ |L - B| := abs_nonneg _
  have hq := hA (num / S)
  have f1 := Int.floor_le (rnd (num / S))
  have f2 := Int.lt_floor_add_one (rnd (num / S))
  have hm' : (m : ℝ) = 1 + (⌊rnd (num / S)⌋ : ℝ) := by rw [hm]; push_cast; ring
  rw [abs_div, abs_of_pos hS] at hq
  have hq2 : |rnd (num / S) * S - num| ≤ u * |num| + η * S := by
    have := mul_le_mul_of_nonneg_right hq hS.le
    rw [← abs_of_pos hS, ← abs_mul, abs_of_pos hS, sub_mul, div_mul_cancel₀ _ hS.ne', add_mul, mul_assoc,
      div_mul_cancel₀ _ hS.ne'] at this
    exact this
  have g1 := mul_le_mul_of_nonneg_right f1 hS.le
  have g2 := mul_lt_mul_of_pos_right f2 hS
  have h4 : |num| ≤ |L - B| + T u B L + (5 / 2 * u * |L - B| + 1 / 5 * u * (|B| + |L|)) := by
    have a := abs_sub_abs_le_abs_sub num (L - B + T u B L)
    have b := abs_add_le (L - B) (T u B L)
    rw [abs_of_nonneg hT] at b
    linarith
  have h6 := mul_le_mul_of_nonneg_left h4 hu
  have hTe : T u B L = 2 * u * (5 * (|B| + |L|) + 7 * |L - B|) := rfl
  have huu : u * T u B L ≤ u / 100 * (|B| + |L|) + 14 / 1000 * u * |L - B| := by
    rw [hTe]
    nlinarith [mul_nonneg hu hw, mul_nonneg hu hd0]
  have hη2 : η * S ≤ u / 1000 * (|B| + |L|) := by
    have : u ^ 2 * (|B| + |L|) ≤ u / 1000 * (|B| + |L|) := by nlinarith [mul_nonneg hu hw]
    nlinarith
  have hud0 : u * (u * |L - B|) ≤ u * |L - B| / 1000 := by nlinarith [mul_nonneg hu hd0]
  have huw : u * (u * (|B| + |L|)) ≤ u * (|B| + |L|) / 1000 := by nlinarith [mul_nonneg hu hw]
  obtain ⟨n1, n2⟩ := abs_le.1 hn
  obtain ⟨q1, q2⟩ := abs_le.1 hq2
  rw [hm']
  generalize (⌊rnd (num / S)⌋ : ℝ) = f at *
  have p1 := mul_nonneg hu hw
  have p2 := mul_nonneg hu hd0
  generalize |B| + |L| = w at *
  generalize |L - B| = d0 at *
  constructor
  · have : (1 + f - 1) * S = f * S := by ring
    rw [this]
    linarith
  · have : (1 + f) * S = (f + 1) * S := by ring
    rw [this]
    linarith

/-- The first check, for a positive step. -/
theorem check_le (hA : Accurate rnd u η) (hR : Regular rnd) (hu : 0 < u) (hu' : u ≤ 1 / 1000) {B L S t : ℝ} (hS : 0 < S)
    (hw : 0 < |B| + |L|) (hη : η ≤ u ^ 2 * (|B| + |L|)) (ht : |t - T u B L| ≤ 8 * u * T u B L) {m : ℤ} (hm : 1 ≤ m)
    (h1 : B + (m - 1) * S ≤ L + T u B L + u * (4 * |L - B| + 1 / 2 * (|B| + |L|))) :
    rnd (B + rnd (S * ((m - 1 : ℤ) : ℝ))) ≤ rnd (L + rnd (2 * t)) := by
  have hT := T_nonneg hu.le B L
  have hη0 := hA.eta_nonneg
  have hd : 0 ≤ |L - B| := abs_nonneg _
  have hTe : T u B L = 2 * u * (5 * (|B| + |L|) + 7 * |L - B|) := rfl
  have huu : u * T u B L ≤ u / 100 * (|B| + |L|) + 14 / 1000 * u * |L - B| := by
    rw [hTe]
    nlinarith [mul_nonneg hu.le hw.le, mul_nonneg hu.le hd]
  have hη2 : η ≤ u / 1000 * (|B| + |L|) := hη.trans (by nlinarith [mul_nonneg hu.le hw.le])
  have hud : u * (u * |L - B|) ≤ u * |L - B| / 1000 := by nlinarith [mul_nonneg hu.le hd]
  have huw : u * (u * (|B| + |L|)) ≤ u * (|B| + |L|) / 1000 := by nlinarith [mul_nonneg hu.le hw.le]
  have hm1 : (1 : ℝ) ≤ m := by exact_mod_cast hm
  have p1 := mul_pos hu hw
  have p2 := mul_nonneg hu.le hd
  have hLB := le_abs_self (L - B)
  have hLB' := neg_abs_le (L - B)
  obtain ⟨t1, t2⟩ := abs_le.1 ht
  have huη : u * η ≤ η / 1000 := by nlinarith
  apply hR.mono
  push_cast
  have hz : 0 ≤ S * ((m : ℝ) - 1) := mul_nonneg hS.le (by linarith)
  have hz1 : S * ((m : ℝ) - 1) ≤ L - B + T u B L + u * (4 * |L - B| + 1 / 2 * (|B| + |L|)) := by linarith
  have a := (abs_le.1 (hA (S * ((m : ℝ) - 1)))).2
  rw [abs_of_nonneg hz] at a
  have b := (abs_le.1 (hA (2 * t))).1
  have c : |2 * t| ≤ 2 * (T u B L + 8 * u * T u B L) := by
    rw [abs_le]
    constructor <;> nlinarith [mul_nonneg hu.le hT]
  have d := mul_le_mul_of_nonneg_left c hu.le
  have e := mul_le_mul_of_nonneg_left hz1 hu.le
  have g := mul_le_mul_of_nonneg_left hLB hu.le
  have huuT : u * (u * T u B L) ≤ u * T u B L / 1000 := by nlinarith [mul_nonneg hu.le hT]
  generalize S * ((m : ℝ) - 1) = z at *
  generalize |B| + |L| = w at *
  generalize |L - B| = d0 at *
  linarith

/-- The second check, for a positive step. -/
theorem check_lt (hA : Accurate rnd u η) (hR : Regular rnd) (hu : 0 < u) (hu' : u ≤ 1 / 1000) {B L S : ℝ} (hS : 0 < S)
    (hw : 0 < |B| + |L|) (hη : η ≤ u ^ 2 * (|B| + |L|)) {m : ℤ} (hm : 1 ≤ m)
    (h2 : L + T u B L - u * (4 * |L - B| + 1 / 2 * (|B| + |L|)) < B + m * S) :
    L < rnd (B + rnd (S * (m : ℝ))) := by
  have hT := T_nonneg hu.le B L
  have hη0 := hA.eta_nonneg
  have hd : 0 ≤ |L - B| := abs_nonneg _
  have hTe : T u B L = 2 * u * (5 * (|B| + |L|) + 7 * |L - B|) := rfl
  have huu : u * T u B L ≤ u / 100 * (|B| + |L|) + 14 / 1000 * u * |L - B| := by
    rw [hTe]
    nlinarith [mul_nonneg hu.le hw.le, mul_nonneg hu.le hd]
  have hη2 : η ≤ u / 1000 * (|B| + |L|) := hη.trans (by nlinarith [mul_nonneg hu.le hw.le])
  have hud : u * (u * |L - B|) ≤ u * |L - B| / 1000 := by nlinarith [mul_nonneg hu.le hd]
  have huw : u * (u * (|B| + |L|)) ≤ u * (|B| + |L|) / 1000 := by nlinarith [mul_nonneg hu.le hw.le]
  have hm1 : (1 : ℝ) ≤ m := by exact_mod_cast hm
  have p1 := mul_pos hu hw
  have p2 := mul_nonneg hu.le hd
  have hLB := le_abs_self (L - B)
  have hLB' := neg_abs_le (L - B)
  have huη : u * η ≤ η / 1000 := by nlinarith
  have hz : 0 < S * (m : ℝ) := mul_pos hS (by linarith)
  have hz1 : L - B + T u B L - u * (4 * |L - B| + 1 / 2 * (|B| + |L|)) < S * (m : ℝ) := by linarith
  have a := abs_le.1 (hA (S * (m : ℝ)))
  rw [abs_of_pos hz] at a
  have b := (abs_le.1 (hA (B + rnd (S * (m : ℝ))))).1
  have c : |B + rnd (S * (m : ℝ))| ≤ |B| + (S * (m : ℝ) + u * (S * (m : ℝ)) + η) := by
    refine (abs_add_le _ _).trans (add_le_add le_rfl ?_)
    rw [abs_of_nonneg (hR.nonneg hz.le)]
    linarith [a.2]
  have d := mul_le_mul_of_nonneg_left c hu.le
  have k : u * (u * (S * (m : ℝ))) ≤ u * (S * (m : ℝ)) / 1000 := by nlinarith [mul_pos hu hz]
  have hBw : u * |B| ≤ u * (|B| + |L|) := mul_le_mul_of_nonneg_left (by linarith [abs_nonneg L]) hu.le
  have key : B + S * (m : ℝ) * (1 - 21 / 10 * u) - u * (|B| + |L|) - 21 / 10 * η ≤ rnd (B + rnd (S * (m : ℝ))) := by
    have := mul_pos hu hz
    linarith [a.1]
  have e := mul_le_mul_of_nonneg_right hz1.le (by linarith only [hu'] : 0 ≤ 1 - 21 / 10 * u)
  have g := mul_le_mul_of_nonneg_left hLB hu.le
  generalize S * (m : ℝ) = z at *
  generalize |B| + |L| = w at *
  generalize |L - B| = d0 at *
  generalize T u B L = τ at *
  linarith [mul_nonneg hu.le p2, mul_pos hu p1]

/-- What the constructor does with a count. -/
theorem make_of {eps B S L : ℝ} {m : ℤ} (hS : S ≠ 0) (hs : sized rnd eps B S L = m) (hm : m ≤ 2 ^ 31 - 1)
    (hc : 1 ≤ m →
      sign S * rnd (B + rnd (S * ((m - 1 : ℤ) : ℝ))) ≤ rnd (sign S * L + rnd (2 * tol rnd eps B S L)) ∧
      sign S * L < sign S * rnd (B + rnd (S * (m : ℝ)))) :
    ∃ s, make rnd eps B S L = some s ∧ s.size = max 0 m ∧ s.base = B ∧ (m = 1 → s.limit = B) ∧
      (1 < m → s.step = S ∧ (s.limit = L ∨ s.limit = rnd (B + rnd (S * ((m - 1 : ℤ) : ℝ))))) := by
  unfold make
  simp only [if_neg hS, hs]
  rcases le_or_gt m 0 with h | h
  · rw [if_pos (by exact_mod_cast h)]
    exact ⟨_, rfl, by simp [max_eq_left h], rfl, fun h' => by omega, fun h' => by omega⟩
  · have h1 : 1 ≤ m := by omega
    obtain ⟨c1, c2⟩ := hc h1
    rw [if_neg (by push Not; exact_mod_cast h),
      if_neg (by rw [not_not]; exact_mod_cast hm), Int.floor_intCast]
    rw [if_neg (by rw [not_not]; exact c1), if_neg (by rw [not_not]; exact c2)]
    split_ifs with h2 h3
    · exact ⟨_, rfl, by simp [h2], rfl, fun _ => rfl, fun h' => by omega⟩
    · exact ⟨_, rfl, by simp [h.le], rfl, fun h' => absurd h' h2, fun _ => ⟨rfl, Or.inr rfl⟩⟩
    · exact ⟨_, rfl, by simp [h.le], rfl, fun h' => absurd h' h2, fun _ => ⟨rfl, Or.inl rfl⟩⟩

/-- The constructor for a positive step that is at least three tolerances. -/
theorem pos_case (hA : Accurate rnd u η) (hR : Regular rnd) (hint : ∀ k : ℤ, |k| ≤ 2 ^ 31 → rnd k = k) (hu : 0 < u)
    (hu' : u ≤ 1 / 1000) {B S L : ℝ} (hw : 0 < |B| + |L|) (hS : 0 < S) (hη : η * (1 + S) ≤ u ^ 2 * (|B| + |L|))
    (hS3 : 3 * T u B L ≤ S) (hn : L - B + 2 * T u B L < (2 ^ 31 - 1) * S) (hn' : -(2 ^ 31) * S ≤ L - B) :
    ∃ m : ℤ, m ≤ 2 ^ 31 - 1 ∧
      rnd (1 + ⌊rnd (rnd (rnd (L - B) + tol rnd (2 * u) B S L) / S)⌋) = m ∧
      (1 ≤ m → rnd (B + rnd (S * ((m - 1 : ℤ) : ℝ))) ≤ rnd (L + rnd (2 * tol rnd (2 * u) B S L)) ∧
        L < rnd (B + rnd (S * (m : ℝ)))) ∧
      B + (m - 1) * S ≤ L + T u B L + u * (4 * |L - B| + 1 / 2 * (|B| + |L|)) ∧
      L + T u B L - u * (4 * |L - B| + 1 / 2 * (|B| + |L|)) < B + m * S := by
  have hη0 := hA.eta_nonneg
  have hη1 : η ≤ u ^ 2 * (|B| + |L|) := by nlinarith
  have ht := tol_bound hA hu.le hu' (S := S) hη1 (by rwa [abs_of_pos hS])
  have hnum := num_bound hA hu.le hu' hη1 ht
  obtain ⟨b1, b2⟩ := bracket hA hu.le hu' hS hη hnum _ rfl
  have hT := T_nonneg hu.le B L
  have hTe : T u B L = 2 * u * (5 * (|B| + |L|) + 7 * |L - B|) := rfl
  have hd : 0 ≤ |L - B| := abs_nonneg _
  have hE : u * (4 * |L - B| + 1 / 2 * (|B| + |L|)) ≤ T u B L := by
    rw [hTe]; nlinarith [mul_nonneg hu.le hw.le, mul_nonneg hu.le hd]
  have hup : (((1 + ⌊rnd (rnd (rnd (L - B) + tol rnd (2 * u) B S L) / S)⌋ : ℤ) : ℝ) - 1) * S < (2 ^ 31 - 1) * S := by
    linarith
  have hlo : (-(2 ^ 31)) * S < ((1 + ⌊rnd (rnd (rnd (L - B) + tol rnd (2 * u) B S L) / S)⌋ : ℤ) : ℝ) * S := by
    linarith
  have hup' := lt_of_mul_lt_mul_right hup hS.le
  have hlo' := lt_of_mul_lt_mul_right hlo hS.le
  have hup2 : (1 + ⌊rnd (rnd (rnd (L - B) + tol rnd (2 * u) B S L) / S)⌋ : ℤ) < 2 ^ 31 := by
    have : ((1 + ⌊rnd (rnd (rnd (L - B) + tol rnd (2 * u) B S L) / S)⌋ : ℤ) : ℝ) < ((2 ^ 31 : ℤ) : ℝ) := by
      push_cast at hup' ⊢; linarith
    exact_mod_cast this
  have hlo2 : -(2 ^ 31) < (1 + ⌊rnd (rnd (rnd (L - B) + tol rnd (2 * u) B S L) / S)⌋ : ℤ) := by
    have : ((-(2 ^ 31) : ℤ) : ℝ) < ((1 + ⌊rnd (rnd (rnd (L - B) + tol rnd (2 * u) B S L) / S)⌋ : ℤ) : ℝ) := by
      push_cast at hlo' ⊢; linarith
    exact_mod_cast this
  refine ⟨_, by omega, ?_, ?_, b1, b2⟩
  · have := hint _ (abs_le.2 ⟨by omega, by omega⟩ : |1 + ⌊rnd (rnd (rnd (L - B) + tol rnd (2 * u) B S L) / S)⌋| ≤ 2 ^ 31)
    push_cast at this ⊢
    exact this
  · intro hm
    exact ⟨check_le hA hR hu hu' hS hw hη1 ht hm b1, check_lt hA hR hu hu' hS hw hη1 hm b2⟩

theorem T_neg (u B L : ℝ) : T u (-B) (-L) = T u B L := by
  unfold T
  rw [abs_neg, abs_neg, show -L - -B = -(L - B) by ring, abs_neg]

theorem tol_neg (hR : Regular rnd) (eps B S L : ℝ) : tol rnd eps (-B) (-S) (-L) = tol rnd eps B S L := by
  have h0 : tol0 rnd eps (-B) (-L) = tol0 rnd eps B L := by
    unfold tol0
    rw [abs_neg, abs_neg, show -L - -B = -(L - B) by ring, hR.neg, abs_neg]
  unfold tol Small
  rw [h0, abs_neg]

/-- The constructor for a step that is at least three tolerances. -/
theorem constructed (hA : Accurate rnd u η) (hR : Regular rnd) (hint : ∀ k : ℤ, |k| ≤ 2 ^ 31 → rnd k = k) (hu : 0 < u)
    (hu' : u ≤ 1 / 1000) {B S L : ℝ} (hw : 0 < |B| + |L|) (hS : S ≠ 0) (hη : η * (1 + |S|) ≤ u ^ 2 * (|B| + |L|))
    (hS3 : 3 * T u B L ≤ |S|) (hn : sign S * (L - B) + 2 * T u B L < (2 ^ 31 - 1) * |S|)
    (hn' : -(2 ^ 31) * |S| ≤ sign S * (L - B)) :
    ∃ s m, make rnd (2 * u) B S L = some s ∧ s.size = max 0 m ∧ s.base = B ∧ (m = 1 → s.limit = B) ∧
      (1 < m → s.step = S ∧ (s.limit = L ∨ s.limit = rnd (B + rnd (S * ((m - 1 : ℤ) : ℝ))))) ∧
      sign S * (B + (m - 1) * S) ≤ sign S * L + T u B L + u * (4 * |L - B| + 1 / 2 * (|B| + |L|)) ∧
      sign S * L + T u B L - u * (4 * |L - B| + 1 / 2 * (|B| + |L|)) < sign S * (B + m * S) := by
  rcases lt_or_gt_of_ne hS with h | h
  · have hs : sign S = -1 := by unfold sign; rw [if_neg (by linarith)]
    rw [abs_of_neg h] at hη hS3 hn hn'
    rw [hs] at hn hn'
    obtain ⟨m, hm, h1, h2, h3, h4⟩ := pos_case hA hR hint hu hu' (B := -B) (S := -S) (L := -L)
      (by rwa [abs_neg, abs_neg]) (by linarith) (by rwa [abs_neg, abs_neg]) (by rwa [T_neg])
      (by rw [T_neg]; linarith) (by linarith)
    rw [tol_neg hR] at h1 h2
    rw [T_neg, show -L - -B = -(L - B) by ring, abs_neg, abs_neg, abs_neg] at h3 h4
    have e : ∀ k : ℝ, rnd (-B + rnd (-S * k)) = -rnd (B + rnd (S * k)) := by
      intro k
      rw [neg_mul, hR.neg, ← neg_add, hR.neg]
    obtain ⟨s, g⟩ := make_of (rnd := rnd) (eps := 2 * u) (L := L) (B := B) (m := m) hS (by
      unfold sized
      rw [hs, ← h1, show -L - -B = -(L - B) by ring, hR.neg (L - B),
        show -rnd (L - B) + tol rnd (2 * u) B S L = -(rnd (L - B) + -1 * tol rnd (2 * u) B S L) by ring, hR.neg,
        neg_div_neg_eq]) hm (by
      intro hm1
      obtain ⟨c1, c2⟩ := h2 hm1
      rw [e] at c1 c2
      rw [hs]
      simp only [neg_one_mul]
      exact ⟨c1, c2⟩)
    refine ⟨s, m, g.1, g.2.1, g.2.2.1, g.2.2.2.1, g.2.2.2.2, ?_, ?_⟩
    · rw [hs]; linarith
    · rw [hs]; linarith
  · have hs : sign S = 1 := by unfold sign; rw [if_pos h]
    rw [abs_of_pos h] at hη hS3 hn hn'
    rw [hs, one_mul] at hn hn'
    obtain ⟨m, hm, h1, h2, h3, h4⟩ := pos_case hA hR hint hu hu' hw h hη hS3 hn hn'
    obtain ⟨s, g⟩ := make_of (rnd := rnd) (eps := 2 * u) (L := L) (B := B) (m := m) hS (by
      unfold sized
      rw [hs, one_mul, h1]) hm (by
      intro hm1
      rw [hs]
      simp only [one_mul]
      exact h2 hm1)
    refine ⟨s, m, g.1, g.2.1, g.2.2.1, g.2.2.2.1, g.2.2.2.2, ?_, ?_⟩
    · rw [hs]; linarith
    · rw [hs]; linarith

/-- The perturbed arguments. -/
theorem perturbed (hu : 0 ≤ u) (hu' : u ≤ 1 / 1000) {B S L B' S' L' : ℝ} {N : ℤ}
    (hB : |B - B'| ≤ 8 * u * |B'|) (hS : |S - S'| ≤ 8 * u * |S'|) (hL : |L - L'| ≤ 8 * u * |L'|)
    (hN : B' + (N - 1) * S' = L') :
    |B + (N - 1) * S - L| ≤ 8 * u * (|B'| + |L' - B'| + |L'|) := by
  have h1 : |(N - 1) * S - (N - 1) * S'| ≤ 8 * u * |L' - B'| := by
    rw [← mul_sub, abs_mul, show L' - B' = (N - 1) * S' by linarith, abs_mul]
    nlinarith [mul_le_mul_of_nonneg_left hS (abs_nonneg ((N : ℝ) - 1))]
  rw [show B + (N - 1) * S - L = (B - B') + ((N - 1) * S - (N - 1) * S') - (L - L') by linarith]
  refine (abs_sub _ _).trans ?_
  have := abs_add_le (B - B') ((N - 1) * S - (N - 1) * S')
  linarith

theorem magnitude (hu : 0 ≤ u) (hu' : u ≤ 1 / 1000) {B L B' L' : ℝ} (hB : |B - B'| ≤ 8 * u * |B'|)
    (hL : |L - L'| ≤ 8 * u * |L'|) :
    |B'| + |L' - B'| + |L'| ≤ 103 / 100 * (|B| + |L| + |L - B|) := by
  have h1 := abs_sub_abs_le_abs_sub B' B
  have h2 := abs_sub_abs_le_abs_sub L' L
  rw [abs_sub_comm] at h1 h2
  have h3 : |L' - B'| ≤ |L - B| + |L - L'| + |B - B'| := by
    rw [show L' - B' = (L - B) - (L - L') + (B - B') by ring]
    exact (abs_add_le _ _).trans (add_le_add (abs_sub _ _) le_rfl)
  have a : u * |B'| ≤ |B'| / 1000 := by nlinarith [abs_nonneg B']
  have b : u * |L'| ≤ |L'| / 1000 := by nlinarith [abs_nonneg L']
  linarith [abs_nonneg (L - B), abs_nonneg B, abs_nonneg L, abs_nonneg B', abs_nonneg L']

/-- An element of the sequence. -/
theorem element_error (hA : Accurate rnd u η) (hu : 0 ≤ u) (hu' : u ≤ 1 / 1000) {B S L B' S' L' k N : ℝ}
    (hη : η ≤ u ^ 2 * (|B| + |L|)) (hB : |B - B'| ≤ 8 * u * |B'|) (hS : |S - S'| ≤ 8 * u * |S'|)
    (hL : |L - L'| ≤ 8 * u * |L'|) (hN : B' + N * S' = L') (h0 : 0 ≤ k) (hk : k ≤ N) :
    |rnd (B + rnd (S * k)) - (B' + S' * k)| ≤ 12 * u * (|B'| + |L'| + |L' - B'|) := by
  have hη0 := hA.eta_nonneg
  have hD : |S' * k| ≤ |L' - B'| := by
    rw [show L' - B' = N * S' by linarith, abs_mul, abs_mul, mul_comm, abs_of_nonneg h0, abs_of_nonneg (h0.trans hk)]
    exact mul_le_mul_of_nonneg_right hk (abs_nonneg _)
  have h1 : |S * k - S' * k| ≤ 8 * u * |L' - B'| := by
    rw [← sub_mul, abs_mul, abs_of_nonneg h0]
    have a := mul_le_mul_of_nonneg_right hS h0
    have b : 8 * u * |S' * k| ≤ 8 * u * |L' - B'| := mul_le_mul_of_nonneg_left hD (by positivity)
    rw [abs_mul, abs_of_nonneg h0] at b
    linarith
  have hη2 : η ≤ u / 500 * (|B'| + |L'|) := by
    have a := abs_sub_abs_le_abs_sub B B'
    have b := abs_sub_abs_le_abs_sub L L'
    have c : |B| + |L| ≤ 2 * (|B'| + |L'|) := by nlinarith [abs_nonneg B', abs_nonneg L']
    have d : u ^ 2 ≤ u / 1000 := by nlinarith
    have e : u ^ 2 * (|B| + |L|) ≤ u / 1000 * (2 * (|B'| + |L'|)) :=
      mul_le_mul d c (by positivity) (by positivity)
    linarith
  have h2 : |S * k| ≤ |L' - B'| + 8 * u * |L' - B'| := by
    have := abs_sub_abs_le_abs_sub (S * k) (S' * k)
    linarith
  have h3 := hA (S * k)
  have h4 := mul_le_mul_of_nonneg_left h2 hu
  have h5 := hA (B + rnd (S * k))
  have h6 : |B + rnd (S * k)| ≤ |B'| + 8 * u * |B'| + (|L' - B'| + 8 * u * |L' - B'| + (u * |S * k| + η)) := by
    have a := abs_add_le B (rnd (S * k))
    have b := abs_sub_abs_le_abs_sub (rnd (S * k)) (S * k)
    have c := abs_sub_abs_le_abs_sub B B'
    linarith
  have h7 := mul_le_mul_of_nonneg_left h6 hu
  have h8 : |rnd (B + rnd (S * k)) - (B' + S' * k)| ≤
      |rnd (B + rnd (S * k)) - (B + rnd (S * k))| + |B - B'| + |rnd (S * k) - S * k| + |S * k - S' * k| := by
    rw [show rnd (B + rnd (S * k)) - (B' + S' * k) = (rnd (B + rnd (S * k)) - (B + rnd (S * k))) + (B - B') +
      (rnd (S * k) - S * k) + (S * k - S' * k) by ring]
    exact (abs_add_le _ _).trans (add_le_add ((abs_add_le _ _).trans (add_le_add (abs_add_le _ _) le_rfl)) le_rfl)
  have p1 := mul_nonneg hu (abs_nonneg B')
  have p2 := mul_nonneg hu (abs_nonneg L')
  have p3 := mul_nonneg hu (abs_nonneg (L' - B'))
  have q1 : u * (u * |B'|) ≤ u * |B'| / 1000 := by nlinarith
  have q3 : u * (u * |L' - B'|) ≤ u * |L' - B'| / 1000 := by nlinarith
  have q4 : u * η ≤ η / 1000 := by nlinarith
  have q5 : u * (u * |S * k|) ≤ u * |S * k| / 1000 := by nlinarith [mul_nonneg hu (abs_nonneg (S * k))]
  generalize |S * k| = a1 at *
  generalize |B'| = a2 at *
  generalize |L'| = a3 at *
  generalize |L' - B'| = a4 at *
  linarith

end Verif.FloatArithmeticSequence
