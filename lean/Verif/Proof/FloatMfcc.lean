import Verif.Model.FloatMfcc
import Verif.Spec.FloatMfcc
import Verif.Proof.FloatVector
import Mathlib.Analysis.SpecialFunctions.Trigonometric.Bounds
import Mathlib.Analysis.Real.Pi.Bounds

/-! # Lemmas for C116 and C117 -/

namespace Verif.FloatMfcc
open Verif.Rounding

variable {rnd : ℝ → ℝ} {u η : ℝ}

theorem angle_error (A : Rounding.Accurate rnd u η) (u0 : 0 ≤ u) (η0 : 0 ≤ η) {n i t : ℝ} (n1 : 1 ≤ n) (hη : n ^ 2 * η ≤ u)
    (hu : 32 * (n * u) ≤ 1) (i0 : 0 ≤ i) (i1 : i ≤ n) (t0 : 0 ≤ t) (t1 : t ≤ n) :
    |rnd (rnd (i * rnd (rnd Real.pi / n)) * t) - i * (Real.pi / n) * t| ≤ 18 * (n * u) := by
  have n0 : 0 < n := by linarith
  have p1 := Real.pi_gt_d2
  have p2 := Real.pi_lt_d2
  have nη : n * η ≤ u := by nlinarith
  have η1 : η ≤ u := by nlinarith
  have u1 : 32 * u ≤ 1 := by nlinarith
  have unu : u ≤ n * u := by nlinarith
  have e1 := A Real.pi
  rw [abs_of_pos Real.pi_pos] at e1
  generalize Real.pi = p at *
  generalize rnd p = a1 at *
  have b1 : |a1 - p| ≤ 415 / 100 * u := by nlinarith
  have c1 : |a1| ≤ 33 / 10 := by
    have := abs_le.1 b1
    rw [abs_le]; constructor <;> linarith
  have e2 := A (a1 / n)
  generalize rnd (a1 / n) = a2 at *
  have b2 : |n * a2 - p| ≤ 845 / 100 * u := by
    rw [abs_div, abs_of_pos n0] at e2
    have : |n * a2 - a1| ≤ u * |a1| + n * η := by
      have : n * a2 - a1 = n * (a2 - a1 / n) := by field_simp
      rw [this, abs_mul, abs_of_pos n0]
      calc n * |a2 - a1 / n| ≤ n * (u * (|a1| / n) + η) := mul_le_mul_of_nonneg_left e2 n0.le
        _ = u * |a1| + n * η := by field_simp
    have k := mul_le_mul_of_nonneg_left c1 u0
    have := abs_sub_le (n * a2) a1 p
    linarith
  have c2 : |n * a2| ≤ 342 / 100 := by
    have := abs_le.1 b2
    rw [abs_le]; constructor <;> linarith
  have e3 := A (i * a2)
  generalize rnd (i * a2) = a3 at *
  have q0 : 0 ≤ i / n := by positivity
  have q1 : i / n ≤ 1 := by rw [div_le_one n0]; exact i1
  have b3 : |a3 - i * (p / n)| ≤ 119 / 10 * u + η := by
    have x : i * a2 = i / n * (n * a2) := by field_simp
    have y : i * (p / n) = i / n * p := by field_simp
    rw [x, abs_mul, abs_of_nonneg q0] at e3
    rw [y]
    have f : |i / n * (n * a2) - i / n * p| ≤ 845 / 100 * u := by
      rw [← mul_sub, abs_mul, abs_of_nonneg q0]
      calc i / n * |n * a2 - p| ≤ 1 * |n * a2 - p| := mul_le_mul_of_nonneg_right q1 (abs_nonneg _)
        _ ≤ _ := by linarith
    have g : i / n * |n * a2| ≤ 342 / 100 := by
      calc i / n * |n * a2| ≤ 1 * |n * a2| := mul_le_mul_of_nonneg_right q1 (abs_nonneg _)
        _ ≤ _ := by linarith
    have k := mul_le_mul_of_nonneg_left g u0
    have := abs_sub_le a3 (i / n * (n * a2)) (i / n * p)
    linarith
  have c3 : |a3| ≤ 36 / 10 := by
    have y : i * (p / n) = i / n * p := by field_simp
    rw [y] at b3
    have := abs_le.1 b3
    have z0 : 0 ≤ i / n * p := by have : 0 ≤ p := by linarith
                                  positivity
    have z1 : i / n * p ≤ p := by nlinarith
    rw [abs_le]; constructor <;> linarith
  have e4 := A (a3 * t)
  generalize rnd (a3 * t) = a4 at *
  rw [abs_mul, abs_of_nonneg t0] at e4
  have f : |a3 * t - i * (p / n) * t| ≤ 119 / 10 * (n * u) + n * η := by
    rw [← sub_mul, abs_mul, abs_of_nonneg t0]
    calc |a3 - i * (p / n)| * t ≤ (119 / 10 * u + η) * n := mul_le_mul b3 t1 t0 (by positivity)
      _ = _ := by ring
  have g : |a3| * t ≤ 36 / 10 * n := mul_le_mul c3 t1 t0 (by norm_num)
  have k := mul_le_mul_of_nonneg_left g u0
  have := abs_sub_le a4 (a3 * t) (i * (p / n) * t)
  nlinarith

theorem norm_error (A : Rounding.Accurate rnd u η) (u0 : 0 ≤ u) (η0 : 0 ≤ η) {n : ℝ} (n1 : 1 ≤ n) (hη : n ^ 2 * η ≤ u)
    (hu : 32 * (n * u) ≤ 1) : |rnd √(rnd (2 / n)) - √(2 / n)| ≤ 4 * u * √(2 / n) ∧ η ≤ u * √(2 / n) := by
  have n0 : 0 < n := by linarith
  have u1 : 32 * u ≤ 1 := by nlinarith
  have x0 : 0 < 2 / n := by positivity
  have F0 : 0 < √(2 / n) := Real.sqrt_pos.2 x0
  have F1 : 1 / n ≤ √(2 / n) := by
    apply Real.le_sqrt_of_sq_le
    rw [div_pow, div_le_div_iff₀ (by positivity) n0]
    nlinarith
  have h1 : η ≤ u * (1 / n) * (1 / n) := by
    have : u * (1 / n) * (1 / n) = u / n ^ 2 := by field_simp
    rw [this, le_div_iff₀ (by positivity)]; linarith
  have h2 : 1 / n ≤ 1 := by rw [div_le_one n0]; exact n1
  have h3 : 0 < 1 / n := by positivity
  have h4 : u * (1 / n) * (1 / n) ≤ u * (1 / n) := mul_le_of_le_one_right (by positivity) h2
  have h5 : u * (1 / n) ≤ u * √(2 / n) := mul_le_mul_of_nonneg_left F1 u0
  have ηF : η ≤ u * √(2 / n) := by linarith
  refine ⟨?_, ηF⟩
  have e1 := A (2 / n)
  rw [abs_of_pos x0] at e1
  have e1' : |rnd (2 / n) - 2 / n| ≤ 3 / 2 * u * (2 / n) := by
    have : 2 / n = 2 * (1 / n) := by ring
    rw [this] at e1 ⊢
    linarith
  generalize 2 / n = x at *
  generalize rnd x = y at *
  have y0 : 0 ≤ y := by
    have := (abs_le.1 e1').1
    nlinarith
  have s : |√y - √x| ≤ 3 / 2 * u * √x := by
    have : |√y - √x| * (√y + √x) = |y - x| := by
      rw [← abs_of_nonneg (by positivity : 0 ≤ √y + √x), ← abs_mul]
      congr 1
      nlinarith [Real.sq_sqrt y0, Real.sq_sqrt x0.le]
    have k : |√y - √x| * √x ≤ 3 / 2 * u * √x * √x := by
      calc |√y - √x| * √x ≤ |√y - √x| * (√y + √x) :=
            mul_le_mul_of_nonneg_left (by linarith [Real.sqrt_nonneg y]) (abs_nonneg _)
        _ ≤ 3 / 2 * u * x := by rw [this]; exact e1'
        _ = _ := by rw [mul_assoc _ √x, Real.mul_self_sqrt x0.le]
    exact le_of_mul_le_mul_right k F0
  have e2 := A √y
  rw [abs_of_nonneg (Real.sqrt_nonneg y)] at e2
  have k : √y ≤ 11 / 10 * √x := by
    have := (abs_le.1 s).2
    nlinarith
  have k2 := mul_le_mul_of_nonneg_left k u0
  have := abs_sub_le (rnd √y) √y √x
  nlinarith

theorem entry_error (M : Machine) {w : ℝ} (A : Rounding.Accurate M.rnd u η) (C : ∀ x, |M.cosine x - Real.cos x| ≤ w)
    (u0 : 0 ≤ u) (η0 : 0 ≤ η) (w1 : w ≤ 1 / 16) (n i j : ℕ) (n1 : 1 ≤ n) (hη : (n : ℝ) ^ 2 * η ≤ u)
    (hu : 32 * ((n : ℝ) * u) ≤ 1) (hi : i < n) (hj : j < n) :
    |cosineEntry M n i j - √(2 / n) * Real.cos (Real.pi * i * (j + 1 / 2) / n)| ≤ √(2 / n) * (w + 25 * (n * u)) := by
  have n1' : (1 : ℝ) ≤ n := by exact_mod_cast n1
  have i1 : (i : ℝ) ≤ n := by exact_mod_cast hi.le
  have j1 : (j : ℝ) + 1 ≤ n := by exact_mod_cast hj
  have ang := angle_error A u0 η0 n1' hη hu (Nat.cast_nonneg i) i1 (t := j + 1 / 2) (by positivity) (by linarith)
  obtain ⟨nrm, ηF⟩ := norm_error A u0 η0 n1' hη hu
  have F0 := Real.sqrt_nonneg (2 / (n : ℝ))
  have ang' : Real.pi * i * (j + 1 / 2) / n = i * (Real.pi / n) * (j + 1 / 2) := by ring
  unfold cosineEntry
  dsimp only
  rw [ang']
  push_cast
  have unu : u ≤ n * u := by nlinarith
  generalize √(2 / (n : ℝ)) = F at *
  generalize M.rnd √(M.rnd (2 / (n : ℝ))) = s at *
  generalize (i : ℝ) * (Real.pi / n) * (j + 1 / 2) = θ at *
  generalize M.rnd (M.rnd (i * M.rnd (M.rnd Real.pi / n)) * (j + 1 / 2)) = θ' at *
  generalize (n : ℝ) * u = U at *
  have c : |M.cosine θ' - Real.cos θ| ≤ w + 18 * U := by
    have l : |Real.cos θ' - Real.cos θ| ≤ |θ' - θ| := by
      exact Real.abs_cos_sub_cos_le θ' θ
    have := abs_sub_le (M.cosine θ') (Real.cos θ') (Real.cos θ)
    linarith [C θ']
  have c' : |M.cosine θ'| ≤ 17 / 16 := by
    have h1 := C θ'
    have h2 := Real.abs_cos_le_one θ'
    have := abs_sub_abs_le_abs_sub (M.cosine θ') (Real.cos θ')
    linarith
  generalize M.cosine θ' = k at *
  generalize Real.cos θ = κ at *
  have p : |s * k - F * κ| ≤ F * (w + 18 * U) + 17 / 4 * (u * F) := by
    have : s * k - F * κ = (s - F) * k + F * (k - κ) := by ring
    rw [this]
    refine (abs_add_le _ _).trans ?_
    rw [abs_mul, abs_mul, abs_of_nonneg F0]
    have a := mul_le_mul nrm c' (abs_nonneg k) (by positivity)
    have b := mul_le_mul_of_nonneg_left c F0
    linarith
  have u32 : 32 * u ≤ 1 := by linarith
  have q : |s * k| ≤ 6 / 5 * F := by
    rw [abs_mul]
    have h1 : |s| ≤ 9 / 8 * F := by
      have := abs_sub_abs_le_abs_sub s F
      rw [abs_of_nonneg F0] at this
      nlinarith
    calc |s| * |k| ≤ 9 / 8 * F * (17 / 16) := mul_le_mul h1 c' (abs_nonneg _) (by positivity)
      _ ≤ _ := by linarith
  have e := A (s * k)
  have q' := mul_le_mul_of_nonneg_left q u0
  have := abs_sub_le (M.rnd (s * k)) (s * k) (F * κ)
  have UF : u * F ≤ F * U := by rw [mul_comm]; exact mul_le_mul_of_nonneg_left unu F0
  nlinarith

theorem pow_error (u0 : 0 ≤ u) {n m : ℕ} (n1 : 1 ≤ n) (hu : 32 * ((n : ℝ) * u) ≤ 1) (hm : m ≤ n) :
    (1 + u) ^ (m + 1) ≤ 1 + 215 / 100 * (n * u) := by
  have b : (1 + u) ^ (m + 1) ≤ Real.exp (((m : ℝ) + 1) * u) := by
    have := pow_le_pow_left₀ (by linarith) (by linarith [Real.add_one_le_exp u] : 1 + u ≤ Real.exp u) (m + 1)
    rw [← Real.exp_nat_mul] at this
    push_cast at this
    exact this
  have m' : (m : ℝ) + 1 ≤ 2 * n := by
    have : (m : ℝ) ≤ n := by exact_mod_cast hm
    have : (1 : ℝ) ≤ n := by exact_mod_cast n1
    linarith
  have k : ((m : ℝ) + 1) * u ≤ 2 * (n * u) := by nlinarith
  generalize (n : ℝ) * u = U at *
  have U0 : 0 ≤ 2 * U := le_trans (by positivity) k
  have e : Real.exp (2 * U) ≤ 1 / (1 - 2 * U) := Real.exp_bound_div_one_sub_of_interval U0 (by linarith)
  refine b.trans ((Real.exp_le_exp.2 k).trans (e.trans ?_))
  rw [div_le_iff₀ (by linarith)]
  nlinarith

theorem log_floor_error (M : Machine) {v w E L L' : ℝ} (A : M.Accurate u v w η) (u1 : u ≤ 1 / 32) (v0 : 0 ≤ v) (v1 : v ≤ 1 / 16)
    (hη : η ≤ u / 10 ^ 12) (hE : 8 * E ≤ FloatMfccSpec.floored L) (h : |L' - L| ≤ E) :
    |floorLog M L' - Real.log (FloatMfccSpec.floored L)| ≤
      v * |Real.log (FloatMfccSpec.floored L)| + 2 * (E / FloatMfccSpec.floored L) + 4 * u + η := by
  have E0 : 0 ≤ E := (abs_nonneg _).trans h
  have e1 := A.rnd (1 / 10 ^ 12)
  have u0 : 0 ≤ u := by
    by_contra c
    have : 0 ≤ η := by simpa using (abs_nonneg _).trans (A.rnd 0)
    have : u / 10 ^ 12 < 0 := by linarith
    linarith
  rw [abs_of_pos (by positivity : (0 : ℝ) < 1 / 10 ^ 12)] at e1
  have hf : |M.rnd (1 / 10 ^ 12) - 1 / 10 ^ 12| ≤ 2 * u * (1 / 10 ^ 12) := by
    refine e1.trans ?_
    linarith
  have b1 : 1 / 10 ^ 12 ≤ FloatMfccSpec.floored L := le_max_left _ _
  have b0 : 0 < FloatMfccSpec.floored L := lt_of_lt_of_le (by positivity) b1
  have e : |(if L' < M.rnd (1 / 10 ^ 12) then M.rnd (1 / 10 ^ 12) else L') - FloatMfccSpec.floored L| ≤
      E + 2 * u * FloatMfccSpec.floored L := by
    have : (if L' < M.rnd (1 / 10 ^ 12) then M.rnd (1 / 10 ^ 12) else L') = max (M.rnd (1 / 10 ^ 12)) L' := by
      split_ifs with c
      · rw [max_eq_left c.le]
      · rw [max_eq_right (not_lt.1 c)]
    rw [this]
    unfold FloatMfccSpec.floored at *
    refine (abs_max_sub_max_le_max _ _ _ _).trans (max_le ?_ ?_)
    · have := mul_le_mul_of_nonneg_left b1 (by linarith : 0 ≤ 2 * u)
      linarith
    · have : 0 ≤ 2 * u * max (1 / 10 ^ 12) L := by positivity
      linarith
  unfold floorLog
  generalize (if L' < M.rnd (1 / 10 ^ 12) then M.rnd (1 / 10 ^ 12) else L') = a at *
  generalize FloatMfccSpec.floored L = b at *
  have r : |a / b - 1| ≤ E / b + 2 * u := by
    have : a / b - 1 = (a - b) / b := by field_simp
    rw [this, abs_div, abs_of_pos b0, div_le_iff₀ b0]
    have : (E / b + 2 * u) * b = E + 2 * u * b := by field_simp
    linarith
  have κ1 : E / b + 2 * u ≤ 3 / 16 := by
    have : E / b ≤ 1 / 8 := by rw [div_le_iff₀ b0]; linarith
    linarith
  have t := abs_le.1 r
  have a0 : 0 < a / b := by linarith
  have a0' : 0 < a := by
    have := mul_pos a0 b0
    rwa [div_mul_cancel₀ _ b0.ne'] at this
  have κ0 : 0 ≤ E / b + 2 * u := (abs_nonneg _).trans r
  have l : |Real.log a - Real.log b| ≤ 5 / 4 * (E / b + 2 * u) := by
    rw [← Real.log_div a0'.ne' b0.ne', abs_le]
    have h1 := Real.log_le_sub_one_of_pos a0
    have h2 := Real.one_sub_inv_le_log_of_pos a0
    constructor
    · have : -(5 / 4 * (E / b + 2 * u)) ≤ 1 - (a / b)⁻¹ := by
        have : (a / b)⁻¹ ≤ 1 + 5 / 4 * (E / b + 2 * u) := by
          rw [inv_le_iff_one_le_mul₀ a0]
          nlinarith
        linarith
      linarith
    · linarith
  have lg := A.log a a0'
  have k : |Real.log a| ≤ |Real.log b| + 5 / 4 * (E / b + 2 * u) := by
    have := abs_sub_abs_le_abs_sub (Real.log a) (Real.log b)
    linarith
  have k2 := mul_le_mul_of_nonneg_left k v0
  have := abs_sub_le (M.log a) (Real.log a) (Real.log b)
  have q : v * (5 / 4 * (E / b + 2 * u)) ≤ 1 / 16 * (5 / 4 * (E / b + 2 * u)) := mul_le_mul_of_nonneg_right v1 (by positivity)
  have E' : 0 ≤ E / b := by positivity
  nlinarith

end Verif.FloatMfcc
