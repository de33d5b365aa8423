import Verif.Proof.WindowFourier
import Verif.Theorems.Windows

/-!
# C62: Fourier transforms of the window functions
-/

namespace Verif.Windows
open Verif.WindowSpec

theorem abs_div_le_one {r x : ℝ} (hr : 0 < r) (hx : |x| ≤ r) : |x / r| ≤ 1 := by
  rw [abs_div, abs_of_pos hr, div_le_one hr]; exact hx

/-- **C62.** Rectangular window: within `1e-7` radii of the Fourier integral for every radius and
frequency, and equal to it unless `0 < |2 pi f r| < 1e-8`. -/
theorem C62_rectangular (r f : ℝ) (hr : 0 < r) :
    |rectangularFt r f - fourier r (rectangular r) f| ≤ 1 / 10 ^ 7 * r ∧
    (2 * Real.pi * f * r = 0 ∨ 1 / 10 ^ 8 ≤ |2 * Real.pi * f * r| →
      rectangularFt r f = fourier r (rectangular r) f) := by
  have h : fourier r (rectangular r) f = r * S (2 * Real.pi * f * r) := by
    rw [fourier_scale hr (rectangular r) (fun _ => 1)]
    · simp only [one_mul]; rfl
    · intro x hx
      unfold rectangular
      rw [if_pos]
      nlinarith
  rw [h]
  unfold rectangularFt
  constructor
  · rw [show 2 * r * sinc (2 * Real.pi * f * r) - r * S (2 * Real.pi * f * r) =
      r * (2 * sinc (2 * Real.pi * f * r) - S (2 * Real.pi * f * r)) by ring, abs_mul,
      abs_of_pos hr, mul_comm]
    apply mul_le_mul_of_nonneg_right ((sinc_err _).trans (by norm_num)) hr.le
  · intro hg; rw [← sinc_eq hg]; ring

theorem cosine_transform (g : ℝ) (h : Real.pi * Real.pi - 4 * g * g ≠ 0) :
    (S (Real.pi / 2 - g) + S (Real.pi / 2 + g)) / 2 =
      4 * Real.pi * Real.cos g / (Real.pi * Real.pi - 4 * g * g) := by
  have e : Real.pi * Real.pi - 4 * g * g = 4 * ((Real.pi / 2 - g) * (Real.pi / 2 + g)) := by ring
  rw [e] at h ⊢
  have h' := right_ne_zero_of_mul h
  have h1 := left_ne_zero_of_mul h'
  have h2 := right_ne_zero_of_mul h'
  rw [S_ne h1, S_ne h2, Real.sin_pi_div_two_sub, add_comm (Real.pi / 2) g, Real.sin_add_pi_div_two]
  rw [add_comm] at h2
  rw [div_add_div _ _ h1 h2, div_div, div_eq_div_iff (by
    exact mul_ne_zero (mul_ne_zero h1 h2) two_ne_zero) (mul_ne_zero four_ne_zero (mul_ne_zero h1 h2))]
  ring

/-- **C62.** Cosine window: within `1e-7` radii of the Fourier integral for every radius and frequency,
and equal to it unless `0 < |pi^2 - 4 (2 pi f r)^2| < 1e-8`; in particular at the removable
singularities. -/
theorem C62_cosine (r f : ℝ) (hr : 0 < r) :
    |cosineFt r f - fourier r (cosine r) f| ≤ 1 / 10 ^ 7 * r ∧
    (Real.pi * Real.pi - 4 * (2 * Real.pi * f * r) * (2 * Real.pi * f * r) = 0 ∨
      1 / 10 ^ 8 ≤ |Real.pi * Real.pi - 4 * (2 * Real.pi * f * r) * (2 * Real.pi * f * r)| →
      cosineFt r f = fourier r (cosine r) f) := by
  have h : fourier r (cosine r) f = r * ((S (Real.pi / 2 - 2 * Real.pi * f * r) +
      S (Real.pi / 2 + 2 * Real.pi * f * r)) / 2) := by
    rw [fourier_scale hr (cosine r) (fun y => Real.cos (Real.pi / 2 * y)), integral_cos_cos]
    intro x hx
    have h1 := abs_div_le_one hr hx
    have h2 : Real.cos (Real.pi / 2 * |x / r|) = Real.cos (Real.pi / 2 * (x / r)) := by
      rcases abs_choice (x / r) with h | h <;> rw [h]
      rw [mul_neg, Real.cos_neg]
    unfold cosine; dsimp only
    split_ifs with h3
    · exact h2
    · rw [← h2, le_antisymm h1 (not_lt.1 h3)]; simp
  rw [h]
  unfold cosineFt
  dsimp only
  generalize 2 * Real.pi * f * r = g
  -- the value near the singularities
  have hzone : |Real.pi * Real.pi - 4 * g * g| < 1 / 10 ^ 8 →
      |1 - (S (Real.pi / 2 - g) + S (Real.pi / 2 + g)) / 2| ≤
        2 * |Real.pi * Real.pi - 4 * g * g| := by
    intro hz
    have hpi : (2 : ℝ) ≤ Real.pi := Real.two_le_pi
    have hSpi : S Real.pi = 0 := by simpa using S_nat_pi (n := 1) one_ne_zero
    have hev : (S (Real.pi / 2 - g) + S (Real.pi / 2 + g)) / 2 =
        (S (Real.pi / 2 - |g|) + S (Real.pi / 2 + |g|)) / 2 := by
      rcases abs_choice g with h | h <;> rw [h]
      rw [sub_neg_eq_add, ← sub_eq_add_neg, add_comm]
    rw [hev]
    have e : Real.pi * Real.pi - 4 * g * g = 2 * (Real.pi + 2 * |g|) * (Real.pi / 2 - |g|) := by
      have := abs_mul_abs_self g
      linear_combination 4 * this
    have hd : |Real.pi / 2 - (|g|)| ≤ |Real.pi * Real.pi - 4 * g * g| := by
      rw [e, abs_mul]
      apply le_mul_of_one_le_left (abs_nonneg _)
      rw [abs_of_pos (by have := abs_nonneg g; linarith)]
      have := abs_nonneg g; linarith
    have l1 := S_lip (Real.pi / 2 - |g|) 0
    have l2 := S_lip (Real.pi / 2 + |g|) Real.pi
    rw [S_zero, sub_zero] at l1
    rw [hSpi, sub_zero, show Real.pi / 2 + |g| - Real.pi = -(Real.pi / 2 - |g|) by ring,
      abs_neg] at l2
    rw [abs_le] at l1 l2 ⊢
    constructor <;> linarith
  by_cases hd : 1 / 10 ^ 8 ≤ |Real.pi * Real.pi - 4 * g * g|
  · rw [if_pos hd]
    have hne : Real.pi * Real.pi - 4 * g * g ≠ 0 := by
      intro h0; rw [h0, abs_zero] at hd; norm_num at hd
    have e : r * 4 * Real.pi * Real.cos g / (Real.pi * Real.pi - 4 * g * g) =
        r * ((S (Real.pi / 2 - g) + S (Real.pi / 2 + g)) / 2) := by
      rw [cosine_transform g hne]; ring
    refine ⟨?_, fun _ => e⟩
    rw [e, sub_self, abs_zero]; positivity
  · rw [if_neg hd]
    push Not at hd
    have hz := hzone hd
    constructor
    · rw [show r - r * ((S (Real.pi / 2 - g) + S (Real.pi / 2 + g)) / 2) =
        (1 - (S (Real.pi / 2 - g) + S (Real.pi / 2 + g)) / 2) * r by ring, abs_mul, abs_of_pos hr]
      apply mul_le_mul_of_nonneg_right _ hr.le
      refine hz.trans ?_
      norm_num at hd ⊢
      linarith
    · rintro (h0 | h0)
      · rw [h0, abs_zero, mul_zero] at hz
        have := abs_nonpos_iff.1 hz
        linear_combination r * this
      · exact absurd h0 (not_le.2 hd)

/-! ### Sums of cosines -/

/-- The Fourier integral of a sum of cosines on `[-r, r]`. -/
theorem fourier_cos_sum {r : ℝ} (hr : 0 < r) (w : ℝ → ℝ) (a0 a1 a2 a3 f : ℝ)
    (h : ∀ x, |x| ≤ r → w x = a0 + a1 * Real.cos (Real.pi * |x / r|) +
      a2 * Real.cos (2 * (Real.pi * |x / r|)) + a3 * Real.cos (3 * (Real.pi * |x / r|))) :
    fourier r w f = r * (a0 * S (Real.pi * (2 * f * r)) + a1 * C 1 (Real.pi * (2 * f * r)) +
      a2 * C 2 (Real.pi * (2 * f * r)) + a3 * C 3 (Real.pi * (2 * f * r))) := by
  rw [fourier_scale hr w (fun y => a0 + a1 * Real.cos (Real.pi * y) +
      a2 * Real.cos (2 * (Real.pi * y)) + a3 * Real.cos (3 * (Real.pi * y)))]
  · rw [show 2 * Real.pi * f * r = Real.pi * (2 * f * r) by ring, cos_sum_transform]
  · intro x hx
    rw [h x hx]
    have e : ∀ c : ℝ, Real.cos (c * (Real.pi * |x / r|)) = Real.cos (c * (Real.pi * (x / r))) := by
      intro c
      rcases abs_choice (x / r) with h | h <;> rw [h]
      rw [mul_neg, mul_neg, Real.cos_neg]
    have e1 := e 1
    rw [one_mul, one_mul] at e1
    rw [e1, e 2, e 3]

/-- The error bound for three cases, given what is exact. -/
theorem err_scale {r u v : ℝ} (hr : 0 < r) (h : |u - v| ≤ 1 / 10 ^ 7) :
    |r * u - r * v| ≤ 1 / 10 ^ 7 * r := by
  rw [← mul_sub, abs_mul, abs_of_pos hr, mul_comm]
  exact mul_le_mul_of_nonneg_right h hr.le

theorem C_zero_of (m n : ℕ) (hm : 1 ≤ m) (g : ℝ) (h : (m : ℝ) ^ 2 - g ^ 2 = 0) :
    C n (Real.pi * g) = if n = m then 1 else 0 := by
  have h1 : |g| = m := by
    have : g ^ 2 = (m : ℝ) ^ 2 := by linarith
    rw [sq_eq_sq_iff_abs_eq_abs] at this
    rw [this, abs_of_nonneg (by positivity)]
  rw [← even_abs (C_neg n) g, h1, mul_comm, C_pi n m (by omega)]

theorem S_zero_of (m : ℕ) (hm : 1 ≤ m) (g : ℝ) (h : (m : ℝ) ^ 2 - g ^ 2 = 0) :
    S (Real.pi * g) = 0 := by
  have h1 : |g| = m := by
    have : g ^ 2 = (m : ℝ) ^ 2 := by linarith
    rw [sq_eq_sq_iff_abs_eq_abs] at this
    rw [this, abs_of_nonneg (by positivity)]
  rw [← even_abs S_neg g, h1, mul_comm, S_nat_pi (by omega)]

/-- When the `sinc` is not exact, `g` is small. -/
theorem sinc_cases (g : ℝ) : 2 * sinc (Real.pi * g) = S (Real.pi * g) ∨ g ^ 2 ≤ 1 / 10 ^ 16 := by
  by_cases h : 1 / 10 ^ 8 ≤ |Real.pi * g|
  · exact Or.inl (sinc_eq (Or.inr h))
  · right
    push Not at h
    rw [abs_mul, abs_of_pos Real.pi_pos] at h
    have h1 : |g| ≤ 1 / 10 ^ 8 := by
      have := Real.two_le_pi
      have := abs_nonneg g
      nlinarith
    rw [← sq_abs]
    calc |g| ^ 2 ≤ (1 / 10 ^ 8) ^ 2 := pow_le_pow_left₀ (abs_nonneg _) h1 2
      _ = _ := by norm_num

/-- Frequencies at which the formulas are exact, apart from rounding: not inside a tolerance zone
around a removable singularity, unless exactly at it. -/
def Exact (x : ℝ) : Prop := x = 0 ∨ 1 / 10 ^ 8 ≤ |x|

/-- A window with two cosines: common to Hamming and Hann. -/
theorem two_cos (a0 a1 g : ℝ) (h0 : 0 ≤ a0) (h1 : 0 ≤ a1) (hs : a0 + a1 ≤ 1) :
    (|1 - g * g| < 1 / 10 ^ 8 →
      |a1 - (a0 * S (Real.pi * g) + a1 * C 1 (Real.pi * g))| ≤ 1 / 10 ^ 7 ∧
      (1 - g * g = 0 → a1 = a0 * S (Real.pi * g) + a1 * C 1 (Real.pi * g))) ∧
    (1 / 10 ^ 8 ≤ |1 - g * g| →
      |2 * sinc (Real.pi * g) * (a0 + g * g * a1 / (1 - g * g)) -
        (a0 * S (Real.pi * g) + a1 * C 1 (Real.pi * g))| ≤ 1 / 10 ^ 7 ∧
      (Exact (Real.pi * g) → 2 * sinc (Real.pi * g) * (a0 + g * g * a1 / (1 - g * g)) =
        a0 * S (Real.pi * g) + a1 * C 1 (Real.pi * g))) := by
  have e1 : (1 : ℝ) - g * g = ((1 : ℕ) : ℝ) ^ 2 - g ^ 2 := by push_cast; ring
  constructor
  · intro hz
    constructor
    · rw [e1] at hz
      have hC := C_near 1 1 le_rfl g hz
      have hS := S_near 1 le_rfl g hz
      rw [if_pos rfl] at hC
      have b1 := mul_le_mul_of_nonneg_left hS h0
      have b2 := mul_le_mul_of_nonneg_left hC h1
      rw [← abs_of_nonneg h0, ← abs_mul, abs_of_nonneg h0] at b1
      rw [← abs_of_nonneg h1, ← abs_mul, abs_of_nonneg h1] at b2
      rw [show a1 - (a0 * S (Real.pi * g) + a1 * C 1 (Real.pi * g)) =
        a1 * (1 - C 1 (Real.pi * g)) - a0 * S (Real.pi * g) by ring]
      refine (abs_sub _ _).trans ?_
      norm_num at b1 b2 ⊢
      linarith
    · intro hz0
      rw [e1] at hz0
      rw [S_zero_of 1 le_rfl g hz0, C_zero_of 1 1 le_rfl g hz0]; simp
  · intro hd
    have hne : (1 : ℝ) - g * g ≠ 0 := by
      intro h; rw [h, abs_zero] at hd; norm_num at hd
    have hC := C_S 1 g (by rw [← e1]; exact hne)
    rw [← e1, pow_one, neg_neg, one_mul] at hC
    have e : a0 * S (Real.pi * g) + a1 * C 1 (Real.pi * g) =
        S (Real.pi * g) * (a0 + g * g * a1 / (1 - g * g)) := by rw [hC]; ring
    rw [e]
    constructor
    · rw [← sub_mul, abs_mul]
      rcases sinc_cases g with hs | hs
      · rw [hs, sub_self, abs_zero, zero_mul]; norm_num
      · have hg : 0 ≤ g ^ 2 := sq_nonneg g
        have hsm : g ^ 2 ≤ 1 / 10 := hs.trans (by norm_num)
        have hb : |a0 + g * g * a1 / (1 - g * g)| ≤ 2 := by
          rw [← sq, abs_of_nonneg (by
            have : 0 < 1 - g ^ 2 := by linarith
            positivity)]
          have : g ^ 2 * a1 / (1 - g ^ 2) ≤ 1 := by
            rw [div_le_one (by linarith)]
            nlinarith
          linarith
        calc _ ≤ 2 / 10 ^ 8 * 2 :=
              mul_le_mul (sinc_err _) hb (abs_nonneg _) (by norm_num)
          _ ≤ _ := by norm_num
    · intro hx; rw [sinc_eq hx]

/-- **C62.** Hamming window. -/
theorem C62_hamming (r f : ℝ) (hr : 0 < r) :
    |hammingFt r f - fourier r (hamming r) f| ≤ 1 / 10 ^ 7 * r ∧
    (Exact (Real.pi * (2 * f * r)) → Exact (1 - 2 * f * r * (2 * f * r)) →
      hammingFt r f = fourier r (hamming r) f) := by
  have h : fourier r (hamming r) f = _ := fourier_cos_sum hr (hamming r) (54 / 100) (46 / 100) 0 0 f (by
    intro x hx
    have h1 := abs_div_le_one hr hx
    unfold hamming; dsimp only
    rw [if_pos (lt_of_le_of_lt h1 (by norm_num)), min_eq_right h1]; ring)
  rw [zero_mul, zero_mul, add_zero, add_zero] at h
  rw [h]
  unfold hammingFt
  dsimp only
  generalize 2 * f * r = g
  obtain ⟨hin, hout⟩ := two_cos (54 / 100) (46 / 100) g (by norm_num) (by norm_num) (by norm_num)
  by_cases hd : |1 - g * g| < 1 / 10 ^ 8
  · rw [if_pos hd]
    refine ⟨err_scale hr (hin hd).1, fun _ h2 => ?_⟩
    rcases h2 with h2 | h2
    · rw [← (hin hd).2 h2]
    · exact absurd hd (not_lt.2 h2)
  · rw [if_neg hd, mul_assoc r 2, mul_assoc r]
    have := hout (not_lt.1 hd)
    refine ⟨err_scale hr this.1, fun h1 _ => ?_⟩
    rw [this.2 h1]

/-- **C62.** Hann window. -/
theorem C62_hann (r f : ℝ) (hr : 0 < r) :
    |hannFt r f - fourier r (hann r) f| ≤ 1 / 10 ^ 7 * r ∧
    (Exact (Real.pi * (2 * f * r)) → Exact (1 - 2 * f * r * (2 * f * r)) →
      hannFt r f = fourier r (hann r) f) := by
  have h : fourier r (hann r) f = _ := fourier_cos_sum hr (hann r) (1 / 2) (1 / 2) 0 0 f (by
    intro x hx
    have h1 := abs_div_le_one hr hx
    unfold hann; dsimp only
    split_ifs with h2
    · ring
    · rw [le_antisymm h1 (not_lt.1 h2), mul_one, Real.cos_pi]; norm_num)
  rw [zero_mul, zero_mul, add_zero, add_zero] at h
  rw [h]
  unfold hannFt
  dsimp only
  generalize 2 * f * r = g
  obtain ⟨hin, hout⟩ := two_cos (1 / 2) (1 / 2) g (by norm_num) (by norm_num) (by norm_num)
  by_cases hd : 1 / 10 ^ 8 ≤ |1 - g * g|
  · rw [if_pos hd]
    have hne : (1 : ℝ) - g * g ≠ 0 := by
      intro h; rw [h, abs_zero] at hd; norm_num at hd
    have e : r * sinc (Real.pi * g) / (1 - g * g) =
        r * (2 * sinc (Real.pi * g) * (1 / 2 + g * g * (1 / 2) / (1 - g * g))) := by
      have : 1 / 2 + g * g * (1 / 2) / (1 - g * g) = 1 / 2 / (1 - g * g) := by
        rw [eq_div_iff hne, add_mul, div_mul_cancel₀ _ hne]; ring
      rw [this]; ring
    rw [e]
    have := hout hd
    refine ⟨err_scale hr this.1, fun h1 _ => ?_⟩
    rw [this.2 h1]
  · rw [if_neg hd]
    have hd' := not_le.1 hd
    refine ⟨err_scale hr (hin hd').1, fun _ h2 => ?_⟩
    rcases h2 with h2 | h2
    · rw [← (hin hd').2 h2]
    · exact absurd h2 hd

/-- In the zone of the `m`-th singularity, the transform is the `m`-th coefficient. -/
theorem four_cos_near (a : ℕ → ℝ) (ha : ∀ i, 0 ≤ a i) (hs : a 0 + a 1 + a 2 + a 3 ≤ 1) (g : ℝ) (m : ℕ)
    (hm : 1 ≤ m) (hm3 : m ≤ 3) :
    (|(m : ℝ) ^ 2 - g ^ 2| < 1 / 10 ^ 8 →
      |a m - (a 0 * S (Real.pi * g) + a 1 * C 1 (Real.pi * g) + a 2 * C 2 (Real.pi * g) +
        a 3 * C 3 (Real.pi * g))| ≤ 1 / 10 ^ 7) ∧
    ((m : ℝ) ^ 2 - g ^ 2 = 0 →
      a m = a 0 * S (Real.pi * g) + a 1 * C 1 (Real.pi * g) + a 2 * C 2 (Real.pi * g) +
        a 3 * C 3 (Real.pi * g)) := by
  have split : a m = a 1 * (if 1 = m then 1 else 0) + a 2 * (if 2 = m then 1 else 0) +
      a 3 * (if 3 = m then 1 else 0) := by
    have : m = 1 ∨ m = 2 ∨ m = 3 := by omega
    rcases this with rfl | rfl | rfl <;> simp
  constructor
  · intro hz
    have b0 := abs_le.1 (S_near m hm g hz)
    have b1 := abs_le.1 (C_near 1 m hm g hz)
    have b2 := abs_le.1 (C_near 2 m hm g hz)
    have b3 := abs_le.1 (C_near 3 m hm g hz)
    rw [split, abs_le]
    have p0 := mul_le_mul_of_nonneg_left b0.1 (ha 0)
    have q0 := mul_le_mul_of_nonneg_left b0.2 (ha 0)
    have p1 := mul_le_mul_of_nonneg_left b1.1 (ha 1)
    have q1 := mul_le_mul_of_nonneg_left b1.2 (ha 1)
    have p2 := mul_le_mul_of_nonneg_left b2.1 (ha 2)
    have q2 := mul_le_mul_of_nonneg_left b2.2 (ha 2)
    have p3 := mul_le_mul_of_nonneg_left b3.1 (ha 3)
    have q3 := mul_le_mul_of_nonneg_left b3.2 (ha 3)
    constructor <;> linarith
  · intro hz
    rw [split, S_zero_of m hm g hz, C_zero_of m 1 hm g hz, C_zero_of m 2 hm g hz,
      C_zero_of m 3 hm g hz]
    ring

/-- The coefficients as a function on ℕ. -/
noncomputable def nuttallN : ℕ → ℝ
  | 0 => nuttallA 0
  | 1 => nuttallA 1
  | 2 => nuttallA 2
  | 3 => nuttallA 3
  | _ => 0

theorem nuttall_values : nuttallA 0 = 3635819 / 10 ^ 7 ∧ nuttallA 1 = 4891775 / 10 ^ 7 ∧
    nuttallA 2 = 1365995 / 10 ^ 7 ∧ nuttallA 3 = 106411 / 10 ^ 7 := ⟨rfl, rfl, rfl, rfl⟩

/-- **C62.** Nuttall window: four removable singularities. -/
theorem C62_nuttall (r f : ℝ) (hr : 0 < r) :
    |nuttallFt r f - fourier r (nuttall r) f| ≤ 1 / 10 ^ 7 * r ∧
    (Exact (Real.pi * (2 * f * r)) → Exact (1 - 2 * f * r * (2 * f * r)) →
      Exact (4 - 2 * f * r * (2 * f * r)) → Exact (9 - 2 * f * r * (2 * f * r)) →
      nuttallFt r f = fourier r (nuttall r) f) := by
  have h : fourier r (nuttall r) f = _ := fourier_cos_sum hr (nuttall r) (nuttallA 0) (nuttallA 1)
    (nuttallA 2) (nuttallA 3) f (by
    intro x hx
    have h1 := abs_div_le_one hr hx
    unfold nuttall; dsimp only
    rw [if_pos (lt_of_le_of_lt h1 (by norm_num)), min_eq_right h1])
  rw [h]
  unfold nuttallFt
  dsimp only
  generalize 2 * f * r = g
  obtain ⟨v0, v1, v2, v3⟩ := nuttall_values
  have hnear := four_cos_near nuttallN (by
    intro i
    rcases i with _ | _ | _ | _ | i
    · exact le_of_le_of_eq (by norm_num) v0.symm
    · exact le_of_le_of_eq (by norm_num) v1.symm
    · exact le_of_le_of_eq (by norm_num) v2.symm
    · exact le_of_le_of_eq (by norm_num) v3.symm
    · exact le_rfl) (by
    simp only [nuttallN, v0, v1, v2, v3]; norm_num) g
  have e1 : (1 : ℝ) - g * g = ((1 : ℕ) : ℝ) ^ 2 - g ^ 2 := by push_cast; ring
  have e2 : (4 : ℝ) - g * g = ((2 : ℕ) : ℝ) ^ 2 - g ^ 2 := by push_cast; ring
  have e3 : (9 : ℝ) - g * g = ((3 : ℕ) : ℝ) ^ 2 - g ^ 2 := by push_cast; ring
  by_cases hd1 : |1 - g * g| < 1 / 10 ^ 8
  · rw [if_pos hd1]
    have := hnear 1 le_rfl (by norm_num)
    rw [← e1] at this
    refine ⟨err_scale hr (this.1 hd1), fun _ h2 _ _ => ?_⟩
    rcases h2 with h2 | h2
    · exact congrArg (r * ·) (this.2 h2)
    · exact absurd hd1 (not_lt.2 h2)
  rw [if_neg hd1]
  by_cases hd2 : |4 - g * g| < 1 / 10 ^ 8
  · rw [if_pos hd2]
    have := hnear 2 (by norm_num) (by norm_num)
    rw [← e2] at this
    refine ⟨err_scale hr (this.1 hd2), fun _ _ h2 _ => ?_⟩
    rcases h2 with h2 | h2
    · exact congrArg (r * ·) (this.2 h2)
    · exact absurd hd2 (not_lt.2 h2)
  rw [if_neg hd2]
  by_cases hd3 : |9 - g * g| < 1 / 10 ^ 8
  · rw [if_pos hd3]
    have := hnear 3 (by norm_num) (by norm_num)
    rw [← e3] at this
    refine ⟨err_scale hr (this.1 hd3), fun _ _ _ h2 => ?_⟩
    rcases h2 with h2 | h2
    · exact congrArg (r * ·) (this.2 h2)
    · exact absurd hd3 (not_lt.2 h2)
  rw [if_neg hd3, mul_assoc r 2, mul_assoc r]
  have ne : ∀ d : ℝ, ¬ |d| < 1 / 10 ^ 8 → d ≠ 0 := by
    intro d hd h0; rw [h0, abs_zero] at hd; norm_num at hd
  have n1 := ne _ hd1
  have n2 := ne _ hd2
  have n3 := ne _ hd3
  have c1 := C_S 1 g (by rw [← e1]; exact n1)
  have c2 := C_S 2 g (by rw [← e2]; exact n2)
  have c3 := C_S 3 g (by rw [← e3]; exact n3)
  rw [← e1] at c1
  rw [← e2] at c2
  rw [← e3] at c3
  have e : nuttallA 0 * S (Real.pi * g) + nuttallA 1 * C 1 (Real.pi * g) +
      nuttallA 2 * C 2 (Real.pi * g) + nuttallA 3 * C 3 (Real.pi * g) =
      S (Real.pi * g) * (nuttallA 0 + g * g * (nuttallA 1 / (1 - g * g) - nuttallA 2 / (4 - g * g) +
        nuttallA 3 / (9 - g * g))) := by
    rw [c1, c2, c3]; ring
  rw [e]
  constructor
  · apply err_scale hr
    rw [← sub_mul, abs_mul]
    rcases sinc_cases g with hs | hs
    · rw [hs, sub_self, abs_zero, zero_mul]; norm_num
    · have hg : 0 ≤ g ^ 2 := sq_nonneg g
      have hsm : g ^ 2 ≤ 1 / 10 := hs.trans (by norm_num)
      have i1 : nuttallA 1 / (1 - g ^ 2) ≤ 1 ∧ 0 ≤ nuttallA 1 / (1 - g ^ 2) := by
        rw [v1, div_le_one (by linarith)]
        exact ⟨by norm_num; linarith, div_nonneg (by norm_num) (by linarith)⟩
      have i2 : nuttallA 2 / (4 - g ^ 2) ≤ 1 ∧ 0 ≤ nuttallA 2 / (4 - g ^ 2) := by
        rw [v2, div_le_one (by linarith)]
        exact ⟨by norm_num; linarith, div_nonneg (by norm_num) (by linarith)⟩
      have i3 : nuttallA 3 / (9 - g ^ 2) ≤ 1 ∧ 0 ≤ nuttallA 3 / (9 - g ^ 2) := by
        rw [v3, div_le_one (by linarith)]
        exact ⟨by norm_num; linarith, div_nonneg (by norm_num) (by linarith)⟩
      have hb : |nuttallA 0 + g * g * (nuttallA 1 / (1 - g * g) - nuttallA 2 / (4 - g * g) +
          nuttallA 3 / (9 - g * g))| ≤ 2 := by
        rw [← sq]
        have hq : |nuttallA 1 / (1 - g ^ 2) - nuttallA 2 / (4 - g ^ 2) +
            nuttallA 3 / (9 - g ^ 2)| ≤ 2 := by
          rw [abs_le]; constructor <;> linarith [i1.1, i1.2, i2.1, i2.2, i3.1, i3.2]
        refine (abs_add_le _ _).trans ?_
        rw [abs_mul, abs_of_nonneg hg, v0, abs_of_pos (by norm_num)]
        have := mul_le_mul hsm hq (abs_nonneg _) (by norm_num)
        norm_num at this ⊢
        linarith
      calc _ ≤ 2 / 10 ^ 8 * 2 :=
            mul_le_mul (sinc_err _) hb (abs_nonneg _) (by norm_num)
        _ ≤ _ := by norm_num
  · intro hx _ _ _; rw [sinc_eq hx]

/-- **C62.** Quartic windows. -/
theorem C62_quartic (c2 c4 r f : ℝ) (hr : 0 < r) (hok : quarticOk c2 c4) :
    |quarticFt c2 c4 r f - fourier r (quartic c2 c4 r) f| ≤ 1 / 10 ^ 7 * r ∧
    (Exact (2 * Real.pi * f * r) → quarticFt c2 c4 r f = fourier r (quartic c2 c4 r) f) := by
  obtain ⟨-, -, hrange, -, hform, -⟩ := C37_quartic_partial c2 c4 r hr hok
  have h := fourier_scale hr (quartic c2 c4 r) (fun y => 1 + c2 * y ^ 2 + c4 * y ^ 4) f hform
  rw [h]
  unfold quarticFt
  dsimp only
  generalize 2 * Real.pi * f * r = g
  by_cases hg : 1 / 10 ^ 8 ≤ |g|
  · have hne : g ≠ 0 := by rintro rfl; norm_num at hg
    rw [if_pos hg, quartic_transform c2 c4 g hne]
    have e : sinc g = Real.sin g / g := by unfold sinc; rw [if_neg (not_lt.2 hg)]
    rw [e]
    refine ⟨?_, fun _ => by ring⟩
    rw [mul_assoc r 2, sub_self, abs_zero]; positivity
  · rw [if_neg hg, mul_assoc r 2, ← quartic_transform_zero]
    constructor
    · apply err_scale hr
      rw [← intervalIntegral.integral_sub (Continuous.intervalIntegrable (by fun_prop) _ _)
        (Continuous.intervalIntegrable (by fun_prop) _ _)]
      have hb := intervalIntegral.norm_integral_le_of_norm_le_const (a := -1) (b := 1) (C := |g|)
        (f := fun y => (1 + c2 * y ^ 2 + c4 * y ^ 4) * Real.cos (0 * y) -
          (1 + c2 * y ^ 2 + c4 * y ^ 4) * Real.cos (g * y)) (by
        intro y hy
        rw [Set.uIoc_of_le (by norm_num)] at hy
        have hy1 : |y| ≤ 1 := abs_le.2 ⟨hy.1.le, hy.2⟩
        have hp := hrange (r * y) (by
          rw [abs_mul, abs_of_pos hr]; exact mul_le_of_le_one_right hr.le hy1)
        rw [hform (r * y) (by
          rw [abs_mul, abs_of_pos hr]; exact mul_le_of_le_one_right hr.le hy1),
          mul_div_cancel_left₀ y hr.ne'] at hp
        rw [Real.norm_eq_abs, ← mul_sub, abs_mul, abs_of_nonneg hp.1]
        have hc := Real.abs_cos_sub_cos_le (0 * y) (g * y)
        rw [← sub_mul, zero_sub, abs_mul, abs_neg] at hc
        calc _ ≤ 1 * (|g| * |y|) := mul_le_mul hp.2 hc (abs_nonneg _) zero_le_one
          _ ≤ |g| := by rw [one_mul]; exact mul_le_of_le_one_right (abs_nonneg _) hy1)
      rw [Real.norm_eq_abs] at hb
      refine hb.trans ?_
      push Not at hg
      norm_num at hg ⊢
      linarith
    · rintro (rfl | h2)
      · rfl
      · exact absurd h2 hg

/-- A non-trivial case: the Hann window of radius 3 at a removable singularity, at zero, and
elsewhere. -/
example : hannFt 3 (1 / 6) = fourier 3 (hann 3) (1 / 6) ∧ hannFt 3 0 = fourier 3 (hann 3) 0 := by
  refine ⟨(C62_hann 3 _ (by norm_num)).2 (Or.inr ?_) (Or.inl (by norm_num)),
    (C62_hann 3 _ (by norm_num)).2 (Or.inl (by norm_num)) (Or.inr (by norm_num))⟩
  have := Real.two_le_pi
  rw [abs_of_pos (by positivity)]
  norm_num
  linarith

/-! ### The quadrature used for Kaiser and Planck-taper -/

theorem ftLoop_eq (rot : ℂ) (l : List ℝ) (ph : ℂ) (s : ℝ) :
    ftLoop rot l ph s = s + ∑ k ∈ Finset.range l.length, (ph * rot ^ k).re * l.getD k 0 := by
  induction l generalizing ph s with
  | nil => simp [ftLoop]
  | cons a l ih =>
    rw [ftLoop, ih, List.length_cons, Finset.sum_range_succ', add_assoc]
    congr 1
    rw [add_comm]
    congr 1
    · apply Finset.sum_congr rfl
      intro k _
      rw [List.getD_cons_succ, pow_succ', mul_assoc]
    · simp

/-- The quadrature for a general number of samples. -/
theorem quadrature (ev : ℝ → ℝ) (hc : ev 0 = 1) (heven : ∀ x, ev (-x) = ev x) (R f : ℝ) (N : ℕ)
    (hN : 0 < N) (rot : ℂ)
    (hrot : rot = Complex.exp (2 * Real.pi * f * ((R / N : ℝ) : ℂ) * Complex.I)) :
    ftLoop rot ((List.range N).map fun n : ℕ => ev (R / N * ((n : ℝ) + 1))) (rot * 2) 1 * (R / N) =
    ∑ n ∈ Finset.range (2 * N + 1), ev (R * ((n : ℝ) - N) / N) *
        Real.cos (2 * Real.pi * f * (R * ((n : ℝ) - N) / N)) * (R / N) := by
  have hN' : (N : ℝ) ≠ 0 := by exact_mod_cast hN.ne'
  rw [ftLoop_eq, List.length_map, List.length_range]
  have hterm : ∀ k ∈ Finset.range N, (rot * 2 * rot ^ k).re *
        ((List.range N).map fun n : ℕ => ev (R / N * ((n : ℝ) + 1))).getD k 0 =
      2 * (ev (R * ((k : ℝ) + 1) / N) *
        Real.cos (2 * Real.pi * f * (R * ((k : ℝ) + 1) / N))) := by
    intro k hk
    rw [getD_map_range _ _ _ (Finset.mem_range.1 hk), mul_right_comm, ← pow_succ', hrot,
      ← Complex.exp_nat_mul]
    have : ((k + 1 : ℕ) : ℂ) * (2 * Real.pi * f * ((R / N : ℝ) : ℂ) * Complex.I) =
        ((2 * Real.pi * f * (R * ((k : ℝ) + 1) / N) : ℝ) : ℂ) * Complex.I := by
      push_cast; ring
    rw [this, mul_comm _ (2 : ℂ), show (2 : ℂ) = ((2 : ℝ) : ℂ) by norm_num, Complex.re_ofReal_mul,
      Complex.exp_ofReal_mul_I_re,
      show R / N * ((k : ℝ) + 1) = R * ((k : ℝ) + 1) / N by ring]
    ring
  rw [Finset.sum_congr rfl hterm, ← Finset.mul_sum]
  rw [show 2 * N + 1 = N + (N + 1) by ring, Finset.sum_range_add]
  have hl : (∑ n ∈ Finset.range N, ev (R * ((n : ℝ) - N) / N) *
        Real.cos (2 * Real.pi * f * (R * ((n : ℝ) - N) / N)) * (R / N)) =
      ∑ k ∈ Finset.range N, ev (R * ((k : ℝ) + 1) / N) *
        Real.cos (2 * Real.pi * f * (R * ((k : ℝ) + 1) / N)) * (R / N) := by
    rw [← Finset.sum_range_reflect]
    apply Finset.sum_congr rfl
    intro k hk
    rw [Finset.mem_range] at hk
    have e : ((N - 1 - k : ℕ) : ℝ) = N - 1 - k := by
      rw [Nat.cast_sub (by omega), Nat.cast_sub (by omega)]; push_cast; ring
    rw [e, show R * ((N : ℝ) - 1 - k - N) / N = -(R * ((k : ℝ) + 1) / N) by ring,
      heven, mul_neg, Real.cos_neg]
  have hr : (∑ n ∈ Finset.range (N + 1), ev (R * (((N + n : ℕ) : ℝ) - N) / N) *
        Real.cos (2 * Real.pi * f * (R * (((N + n : ℕ) : ℝ) - N) / N)) * (R / N)) =
      (∑ k ∈ Finset.range N, ev (R * ((k : ℝ) + 1) / N) *
        Real.cos (2 * Real.pi * f * (R * ((k : ℝ) + 1) / N)) * (R / N)) + R / N := by
    rw [Finset.sum_range_succ']
    congr 1
    · apply Finset.sum_congr rfl
      intro k _
      rw [show ((N + (k + 1) : ℕ) : ℝ) - N = (k : ℝ) + 1 by push_cast; ring]
    · rw [show ((N + 0 : ℕ) : ℝ) - N = 0 by push_cast; ring, mul_zero, zero_div, mul_zero,
        Real.cos_zero, hc]
      ring
  rw [hl, hr, ← Finset.sum_mul]
  ring

/-- **C62.** Other windows: the first call, and every later call with the same radius, is a 1025-point
rectangle-rule approximation of the Fourier integral, for every window and frequency. -/
theorem C62_quadrature (w : Window) (hc : w.eval 0 = 1) (heven : ∀ x, w.eval (-x) = w.eval x) (f : ℝ)
    (memo : List ℝ) (hm : memo = [] ∨ ∃ f' : ℝ, memo = (genericFt w [] f').2) :
    (genericFt w memo f).1 = ∑ n ∈ Finset.range 1025,
      w.eval (w.radius * ((n : ℝ) - 512) / 512) *
        Real.cos (2 * Real.pi * f * (w.radius * ((n : ℝ) - 512) / 512)) * (w.radius / 512) := by
  have h0 : memoize w [] = (List.range 512).map fun n : ℕ =>
      w.eval (w.radius / ((512 : ℕ) : ℝ) * ((n : ℝ) + 1)) := by
    unfold memoize; rw [if_pos rfl, Nat.cast_ofNat]
  have hmem : memoize w memo = memoize w [] := by
    rcases hm with hm | ⟨f', hm⟩
    · rw [hm]
    · unfold genericFt at hm
      dsimp only at hm
      rw [hm, memoize, if_neg]
      intro h
      have := congrArg List.length h
      rw [h0, List.length_map, List.length_range] at this
      exact absurd this (by simp)
  have hq := quadrature w.eval hc heven w.radius f 512 (by norm_num) _ rfl
  unfold genericFt
  dsimp only
  rw [hmem, h0, List.length_map, List.length_range, hq, Nat.cast_ofNat]

/-- `set_radius` after `EvalFourierTransform` keeps the samples memoized for the old radius. For the
Planck-taper window, whose shape depends on the radius, later transforms are wrong: here at frequency
0, with `epsilon = 1/2` and the radius changed from 1 to 2. -/
theorem C62_set_radius_violation :
    (genericFt ⟨2, true, planckTaper (1 / 2) 2⟩
      (genericFt ⟨1, true, planckTaper (1 / 2) 1⟩ [] 0).2 0).1 <
    (genericFt ⟨2, true, planckTaper (1 / 2) 2⟩ [] 0).1 := by
  have hlen : ∀ w : Window, (memoize w []).length = 512 := by
    intro w; unfold memoize; rw [if_pos rfl, List.length_map, List.length_range]
  have hne : ∀ w : Window, memoize w [] ≠ [] := by
    intro w h; have := hlen w; rw [h] at this; norm_num at this
  have hval : ∀ (w : Window) (k : ℕ), k < 512 → (memoize w []).getD k 0 =
      w.eval (w.radius / 512 * ((k : ℝ) + 1)) := by
    intro w k hk; unfold memoize; rw [if_pos rfl, getD_map_range _ _ _ hk]
  have hre : ∀ w v : Window, memoize w (memoize v []) = memoize v [] := by
    intro w v; rw [memoize, if_neg (hne v)]
  unfold genericFt
  dsimp only
  rw [hre, hlen, hlen, ftLoop_eq, ftLoop_eq, hlen, hlen]
  apply mul_lt_mul_of_pos_right _ (by norm_num)
  apply add_lt_add_right
  have hone : Complex.exp (2 * Real.pi * ((0 : ℝ) : ℂ) * ((2 / (512 : ℕ) : ℝ) : ℂ) * Complex.I) = 1 := by
    simp
  simp only [hone, one_pow, mul_one, one_mul]
  apply Finset.sum_lt_sum
  · intro k hk
    rw [Finset.mem_range] at hk
    rw [hval _ k hk, hval _ k hk]
    apply mul_le_mul_of_nonneg_left _ (by norm_num)
    dsimp only
    rw [planckTaper_eq, planckTaper_eq]
    apply taper_mono
    apply div_le_div_of_nonneg_right _ (by norm_num)
    have : ((k : ℝ) + 1) ≤ 512 := by exact_mod_cast hk
    have h0 : (0 : ℝ) ≤ k := Nat.cast_nonneg k
    rw [abs_of_nonneg (by positivity), abs_of_nonneg (by positivity)]
    linarith
  · refine ⟨383, by simp, ?_⟩
    rw [hval _ _ (by norm_num), hval _ _ (by norm_num)]
    apply mul_lt_mul_of_pos_left _ (by norm_num)
    dsimp only
    rw [planckTaper_eq, planckTaper_eq]
    have a : ((1 : ℝ) - |1 / 512 * (((383 : ℕ) : ℝ) + 1)|) / (1 / 2) = 1 / 2 := by
      rw [abs_of_pos (by positivity)]; norm_num
    have b : ((2 : ℝ) - |2 / 512 * (((383 : ℕ) : ℝ) + 1)|) / (1 / 2) = 1 := by
      rw [abs_of_pos (by positivity)]; norm_num
    rw [a, b]
    unfold taper
    norm_num

end Verif.Windows
