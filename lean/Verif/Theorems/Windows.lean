import Verif.Proof.Windows
import Verif.Spec.Windows
import Verif.Model.Windows
import Mathlib.Tactic.Order

/-!
# C37: window functions and their samples
-/

namespace Verif.Windows
open Verif.WindowSpec

/-- **C37.** Symmetric samples, for every even window and every count of at least 2: the window at
evenly spaced points of `[-radius, radius]`, both endpoints included, or both excluded if the window
is zero there. -/
theorem C37_symmetric (w : Window) (heven : ∀ x, w.eval (-x) = w.eval x) (n : ℕ) (hn : 2 ≤ n) :
    symmetricSamples w n = some ((List.range n).map fun k : ℕ =>
      if w.zeroAtEndpoints then w.eval (-w.radius + 2 * w.radius * (k + 1) / (n + 1))
      else w.eval (-w.radius + 2 * w.radius * k / (n - 1))) := by
  rw [symmetric_eq w heven n hn]
  congr 1
  apply List.map_congr_left
  intro k _
  cases w.zeroAtEndpoints
  · simp only [Bool.false_eq_true, if_false]; congr 2; rw [add_zero, sub_eq_add_neg]; ring
  · simp only [if_true]; congr 2; ring

/-- **C37.** Symmetric samples are palindromic. -/
theorem C37_symmetric_palindrome (w : Window) (heven : ∀ x, w.eval (-x) = w.eval x) (n : ℕ)
    (l : List ℝ) (h : symmetricSamples w n = some l) : l.length = n ∧ l.reverse = l := by
  have hn : 2 ≤ n := by
    by_contra hc
    unfold symmetricSamples at h
    rw [if_pos (by omega)] at h
    exact absurd h (by simp)
  rw [C37_symmetric w heven n hn] at h
  injection h with h
  subst h
  refine ⟨by simp, ?_⟩
  have hn' : (2 : ℝ) ≤ n := by exact_mod_cast hn
  apply List.ext_getElem (by simp)
  intro k h1 h2
  simp only [List.length_reverse, List.length_map, List.length_range] at h1 h2
  rw [List.getElem_reverse, List.getElem_map, List.getElem_map, List.getElem_range,
    List.getElem_range]
  simp only [List.length_map, List.length_range]
  have hc : ((n - 1 - k : ℕ) : ℝ) = n - 1 - k := by
    rw [Nat.cast_sub (by omega), Nat.cast_sub (by omega)]; push_cast; ring
  rw [hc]
  split_ifs
  · rw [← heven]
    congr 1
    have : (n : ℝ) + 1 ≠ 0 := by linarith
    field_simp; ring
  · rw [← heven]
    congr 1
    have : (n : ℝ) - 1 ≠ 0 := by linarith
    field_simp; ring

/-- **C37.** For an odd count the centre sample is the maximum 1. -/
theorem C37_symmetric_center (w : Window) (tol : ℝ) (hw : IsWindow w.radius tol w.eval) (m : ℕ)
    (hm : 1 ≤ m) (l : List ℝ) (h : symmetricSamples w (2 * m + 1) = some l) :
    l.getD m 0 = 1 ∧ ∀ v ∈ l, 0 ≤ v ∧ v ≤ 1 := by
  rw [C37_symmetric w hw.even _ (by omega)] at h
  injection h with h
  subst h
  constructor
  · rw [getD_map_range _ _ _ (by omega)]
    have hm' : (1 : ℝ) ≤ m := by exact_mod_cast hm
    split_ifs
    · refine (congrArg w.eval ?_).trans hw.center
      push_cast; field_simp; ring
    · refine (congrArg w.eval ?_).trans hw.center
      push_cast
      rw [show (2 * (m : ℝ) + 1 - 1) = 2 * m by ring]
      field_simp; ring
  · intro v hv
    rw [List.mem_map] at hv
    obtain ⟨k, -, rfl⟩ := hv
    split_ifs <;> exact hw.range _

/-- **C37.** Periodic samples, for every count of at least 2: the window at `-radius + 2 radius k / n`
for `k < n`: the right endpoint is excluded. -/
theorem C37_periodic (w : Window) (heven : ∀ x, w.eval (-x) = w.eval x)
    (hzero : w.zeroAtEndpoints = true → w.eval w.radius = 0) (n : ℕ) (hn : 2 ≤ n) :
    periodicSamples w n = some ((List.range n).map fun k : ℕ =>
      w.eval (-w.radius + 2 * w.radius * k / n)) := by
  rw [periodic_eq w heven hzero n hn]
  congr 1
  apply List.map_congr_left
  intro k _
  congr 2; ring

/-- **C37.** Periodic samples satisfy `w[k] = w[n - k]`. -/
theorem C37_periodic_symmetry (w : Window) (heven : ∀ x, w.eval (-x) = w.eval x)
    (hzero : w.zeroAtEndpoints = true → w.eval w.radius = 0) (n : ℕ) (l : List ℝ)
    (h : periodicSamples w n = some l) :
    l.length = n ∧ ∀ k, 0 < k → k < n → l.getD k 0 = l.getD (n - k) 0 := by
  have hn : 2 ≤ n := by
    by_contra hc
    unfold periodicSamples at h
    rw [if_pos (by omega)] at h
    exact absurd h (by simp)
  rw [C37_periodic w heven hzero n hn] at h
  injection h with h
  subst h
  refine ⟨by simp, ?_⟩
  intro k h0 hk
  rw [getD_map_range _ _ _ hk, getD_map_range _ _ _ (by omega), ← heven]
  congr 1
  have hn' : (2 : ℝ) ≤ n := by exact_mod_cast hn
  rw [Nat.cast_sub hk.le]
  field_simp; ring

/-- **C37.** Counts below 2 fail a CHECK. -/
theorem C37_check (w : Window) (n : ℕ) :
    (symmetricSamples w n = none ↔ n < 2) ∧ (periodicSamples w n = none ↔ n < 2) := by
  unfold symmetricSamples periodicSamples
  constructor <;> constructor <;> intro h <;> first | (split_ifs at h with h2; exact h2) | simp [h]

/-- The left half is made by `std::reverse_copy`, whose precondition is that source and destination do
not overlap. It is not met by any odd symmetric count nor by any even periodic count: the middle
sample is copied onto itself. (The usual implementation does what is wanted.) -/
theorem C37_reverse_copy_overlap_violation (n : ℕ) (hn : 2 ≤ n) :
    (DisjointRanges (n / 2) n 0 ↔ n % 2 = 0) ∧
    (DisjointRanges ((n + 1) / 2) n 1 ↔ n % 2 = 1) := by
  unfold DisjointRanges
  constructor <;> constructor
  · intro h
    by_contra hc
    exact h (n / 2) (n / 2) le_rfl (by omega) (by omega) (by omega) rfl
  · intro h i j h1 h2 h3 h4 h5; omega
  · intro h
    by_contra hc
    exact h ((n + 1) / 2) ((n + 1) / 2) le_rfl (by omega) (by omega) (by omega) rfl
  · intro h i j h1 h2 h3 h4 h5; omega

/-! ### The windows -/

theorem abs_div_le {r x y : ℝ} (hr : 0 < r) (h : |x| ≤ |y|) : |x / r| ≤ |y / r| := by
  rw [abs_div, abs_div]; exact div_le_div_of_nonneg_right h (abs_nonneg r)

theorem one_le_abs_div {r x t : ℝ} (hr : 0 < r) (h : t * r ≤ |x|) : t ≤ |x / r| := by
  rw [abs_div, abs_of_pos hr, le_div_iff₀ hr]; exact h

theorem C37_rectangular (r : ℝ) (hr : 0 < r) : IsWindow r (1 / 10 ^ 12) (rectangular r) := by
  constructor
  · intro x; unfold rectangular; rw [abs_neg]
  · unfold rectangular; rw [abs_zero, if_pos (by positivity)]
  · intro x; unfold rectangular; split_ifs <;> norm_num
  · intro x y h
    unfold rectangular
    split_ifs with h1 h2
    · exact le_rfl
    · exact absurd (lt_of_le_of_lt h h1) h2
    · norm_num
    · exact le_rfl
  · intro x h; unfold rectangular; rw [if_neg (not_lt.2 h)]

/-- The common structure of the cosine-like windows: a decreasing function of `|x / r|`. -/
theorem window_of_profile {r tol : ℝ} (hr : 0 < r) (ht : 0 ≤ tol) (p w : ℝ → ℝ)
    (hw : ∀ x, w x = if |x / r| < 1 + tol then p (min 1 |x / r|) else 0)
    (h0 : p 0 = 1) (h1 : 0 ≤ p 1)
    (hp : ∀ a b, 0 ≤ a → a ≤ b → b ≤ 1 → p b ≤ p a) : IsWindow r tol w := by
  have hm : ∀ x : ℝ, 0 ≤ min 1 |x / r| ∧ min 1 |x / r| ≤ 1 := fun x =>
    ⟨le_min zero_le_one (abs_nonneg _), min_le_left _ _⟩
  have hnn : ∀ x : ℝ, 0 ≤ p (min 1 |x / r|) := fun x =>
    h1.trans (hp _ _ (hm x).1 (hm x).2 le_rfl)
  constructor
  · intro x; rw [hw, hw, neg_div, abs_neg]
  · rw [hw, zero_div, abs_zero, if_pos (by linarith), min_eq_right zero_le_one, h0]
  · intro x
    rw [hw]
    split_ifs
    · refine ⟨hnn x, ?_⟩
      exact (hp _ _ le_rfl (hm x).1 (hm x).2).trans h0.le
    · norm_num
  · intro x y h
    have := abs_div_le hr h
    rw [hw, hw]
    split_ifs with h2 h3
    · exact hp _ _ (hm x).1 (min_le_min le_rfl this) (hm y).2
    · exact absurd (lt_of_le_of_lt this h2) h3
    · exact hnn x
    · exact le_rfl
  · intro x h; rw [hw, if_neg (not_lt.2 (one_le_abs_div hr h))]

theorem cos_profile_mono (c a b : ℝ) (hc : 0 ≤ c) (hc1 : c ≤ Real.pi) (ha : 0 ≤ a) (hab : a ≤ b)
    (hb : b ≤ 1) : Real.cos (c * b) ≤ Real.cos (c * a) :=
  Real.cos_le_cos_of_nonneg_of_le_pi (by positivity)
    ((mul_le_of_le_one_right hc hb).trans hc1) (mul_le_mul_of_nonneg_left hab hc)

theorem C37_cosine (r : ℝ) (hr : 0 < r) :
    IsWindow r 0 (cosine r) ∧ cosine r r = 0 ∧ ∀ x, cosine r x = √(hann r x) := by
  refine ⟨?_, ?_, ?_⟩
  · apply window_of_profile hr le_rfl fun y => Real.cos (Real.pi / 2 * y)
    · intro x
      unfold cosine
      dsimp only
      rw [add_zero]
      split_ifs with h
      · rw [min_eq_right h.le]
      · rfl
    · simp
    · simp
    · intro a b ha hab hb
      exact cos_profile_mono _ _ _ (by positivity) (by linarith [Real.pi_pos]) ha hab hb
  · unfold cosine; dsimp only; rw [div_self hr.ne', abs_one, if_neg (lt_irrefl _)]
  · intro x
    unfold cosine hann
    dsimp only
    split_ifs with h
    · have : 1 / 2 * (1 + Real.cos (Real.pi * |x / r|)) = Real.cos (Real.pi / 2 * |x / r|) ^ 2 := by
        rw [Real.cos_sq, show 2 * (Real.pi / 2 * |x / r|) = Real.pi * |x / r| by ring]; ring
      rw [this, Real.sqrt_sq]
      apply Real.cos_nonneg_of_neg_pi_div_two_le_of_le
      · have := abs_nonneg (x / r); nlinarith [Real.pi_pos]
      · nlinarith [Real.pi_pos]
    · simp

theorem C37_hamming (r : ℝ) (hr : 0 < r) :
    IsWindow r (1 / 10 ^ 12) (hamming r) ∧ hamming r r = 8 / 100 ∧
    ∀ x, |x| ≤ r → hamming r x = 54 / 100 + 46 / 100 * Real.cos (Real.pi * x / r) := by
  refine ⟨?_, ?_, ?_⟩
  · apply window_of_profile hr (by norm_num)
      fun y => 54 / 100 + 46 / 100 * Real.cos (Real.pi * y)
    · intro x; rfl
    · simp; norm_num
    · simp; norm_num
    · intro a b ha hab hb
      have := cos_profile_mono Real.pi a b Real.pi_pos.le le_rfl ha hab hb
      linarith
  · unfold hamming; dsimp only
    rw [div_self hr.ne', abs_one, if_pos (by norm_num), min_self, mul_one, Real.cos_pi]; norm_num
  · intro x hx
    have : |x / r| ≤ 1 := by rw [abs_div, abs_of_pos hr, div_le_one hr]; exact hx
    unfold hamming; dsimp only
    rw [if_pos (lt_of_le_of_lt this (by norm_num)), min_eq_right this, mul_div_assoc]
    rcases abs_choice (x / r) with h | h <;> rw [h]
    rw [mul_neg, Real.cos_neg]

theorem C37_hann (r : ℝ) (hr : 0 < r) :
    IsWindow r 0 (hann r) ∧ hann r r = 0 ∧
    ∀ x, |x| ≤ r → hann r x = 1 / 2 + 1 / 2 * Real.cos (Real.pi * x / r) := by
  refine ⟨?_, ?_, ?_⟩
  · apply window_of_profile hr le_rfl fun y => 1 / 2 * (1 + Real.cos (Real.pi * y))
    · intro x
      unfold hann
      dsimp only
      rw [add_zero]
      split_ifs with h
      · rw [min_eq_right h.le]
      · rfl
    · simp; norm_num
    · simp
    · intro a b ha hab hb
      have := cos_profile_mono Real.pi a b Real.pi_pos.le le_rfl ha hab hb
      linarith
  · unfold hann; dsimp only; rw [div_self hr.ne', abs_one, if_neg (lt_irrefl _)]
  · intro x hx
    have h1 : |x / r| ≤ 1 := by rw [abs_div, abs_of_pos hr, div_le_one hr]; exact hx
    have h2 : Real.cos (Real.pi * |x / r|) = Real.cos (Real.pi * x / r) := by
      rw [mul_div_assoc]
      rcases abs_choice (x / r) with h | h <;> rw [h]
      rw [mul_neg, Real.cos_neg]
    unfold hann; dsimp only
    rw [h2]
    split_ifs with h
    · ring
    · have : |x / r| = 1 := le_antisymm h1 (not_lt.1 h)
      rw [this, mul_one, Real.cos_pi] at h2
      rw [← h2]; norm_num

/-- The Kaiser window, for every positive non-decreasing function in the place of the Bessel
function. -/
theorem C37_kaiser (i0 : ℝ → ℝ) (hpos : ∀ x, 0 ≤ x → 0 < i0 x)
    (hmono : ∀ x y, 0 ≤ x → x ≤ y → i0 x ≤ i0 y) (beta : ℝ) (hb : 0 ≤ beta) (r : ℝ) (hr : 0 < r) :
    IsWindow r (1 / 10 ^ 12) (kaiser i0 beta r) ∧ kaiser i0 beta r r = i0 0 / i0 beta ∧
    ∀ x, |x| ≤ r → kaiser i0 beta r x = i0 (beta * √(1 - (x / r) ^ 2)) / i0 beta := by
  refine ⟨?_, ?_, ?_⟩
  · apply window_of_profile hr (by norm_num) fun y => i0 (beta * √(max 0 (1 - y * y))) / i0 beta
    · intro x
      unfold kaiser
      dsimp only
      split_ifs with h
      · rcases le_total |x / r| 1 with h1 | h1
        · rw [min_eq_right h1]
        · rw [min_eq_left h1, max_eq_left (by nlinarith), max_eq_left (by norm_num)]
      · rfl
    · rw [mul_zero, sub_zero, max_eq_right zero_le_one, Real.sqrt_one, mul_one,
        div_self (hpos _ hb).ne']
    · exact div_nonneg (hpos _ (by positivity)).le (hpos _ hb).le
    · intro a b ha hab hb1
      apply div_le_div_of_nonneg_right _ (hpos _ hb).le
      apply hmono _ _ (by positivity)
      apply mul_le_mul_of_nonneg_left _ hb
      apply Real.sqrt_le_sqrt
      apply max_le_max le_rfl
      nlinarith
  · unfold kaiser; dsimp only
    rw [div_self hr.ne', abs_one, if_pos (by norm_num)]
    simp
  · intro x hx
    have h1 : |x / r| ≤ 1 := by rw [abs_div, abs_of_pos hr, div_le_one hr]; exact hx
    unfold kaiser; dsimp only
    rw [if_pos (lt_of_le_of_lt h1 (by norm_num)), abs_mul_abs_self, ← sq, max_eq_right]
    have := (sq_le_one_iff_abs_le_one (x / r)).2 h1
    linarith

/-- The Nuttall window as a polynomial in the cosine. -/
theorem nuttall_poly (z : ℝ) :
    nuttallA 0 + nuttallA 1 * Real.cos z + nuttallA 2 * Real.cos (2 * z) +
      nuttallA 3 * Real.cos (3 * z) =
    3635819 / 10 ^ 7 + 4891775 / 10 ^ 7 * Real.cos z +
      1365995 / 10 ^ 7 * (2 * Real.cos z ^ 2 - 1) +
      106411 / 10 ^ 7 * (4 * Real.cos z ^ 3 - 3 * Real.cos z) := by
  rw [Real.cos_two_mul, Real.cos_three_mul]
  rfl

theorem nuttall_mono {c d : ℝ} (hc : -1 ≤ c) (hcd : c ≤ d) (hd : d ≤ 1) :
    3635819 / 10 ^ 7 + 4891775 / 10 ^ 7 * c + 1365995 / 10 ^ 7 * (2 * c ^ 2 - 1) +
      106411 / 10 ^ 7 * (4 * c ^ 3 - 3 * c) ≤
    3635819 / 10 ^ 7 + 4891775 / 10 ^ 7 * d + 1365995 / 10 ^ 7 * (2 * d ^ 2 - 1) +
      106411 / 10 ^ 7 * (4 * d ^ 3 - 3 * d) := by
  have key : 0 ≤ (4891775 - 3 * 106411 : ℝ) + 2 * 1365995 * (c + d) +
      4 * 106411 * (c ^ 2 + c * d + d ^ 2) := by
    nlinarith [mul_nonneg (show (0 : ℝ) ≤ 1 + c by linarith) (show (0 : ℝ) ≤ 1 + d by linarith),
      sq_nonneg (1 + c), sq_nonneg (1 + d)]
  have := mul_nonneg (show 0 ≤ d - c by linarith) key
  norm_num
  nlinarith

theorem C37_nuttall (r : ℝ) (hr : 0 < r) :
    IsWindow r (1 / 10 ^ 12) (nuttall r) ∧ nuttall r r = 3628 / 10 ^ 7 := by
  constructor
  · apply window_of_profile hr (by norm_num) fun y =>
      nuttallA 0 + nuttallA 1 * Real.cos (Real.pi * y) + nuttallA 2 * Real.cos (2 * (Real.pi * y)) +
       nuttallA 3 * Real.cos (3 * (Real.pi * y))
    · intro x; rfl
    · rw [nuttall_poly]; simp; norm_num
    · rw [nuttall_poly]; simp; norm_num
    · intro a b ha hab hb
      rw [nuttall_poly, nuttall_poly]
      exact nuttall_mono (Real.neg_one_le_cos _)
        (cos_profile_mono Real.pi a b Real.pi_pos.le le_rfl ha hab hb) (Real.cos_le_one _)
  · unfold nuttall; dsimp only
    rw [div_self hr.ne', abs_one, if_pos (by norm_num), nuttall_poly, min_self, mul_one,
      Real.cos_pi]
    norm_num

/-- The taper as a function of the distance to the edge. -/
noncomputable def taper (y : ℝ) : ℝ :=
  if 1 - 1 / 10 ^ 12 ≤ y then 1
  else if 1 / 10 ^ 12 < y then 1 / (1 + Real.exp (1 / y - 1 / (1 - y)))
  else 0

theorem taper_range (y : ℝ) : 0 ≤ taper y ∧ taper y ≤ 1 := by
  unfold taper
  split_ifs
  · norm_num
  · have := Real.exp_pos (1 / y - 1 / (1 - y))
    exact ⟨by positivity, by rw [div_le_one (by positivity)]; linarith⟩
  · norm_num

theorem taper_mono {a b : ℝ} (h : a ≤ b) : taper a ≤ taper b := by
  by_cases h1 : 1 - 1 / 10 ^ 12 ≤ b
  · have : taper b = 1 := by unfold taper; rw [if_pos h1]
    rw [this]; exact (taper_range a).2
  · by_cases h2 : 1 / 10 ^ 12 < a
    · have ha : ¬ 1 - 1 / 10 ^ 12 ≤ a := fun hc => h1 (hc.trans h)
      unfold taper
      rw [if_neg ha, if_neg h1, if_pos h2, if_pos (lt_of_lt_of_le h2 h)]
      push Not at h1 ha
      have ha0 : 0 < a := lt_trans (by norm_num) h2
      have hb1 : b < 1 := lt_trans h1 (by norm_num)
      apply div_le_div_of_nonneg_left zero_le_one (by have := Real.exp_pos (1 / b - 1 / (1 - b)); linarith)
      apply add_le_add_right
      apply Real.exp_le_exp.2
      have i1 : 1 / b ≤ 1 / a := one_div_le_one_div_of_le ha0 h
      have i2 : 1 / (1 - a) ≤ 1 / (1 - b) := one_div_le_one_div_of_le (by linarith) (by linarith)
      linarith
    · have : taper a = 0 := by
        unfold taper
        rw [if_neg, if_neg h2]
        push Not at h2
        intro hc
        norm_num at hc h2
        linarith
      rw [this]; exact (taper_range b).1

theorem planckTaper_eq (epsilon r x : ℝ) : planckTaper epsilon r x = taper ((r - |x|) / epsilon) :=
  rfl

theorem C37_planck_taper (epsilon r : ℝ) (he : 0 < epsilon) (her : epsilon ≤ r) :
    IsWindow r 0 (planckTaper epsilon r) ∧ planckTaper epsilon r r = 0 ∧
    ∀ x, |x| ≤ r - epsilon → planckTaper epsilon r x = 1 := by
  refine ⟨⟨?_, ?_, ?_, ?_, ?_⟩, ?_, ?_⟩
  · intro x; rw [planckTaper_eq, planckTaper_eq, abs_neg]
  · rw [planckTaper_eq, abs_zero, sub_zero]
    unfold taper
    rw [if_pos]
    have : 1 ≤ r / epsilon := by rw [le_div_iff₀ he]; linarith
    exact le_trans (by norm_num) this
  · intro x; exact taper_range _
  · intro x y h
    rw [planckTaper_eq, planckTaper_eq]
    apply taper_mono
    apply div_le_div_of_nonneg_right _ he.le
    linarith
  · intro x h
    rw [add_zero, one_mul] at h
    have : (r - |x|) / epsilon ≤ 0 := div_nonpos_of_nonpos_of_nonneg (by linarith) he.le
    rw [planckTaper_eq]; unfold taper
    rw [if_neg (by intro hc; norm_num at hc; linarith),
      if_neg (by intro hc; norm_num at hc; linarith)]
  · rw [planckTaper_eq, abs_of_pos (by linarith), sub_self, zero_div]
    unfold taper
    norm_num
  · intro x hx
    rw [planckTaper_eq]; unfold taper
    rw [if_pos]
    have : 1 ≤ (r - |x|) / epsilon := by rw [le_div_iff₀ he]; linarith
    exact le_trans (by norm_num) this

/-- **C37.** Every accepted quartic window is even, 1 at the centre, nonnegative, at most one and
non-increasing on `[0, radius]`, and zero from `radius * sqrt(1 + 1e-12)` on. Missing from `IsWindow`:
between `radius` and that point it may be negative, see `C37_quartic_negative_violation`. -/
theorem C37_quartic_partial (c2 c4 r : ℝ) (hr : 0 < r) (hok : quarticOk c2 c4) :
    (∀ x, quartic c2 c4 r (-x) = quartic c2 c4 r x) ∧ quartic c2 c4 r 0 = 1 ∧
    (∀ x, |x| ≤ r → 0 ≤ quartic c2 c4 r x ∧ quartic c2 c4 r x ≤ 1) ∧
    (∀ x y, |x| ≤ |y| → |y| ≤ r → quartic c2 c4 r y ≤ quartic c2 c4 r x) ∧
    (∀ x, |x| ≤ r → quartic c2 c4 r x = 1 + c2 * (x / r) ^ 2 + c4 * (x / r) ^ 4) ∧
    (∀ x, r * √(1 + 1 / 10 ^ 12) ≤ |x| → quartic c2 c4 r x = 0) := by
  obtain ⟨h1, h2, h3, h4⟩ := hok
  have hform : ∀ x, |x| ≤ r → quartic c2 c4 r x = 1 + c2 * (x / r) ^ 2 + c4 * (x / r) ^ 4 := by
    intro x hx
    have ha : |x / r| ≤ 1 := by rw [abs_div, abs_of_pos hr, div_le_one hr]; exact hx
    have hs := (sq_le_one_iff_abs_le_one (x / r)).2 ha
    unfold quartic; dsimp only
    rw [if_pos (by rw [← sq]; exact lt_of_le_of_lt hs (by norm_num))]
    ring
  have hmono : ∀ x y, |x| ≤ |y| → |y| ≤ r → quartic c2 c4 r y ≤ quartic c2 c4 r x := by
    intro x y hxy hy
    rw [hform y hy, hform x (hxy.trans hy)]
    have ha : |y / r| ≤ 1 := by rw [abs_div, abs_of_pos hr, div_le_one hr]; exact hy
    have hs := (sq_le_one_iff_abs_le_one (y / r)).2 ha
    have hd : (x / r) ^ 2 ≤ (y / r) ^ 2 := sq_le_sq.2 (abs_div_le hr hxy)
    have e4 : ∀ t : ℝ, t ^ 4 = (t ^ 2) ^ 2 := fun t => by ring
    rw [e4, e4]
    have hx0 := sq_nonneg (x / r)
    generalize (x / r) ^ 2 = a at *
    generalize (y / r) ^ 2 = b at *
    have key : c2 + c4 * (a + b) ≤ 0 := by
      rcases le_total 0 c4 with hc | hc
      · nlinarith
      · nlinarith
    nlinarith [mul_nonneg (sub_nonneg.2 hd) (neg_nonneg.2 key)]
  have h0 : quartic c2 c4 r 0 = 1 := by
    rw [hform 0 (by rw [abs_zero]; exact hr.le)]; simp
  refine ⟨?_, h0, ?_, hmono, hform, ?_⟩
  · intro x; unfold quartic; dsimp only; rw [neg_div, neg_mul_neg]
  · intro x hx
    constructor
    · have e : quartic c2 c4 r r ≤ quartic c2 c4 r x :=
        hmono x r (by rwa [abs_of_pos hr]) (by rw [abs_of_pos hr])
      refine le_trans ?_ e
      rw [hform r (by rw [abs_of_pos hr]), div_self hr.ne']
      linarith
    · rw [← h0]
      exact hmono 0 x (by rw [abs_zero]; exact abs_nonneg x) hx
  · intro x hx
    unfold quartic; dsimp only
    rw [if_neg]
    rw [not_lt, ← sq, ← sq_abs, abs_div, abs_of_pos hr]
    have hs := Real.sq_sqrt (show (0 : ℝ) ≤ 1 + 1 / 10 ^ 12 by norm_num)
    rw [← hs]
    apply pow_le_pow_left₀ (Real.sqrt_nonneg _)
    rw [le_div_iff₀ hr]; linarith

/-- The tolerance of `QuarticWindow::Eval` makes an accepted window negative just outside its radius:
`1 - x^2` (with `c_2 = -1`, `c_4 = 0`) at `x^2 = 1 + 1e-12 / 2`. -/
theorem C37_quartic_negative_violation :
    quarticOk (-1) 0 ∧ ∃ x, quartic (-1) 0 1 x < 0 := by
  refine ⟨by unfold quarticOk; norm_num, √(1 + 1 / (2 * 10 ^ 12)), ?_⟩
  unfold quartic; dsimp only
  rw [div_one, Real.mul_self_sqrt (by norm_num)]
  norm_num

/-- **C37.** For all windows but the Planck-taper, samples do not depend on the radius: `eval` depends
on `x / radius` only. -/
theorem C37_radius (w v : Window) (hr : 0 < w.radius) (hv : 0 < v.radius)
    (hz : w.zeroAtEndpoints = v.zeroAtEndpoints)
    (hevenw : ∀ x, w.eval (-x) = w.eval x) (hevenv : ∀ x, v.eval (-x) = v.eval x)
    (h : ∀ x, w.eval (w.radius * x) = v.eval (v.radius * x)) (n : ℕ) :
    symmetricSamples w n = symmetricSamples v n := by
  by_cases hn : n < 2
  · rw [((C37_check w n).1).2 hn, ((C37_check v n).1).2 hn]
  rw [C37_symmetric w hevenw n (by omega), C37_symmetric v hevenv n (by omega), hz]
  congr 1
  apply List.map_congr_left
  intro k _
  have e : ∀ (u : Window) (t s : ℝ), -u.radius + 2 * u.radius * t / s =
      u.radius * (-1 + 2 * t / s) := fun u t s => by ring
  split_ifs <;> rw [e, e, h]

/-- The documentation says that the radius does not affect the samples; for the Planck-taper window it
does. -/
theorem C37_radius_violation :
    symmetricSamples ⟨1, true, planckTaper (1 / 2) 1⟩ 3 = some [1, 1, 1] ∧
    symmetricSamples ⟨1 / 2, true, planckTaper (1 / 2) (1 / 2)⟩ 3 = some [1 / 2, 1, 1 / 2] := by
  have h1 := C37_planck_taper (1 / 2) 1 (by norm_num) (by norm_num)
  have h2 := C37_planck_taper (1 / 2) (1 / 2) (by norm_num) le_rfl
  have hhalf : taper (1 / 2) = 1 / 2 := by
    unfold taper
    rw [if_neg (by norm_num), if_pos (by norm_num)]
    norm_num
  constructor
  · rw [C37_symmetric _ h1.1.even 3 (by norm_num)]
    simp only [List.range, List.range.loop, List.map, if_true]
    rw [h1.2.2 _ (by norm_num [abs_le]), h1.2.2 _ (by norm_num [abs_le]),
      h1.2.2 _ (by norm_num [abs_le])]
  · rw [C37_symmetric _ h2.1.even 3 (by norm_num)]
    simp only [List.range, List.range.loop, List.map, if_true, planckTaper_eq]
    have a : ((1 / 2 : ℝ) - |-(1 / 2) + 2 * (1 / 2) * (((0 : ℕ) : ℝ) + 1) / (((3 : ℕ) : ℝ) + 1)|) /
        (1 / 2) = 1 / 2 := by norm_num [abs_of_neg]
    have b : ((1 / 2 : ℝ) - |-(1 / 2) + 2 * (1 / 2) * (((1 : ℕ) : ℝ) + 1) / (((3 : ℕ) : ℝ) + 1)|) /
        (1 / 2) = 1 := by norm_num
    have c : ((1 / 2 : ℝ) - |-(1 / 2) + 2 * (1 / 2) * (((2 : ℕ) : ℝ) + 1) / (((3 : ℕ) : ℝ) + 1)|) /
        (1 / 2) = 1 / 2 := by norm_num [abs_of_pos]
    have t1 : taper 1 = 1 := by unfold taper; norm_num
    rw [a, b, c, hhalf, t1]

/-- A non-trivial case of the hypotheses: 5 symmetric Hann samples. -/
example : ∃ l, symmetricSamples ⟨1, true, hann 1⟩ 5 = some l ∧ l.reverse = l ∧ l.getD 2 0 = 1 := by
  have hw := (C37_hann 1 one_pos).1
  obtain ⟨l, hl⟩ : ∃ l, symmetricSamples ⟨1, true, hann 1⟩ 5 = some l :=
    ⟨_, C37_symmetric _ hw.even 5 (by norm_num)⟩
  exact ⟨l, hl, (C37_symmetric_palindrome _ hw.even 5 l hl).2,
    (C37_symmetric_center ⟨1, true, hann 1⟩ 0 hw 2 (by norm_num) l hl).1⟩

end Verif.Windows
