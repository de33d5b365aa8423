import Verif.Model.VectorUtil
import Mathlib.Tactic.Linarith
import Mathlib.Tactic.FieldSimp
import Mathlib.Tactic.NormNum
import Mathlib.Tactic.Positivity
import Mathlib.Tactic.IntervalCases

/-!
# C44: quadratic interpolation of a maximum
-/

namespace Verif.VectorUtil

variable {K : Type} [Field K] [LinearOrder K] [IsStrictOrderedRing K]

/-- **C44.** `QuadraticInterpolateMax` accepts exactly the indices of the signal, and the location it
returns is in `[0, size - 1]` and at most one sample away from the start index. -/
theorem C44_location (x : List K) (x0 : ℤ) :
    ((¬ (0 ≤ x0 ∧ x0 < x.length)) → quadraticInterpolateMax x x0 = .error .check) ∧
    (0 ≤ x0 → x0 < x.length → ∃ v loc, quadraticInterpolateMax x x0 = .ok (v, loc) ∧
      0 ≤ loc ∧ loc ≤ x.length - 1 ∧ |x0 - loc| ≤ 1) := by
  constructor
  · intro h
    unfold quadraticInterpolateMax
    by_cases h0 : 0 ≤ x0
    · rw [if_neg (not_not.2 h0), if_pos (by tauto)]
    · rw [if_pos h0]
  · intro h0 h1
    unfold quadraticInterpolateMax
    rw [if_neg (not_not.2 h0), if_neg (not_not.2 h1)]
    have c0 : (0 : K) ≤ x0 := by exact_mod_cast h0
    have c1 : (x0 : K) ≤ x.length - 1 := by
      have : x0 ≤ (x.length : ℤ) - 1 := by omega
      have := (Int.cast_le (R := K)).2 this
      push_cast at this
      exact this
    by_cases he : x0 = 0 ∨ x0 = (x.length : ℤ) - 1
    · rw [if_pos he]
      exact ⟨_, _, rfl, c0, c1, by simp⟩
    · rw [if_neg he]
      have d0 : (1 : K) ≤ x0 := by
        have : (1 : ℤ) ≤ x0 := by omega
        exact_mod_cast this
      have d1 : (x0 : K) ≤ x.length - 2 := by
        have : x0 ≤ (x.length : ℤ) - 2 := by omega
        have := (Int.cast_le (R := K)).2 this
        push_cast at this
        exact this
      dsimp only
      split_ifs with hb ha hn
      · exact ⟨_, _, rfl, c0, c1, by simp⟩
      · refine ⟨_, _, rfl, ?_⟩
        generalize -((x.getD (x0 + 1).toNat 0 - x.getD (x0 - 1).toNat 0) / 2) /
          (2 * ((x.getD (x0 - 1).toNat 0 - 2 * x.getD x0.toNat 0 + x.getD (x0 + 1).toNat 0) / 2)) = q
        have e1 : -1 ≤ max (-1) (min q 1) := le_max_left _ _
        have e2 : max (-1) (min q 1) ≤ 1 := max_le (by linarith) (min_le_right _ _)
        refine ⟨by linarith, by linarith, ?_⟩
        rw [abs_le]
        constructor <;> linarith
      · refine ⟨_, _, rfl, ?_⟩
        push_cast
        refine ⟨by linarith, by linarith, ?_⟩
        rw [abs_le]
        constructor <;> linarith
      · refine ⟨_, _, rfl, ?_⟩
        push_cast
        refine ⟨by linarith, by linarith, ?_⟩
        rw [abs_le]
        constructor <;> linarith

/-- **C44.** At the ends of the signal the sample itself is returned. -/
theorem C44_ends (x : List K) (x0 : ℤ) (h0 : 0 ≤ x0) (h1 : x0 < x.length)
    (he : x0 = 0 ∨ x0 = x.length - 1) :
    quadraticInterpolateMax x x0 = .ok (x.getD x0.toNat 0, (x0 : K)) := by
  unfold quadraticInterpolateMax
  rw [if_neg (not_not.2 h0), if_neg (not_not.2 h1), if_pos he]

/-- **C44.** In the interior, let `P` be the parabola through the sample and its two neighbours. If the
neighbours differ by at least `2⁻²⁰` the value returned is the maximum of `P` on `[x0 - 1, x0 + 1]`, and
it is attained at the location returned. -/
theorem C44_maximum (x : List K) (x0 : ℤ) (h0 : 0 < x0) (h1 : x0 + 1 < x.length) (P : K → K)
    (hP : ∃ p q r, ∀ t, P t = p + q * t + r * t ^ 2)
    (hl : P (x0 - 1) = x.getD (x0 - 1).toNat 0) (hm : P x0 = x.getD x0.toNat 0)
    (hr : P (x0 + 1) = x.getD (x0 + 1).toNat 0)
    (hdiff : (1 / 2 ^ 20 : K) ≤ |P (x0 + 1) - P (x0 - 1)|) :
    ∃ v loc, quadraticInterpolateMax x x0 = .ok (v, loc) ∧ v = P loc ∧
      |loc - x0| ≤ 1 ∧ ∀ t : K, |t - x0| ≤ 1 → P t ≤ v := by
  obtain ⟨p, q, r, hP⟩ := hP
  unfold quadraticInterpolateMax
  rw [if_neg (by omega), if_neg (by omega), if_neg (by omega)]
  have hlm : x.getD (x0 + -1).toNat 0 = P (x0 - 1) := by rw [hl]; rfl
  dsimp only
  rw [← hl, ← hm, ← hr]
  obtain ⟨a, ha⟩ : ∃ a, a = (P (x0 - 1) - 2 * P x0 + P (x0 + 1)) / 2 := ⟨_, rfl⟩
  obtain ⟨b, hb⟩ : ∃ b, b = (P (x0 + 1) - P (x0 - 1)) / 2 := ⟨_, rfl⟩
  rw [← ha, ← hb]
  have hPt : ∀ d, P (x0 + d) = P x0 + b * d + a * d ^ 2 := by
    intro d
    rw [ha, hb]
    simp only [hP]
    ring
  have hPt' : ∀ t, P t = P x0 + b * (t - x0) + a * (t - x0) ^ 2 := by
    intro t
    rw [← hPt]; congr 1; ring
  have hbt : ¬ |b| < tolerance := by
    have : |b| = |P (x0 + 1) - P (x0 - 1)| / 2 := by rw [hb, abs_div, abs_two]
    rw [this, not_lt, tolerance]
    have : (4 * (1 / 2 ^ 23) : K) = 1 / 2 ^ 20 / 2 := by norm_num
    rw [this]
    linarith
  have hb0 : b ≠ 0 := by
    rintro rfl
    apply hbt
    rw [abs_zero, tolerance]
    positivity
  rw [if_neg hbt]
  by_cases han : a < 0
  · rw [if_pos han]
    refine ⟨_, _, rfl, ?_, ?_, ?_⟩
    · rw [hPt]; ring
    · rw [add_sub_cancel_left, abs_le]
      exact ⟨le_max_left _ _, max_le (by linarith) (min_le_right _ _)⟩
    · intro t ht
      rw [hPt' t]
      obtain ⟨d, hd⟩ : ∃ d, d = t - x0 := ⟨_, rfl⟩
      rw [← hd] at ht ⊢
      obtain ⟨ht1, ht2⟩ := abs_le.1 ht
      obtain ⟨e, he⟩ : ∃ e, e = -b / (2 * a) := ⟨_, rfl⟩
      have hbe : b = -2 * a * e := by rw [he]; have := han.ne; field_simp
      rw [← he]
      rcases le_total e (-1) with h | h
      · rw [min_eq_left (by linarith), max_eq_left h, hbe]
        nlinarith [mul_nonneg (neg_nonneg.2 han.le) (mul_nonneg (show 0 ≤ d + 1 by linarith)
          (show 0 ≤ d - 1 - 2 * e by linarith))]
      · rcases le_total e 1 with h' | h'
        · rw [min_eq_left h', max_eq_right h, hbe]
          nlinarith [mul_nonneg (neg_nonneg.2 han.le) (sq_nonneg (d - e))]
        · rw [min_eq_right h', max_eq_right (by linarith), hbe]
          nlinarith [mul_nonneg (neg_nonneg.2 han.le) (mul_nonneg (show 0 ≤ 1 - d by linarith)
            (show 0 ≤ 2 * e - 1 - d by linarith))]
  · rw [if_neg han]
    have ha0 : 0 ≤ a := not_lt.1 han
    by_cases hneg : b < 0
    · rw [if_pos hneg, hlm]
      refine ⟨_, _, rfl, ?_, ?_, ?_⟩
      · push_cast; rw [← sub_eq_add_neg]
      · push_cast; simp
      · intro t ht
        rw [hPt' t, sub_eq_add_neg (x0 : K) 1, hPt]
        obtain ⟨ht1, ht2⟩ := abs_le.1 ht
        nlinarith [mul_nonneg (neg_nonneg.2 hneg.le) (show 0 ≤ t - x0 + 1 by linarith),
          mul_nonneg ha0 (mul_nonneg (show 0 ≤ t - x0 + 1 by linarith) (show 0 ≤ 1 - (t - x0) by linarith))]
    · rw [if_neg hneg, ← hr]
      refine ⟨_, _, rfl, ?_, ?_, ?_⟩
      · push_cast; rfl
      · push_cast; simp
      · intro t ht
        rw [hPt' t, hPt]
        obtain ⟨ht1, ht2⟩ := abs_le.1 ht
        nlinarith [mul_nonneg (not_lt.1 hneg) (show 0 ≤ 1 - (t - x0) by linarith),
          mul_nonneg ha0 (mul_nonneg (show 0 ≤ t - x0 + 1 by linarith) (show 0 ≤ 1 - (t - x0) by linarith))]

/-- **C44.** Samples of a concave parabola with its vertex at most one sample away: the vertex is found
exactly, if the neighbours differ by at least `2⁻²⁰`. -/
theorem C44_vertex (x : List K) (x0 : ℤ) (h0 : 0 < x0) (h1 : x0 + 1 < x.length) (top vertex k : K)
    (hk : 0 < k) (hx : ∀ i : ℕ, i < x.length → x.getD i 0 = top - k * (i - vertex) ^ 2)
    (hv : |vertex - x0| ≤ 1) (hdiff : (1 / 2 ^ 20 : K) ≤ 4 * k * |vertex - x0|) :
    quadraticInterpolateMax x x0 = .ok (top, vertex) := by
  have hat : ∀ i : ℤ, 0 ≤ i → i < x.length → x.getD i.toNat 0 = top - k * (i - vertex) ^ 2 := by
    intro i hi hi'
    rw [hx i.toNat (by omega)]
    congr 3
    have : ((i.toNat : ℤ) : K) = (i : K) := by rw [Int.toNat_of_nonneg hi]
    rw [← this]; push_cast; rfl
  obtain ⟨v, loc, e1, e2, e3, e4⟩ := C44_maximum x x0 h0 h1 (fun t => top - k * (t - vertex) ^ 2)
    ⟨top - k * vertex ^ 2, 2 * k * vertex, -k, fun t => by ring⟩
    (by rw [hat _ (by omega) (by omega)]; push_cast; rfl)
    (by rw [hat _ (by omega) (by omega)])
    (by rw [hat _ (by omega) (by omega)]; push_cast; rfl)
    (by
      have : top - k * ((x0 : K) + 1 - vertex) ^ 2 - (top - k * ((x0 : K) - 1 - vertex) ^ 2)
          = 4 * k * (vertex - x0) := by ring
      rw [this, abs_mul, abs_of_pos (by linarith : 0 < 4 * k)]
      exact hdiff)
  have h5 := e4 vertex hv
  rw [e2] at h5
  have h6 : (loc - vertex) ^ 2 ≤ 0 := by
    have h7 : k * (loc - vertex) ^ 2 ≤ 0 := by
      have : top - k * (vertex - vertex) ^ 2 = top := by ring
      linarith
    exact nonpos_of_mul_nonpos_right h7 hk
  have h7 : loc - vertex = 0 := by
    have := sq_nonneg (loc - vertex)
    exact pow_eq_zero_iff (two_ne_zero) |>.1 (le_antisymm h6 this)
  rw [e1, e2, h7, sub_eq_zero.1 h7]
  simp

/-- Samples of `4 - (t - 5/4)²` meet the hypotheses. -/
example : quadraticInterpolateMax [39 / 16, 63 / 16, (55 / 16 : ℚ)] 1 = .ok (4, 5 / 4) :=
  C44_vertex _ 1 (by norm_num) (by simp) 4 (5 / 4) 1 one_pos
    (by intro i hi; simp at hi; interval_cases i <;> norm_num) (by norm_num [abs_le]) (by norm_num)

/-- **C44.** When the neighbours differ by less than `2⁻²⁰`, the sample itself is returned. For a
discrete peak it is then below the maximum of the parabola by less than `2⁻²¹`. -/
theorem C44_near_symmetric (x : List K) (x0 : ℤ) (h0 : 0 < x0) (h1 : x0 + 1 < x.length) (P : K → K)
    (hP : ∃ p q r, ∀ t, P t = p + q * t + r * t ^ 2)
    (hl : P (x0 - 1) = x.getD (x0 - 1).toNat 0) (hm : P x0 = x.getD x0.toNat 0)
    (hr : P (x0 + 1) = x.getD (x0 + 1).toNat 0)
    (hdiff : |P (x0 + 1) - P (x0 - 1)| < 1 / 2 ^ 20) :
    quadraticInterpolateMax x x0 = .ok (P x0, (x0 : K)) ∧
    (P (x0 - 1) + P (x0 + 1) ≤ 2 * P x0 → ∀ t : K, |t - x0| ≤ 1 → P t ≤ P x0 + 1 / 2 ^ 21) := by
  obtain ⟨p, q, r, hP⟩ := hP
  have hbt : |(P (x0 + 1) - P (x0 - 1)) / 2| < tolerance := by
    rw [abs_div, abs_two, tolerance]
    have : (4 * (1 / 2 ^ 23) : K) = 1 / 2 ^ 20 / 2 := by norm_num
    rw [this]
    linarith
  constructor
  · unfold quadraticInterpolateMax
    rw [if_neg (by omega), if_neg (by omega), if_neg (by omega)]
    dsimp only
    rw [← hl, ← hm, ← hr, if_pos hbt]
  · intro hc t ht
    have hPt' : P t = P x0 + (P (x0 + 1) - P (x0 - 1)) / 2 * (t - x0)
        + (P (x0 - 1) - 2 * P x0 + P (x0 + 1)) / 2 * (t - x0) ^ 2 := by
      simp only [hP]; ring
    rw [hPt']
    have h2 : (P (x0 + 1) - P (x0 - 1)) / 2 * (t - x0) ≤ 1 / 2 ^ 21 := by
      have : |(P (x0 + 1) - P (x0 - 1)) / 2 * (t - x0)| ≤ tolerance * 1 := by
        rw [abs_mul]
        exact mul_le_mul hbt.le ht (abs_nonneg _) (by rw [tolerance]; positivity)
      have h3 := (le_abs_self _).trans this
      rw [tolerance] at h3
      have : (4 * (1 / 2 ^ 23) * 1 : K) = 1 / 2 ^ 21 := by norm_num
      linarith
    nlinarith [mul_nonneg (show 0 ≤ 2 * P x0 - P (x0 - 1) - P (x0 + 1) by linarith) (sq_nonneg (t - x0))]

/-- **C44 (violation).** The documentation promises the maximum of the interpolant. For a symmetric
valley the value returned is the minimum of the interpolating parabola. -/
theorem C44_symmetric_valley_violation :
    quadraticInterpolateMax [1, 0, (1 : ℚ)] 1 = .ok (0, 1) ∧
    ∀ P : ℚ → ℚ, (∃ p q r, ∀ t, P t = p + q * t + r * t ^ 2) → P 0 = 1 → P 1 = 0 → P 2 = 1 →
      ∀ t, t ≠ 1 → 0 < P t := by
  refine ⟨by decide +kernel, ?_⟩
  rintro P ⟨p, q, r, hP⟩ e0 e1 e2 t ht
  have hp : p = 1 := by rw [hP] at e0; linarith
  rw [hP] at e1 e2
  have hr : r = 1 := by linarith
  have hq : q = -2 := by linarith
  rw [hP, hp, hq, hr]
  have : 0 < (t - 1) ^ 2 := by
    have := sub_ne_zero.2 ht
    positivity
  linarith

end Verif.VectorUtil
