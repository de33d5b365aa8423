import Verif.Proof.Bessel5
import Verif.Theorems.Windows

/-!
# C90: the modified Bessel functions

Specification: `Verif/Spec/Bessel.lean`, the power series of `I_n`.
-/

namespace Verif.Bessel
open Spec Finset

theorem term_neg (n : ℕ) (x : ℝ) (k : ℕ) : term n (-x) k = (-1) ^ n * term n x k := by
  rw [term, term, neg_div, neg_pow, pow_add, pow_mul]
  norm_num
  ring

theorem I_neg (n : ℕ) (x : ℝ) : I n (-x) = (-1) ^ n * I n x := by
  rw [I, I, ← tsum_mul_left]
  exact tsum_congr fun k => term_neg n x k

theorem I_nonneg {x : ℝ} (hx : 0 ≤ x) (n : ℕ) : 0 ≤ I n x := tsum_nonneg fun k => term_nonneg hx n k

theorem I0_ge_one (x : ℝ) : 1 ≤ I 0 x := by
  have h : ∀ {x : ℝ}, 0 ≤ x → 1 ≤ I 0 x := by
    intro x hx
    have := (term_summable 0 x).sum_le_tsum (range 1) fun k _ => term_nonneg hx 0 k
    rw [sum_range_one, term_zero] at this
    simpa [I] using this
  rcases le_total 0 x with hx | hx
  · exact h hx
  · have := h (x := -x) (by linarith)
    rw [I_neg] at this
    simpa using this

/-- The integral representation of `I_0` (DLMF 10.32.1): the specification is the Bessel function. -/
theorem C90_spec_integral (x : ℝ) :
    I 0 x = 1 / Real.pi * ∫ t in (0 : ℝ)..Real.pi, Real.cosh (x * Real.sin t) := by
  have h := I_zero x
  simp only [mul_one] at h
  rw [← h]
  have := Real.pi_ne_zero
  field_simp

/-- **C90.** The recursion documented for higher orders, `I_{n+1}(x) = I_{n-1}(x) - (2n/x) I_n(x)`. -/
theorem C90_recursion (n : ℕ) (hn : 1 ≤ n) {x : ℝ} (hx : x ≠ 0) :
    I (n + 1) x = I (n - 1) x - 2 * n / x * I n x := by
  obtain ⟨m, rfl⟩ : ∃ m, n = m + 1 := ⟨n - 1, by omega⟩
  rw [Nat.add_sub_cancel]
  have hs0 := term_summable m x
  have hs1 := (term_summable (m + 1) x).mul_left (2 * ((m + 1 : ℕ) : ℝ) / x)
  have key : ∀ k, term m x (k + 1) - 2 * ((m + 1 : ℕ) : ℝ) / x * term (m + 1) x (k + 1) = term (m + 1 + 1) x k := by
    intro k
    rw [term, term, term, show k + 1 + (m + 1) = (k + 1 + m) + 1 by ring, show k + (m + 1 + 1) = (k + 1 + m) + 1 by ring,
      Nat.factorial_succ k, Nat.factorial_succ (k + 1 + m), show 2 * (k + 1) + (m + 1) = 2 * (k + 1) + m + 1 by ring,
      show 2 * k + (m + 1 + 1) = 2 * (k + 1) + m by ring, pow_succ (x / 2) (2 * (k + 1) + m)]
    have h1 : ((k.factorial : ℕ) : ℝ) ≠ 0 := by exact_mod_cast k.factorial_ne_zero
    have h2 : (((k + 1 + m).factorial : ℕ) : ℝ) ≠ 0 := by exact_mod_cast (k + 1 + m).factorial_ne_zero
    have h3 : (k + 1 : ℝ) ≠ 0 := by positivity
    have h4 : (k + 1 + m + 1 : ℝ) ≠ 0 := by positivity
    push_cast
    field_simp
    ring
  have hz : term m x 0 - 2 * ((m + 1 : ℕ) : ℝ) / x * term (m + 1) x 0 = 0 := by
    have h1 : ((m.factorial : ℕ) : ℝ) ≠ 0 := by exact_mod_cast m.factorial_ne_zero
    have h3 : (m + 1 : ℝ) ≠ 0 := by positivity
    rw [term_zero, term_zero, Nat.factorial_succ, pow_succ]
    push_cast
    field_simp
    ring
  have hd := (hs0.sub hs1).tsum_eq_zero_add
  rw [hz, zero_add, hs0.tsum_sub hs1, tsum_mul_left] at hd
  rw [I, I, I]
  push_cast at hd ⊢
  rw [hd]
  refine tsum_congr fun k => ?_
  rw [← key k]
  push_cast
  rfl

theorem eps_pos : 0 < eps := by rw [eps]; positivity

theorem series_rel {n : ℕ} (hn : n ≤ 1) {x : ℝ} (h0 : 0 ≤ x) (hx : x < 21) :
    |I n x - besselISeries n x| ≤ 2 * eps * besselISeries n x := by
  obtain ⟨N, h1, h2, h3, h4⟩ := series_eq hn x
  rw [h3]
  refine series_close h0 h2 ?_
  rcases h4 with h4 | h4
  · exact Or.inr ⟨h4, hx⟩
  · exact Or.inl h4

theorem series_rel' {n : ℕ} (hn : n ≤ 1) {x : ℝ} (h0 : 0 ≤ x) (hx : x < 21) :
    |I n x - besselISeries n x| ≤ 1 / 10 ^ 15 * I n x := by
  have h := series_rel hn h0 hx
  have h1 := abs_le.1 h
  have hs : 0 ≤ besselISeries n x := by
    obtain ⟨N, -, -, h3, -⟩ := series_eq hn x
    rw [h3]; exact sum_nonneg fun k _ => term_nonneg h0 n k
  have h6 : 2 * eps ≤ 1 / 10 ^ 15 * (1 - 2 * eps) := by rw [eps]; norm_num
  have h7 : (1 - 2 * eps) * besselISeries n x ≤ I n x := by linarith
  nlinarith

/-- **C90.** `BesselI0` is the Bessel function up to the documented relative error `10⁻¹⁵`, for every argument. -/
theorem C90_I0 (x : ℝ) : |I 0 x - besselI0 x| ≤ 1 / 10 ^ 15 * I 0 x := by
  have hx : I 0 x = I 0 |x| := by
    rcases abs_choice x with h | h <;> rw [h]
    rw [I_neg, pow_zero, one_mul]
  rw [hx, besselI0]
  split_ifs with h
  · exact series_rel' (by norm_num) (abs_nonneg x) h
  · exact asymptotic_close (by norm_num) (not_lt.1 h)

/-- **C90.** `BesselI1` is the Bessel function up to the documented relative error `10⁻¹⁵`, for every argument. -/
theorem C90_I1 (x : ℝ) : |I 1 x - besselI1 x| ≤ 1 / 10 ^ 15 * |I 1 x| := by
  have main : ∀ y : ℝ, 0 ≤ y → |I 1 y - (if y < 21 then besselISeries 1 y else besselIAsymptotic 1 y)|
      ≤ 1 / 10 ^ 15 * |I 1 y| := by
    intro y hy
    rw [abs_of_nonneg (I_nonneg hy 1)]
    split_ifs with h
    · exact series_rel' le_rfl hy h
    · exact asymptotic_close le_rfl (not_lt.1 h)
  have h := main |x| (abs_nonneg x)
  rw [besselI1]
  rcases lt_or_ge x 0 with hx | hx
  · have e : I 1 x = -I 1 |x| := by
      rw [abs_of_neg hx, I_neg]; ring
    rw [if_pos hx, e, abs_neg]
    refine le_trans (le_of_eq ?_) h
    rw [← abs_neg]
    congr 1
    split_ifs <;> ring
  · rw [if_neg (not_lt.2 hx), one_mul, one_mul]
    rw [abs_of_nonneg hx] at h ⊢
    exact h

/-- **C90.** Below 21 the error is at most two units in the last place of the sum. -/
theorem C90_small {x : ℝ} (hx : |x| < 21) :
    |I 0 x - besselI0 x| ≤ 2 * eps * besselI0 x ∧ |I 1 x - besselI1 x| ≤ 2 * eps * |besselI1 x| := by
  have h0 := series_rel (n := 0) (by norm_num) (abs_nonneg x) hx
  have h1 := series_rel (n := 1) le_rfl (abs_nonneg x) hx
  have hs : 0 ≤ besselISeries 1 |x| := by
    obtain ⟨N, -, -, h3, -⟩ := series_eq (n := 1) le_rfl |x|
    rw [h3]; exact sum_nonneg fun k _ => term_nonneg (abs_nonneg x) 1 k
  have hx0 : I 0 x = I 0 |x| := by
    rcases abs_choice x with h | h <;> rw [h]
    rw [I_neg, pow_zero, one_mul]
  refine ⟨?_, ?_⟩
  · rw [besselI0, if_pos hx, hx0]; exact h0
  · rw [besselI1, if_pos hx]
    rcases lt_or_ge x 0 with hn | hn
    · have e : I 1 x = -I 1 |x| := by
        rw [abs_of_neg hn, I_neg]; ring
      rw [if_pos hn, e, neg_one_mul, abs_neg, abs_of_nonneg hs]
      refine le_trans (le_of_eq ?_) h1
      rw [← abs_neg]
      congr 1
      ring
    · have e : I 1 x = I 1 |x| := by rw [abs_of_nonneg hn]
      rw [if_neg (not_lt.2 hn), e, one_mul, abs_of_nonneg hs]
      exact h1

/-- **C90.** Even and odd, with `BesselI1` zero at zero. -/
theorem C90_symmetry (x : ℝ) : besselI0 (-x) = besselI0 x ∧ besselI1 (-x) = -besselI1 x ∧ besselI1 0 = 0 := by
  have hz : besselI1 0 = 0 := by
    have h := C90_I1 0
    have hI : I 1 0 = 0 := by
      have := I_neg 1 0
      rw [neg_zero] at this
      linarith
    rw [hI, abs_zero, mul_zero, zero_sub, abs_neg] at h
    exact abs_eq_zero.1 (le_antisymm h (abs_nonneg _))
  refine ⟨by rw [besselI0, besselI0, abs_neg], ?_, hz⟩
  rcases lt_trichotomy x 0 with h | h | h
  · have h' : ¬ -x < 0 := by linarith
    rw [besselI1, besselI1, abs_neg]
    simp only [if_neg h', if_pos h]
    split_ifs <;> ring
  · rw [h, neg_zero, hz, neg_zero]
  · have h' : -x < 0 := by linarith
    have h2 : ¬ x < 0 := by linarith
    rw [besselI1, besselI1, abs_neg]
    simp only [if_pos h', if_neg h2]
    split_ifs <;> ring

/-- **C90.** `BesselI0` is at least 1 and does not decrease, between 0 and 21. -/
theorem C90_monotone {x y : ℝ} (h0 : 0 ≤ x) (hxy : x ≤ y) (hy : y < 21) :
    besselI0 x ≤ besselI0 y ∧ 1 ≤ besselI0 x := by
  rw [besselI0, besselI0, abs_of_nonneg h0, abs_of_nonneg (h0.trans hxy), if_pos hy, if_pos (by linarith)]
  exact ⟨(series_mono h0 hxy).1, (series_mono h0 le_rfl).2⟩

/-- **C90.** The `BesselI0` of the C resampler: accurate below 21, at least 1 and non-decreasing for every argument. -/
theorem C90_portable {x : ℝ} (h0 : 0 ≤ x) :
    (x < 21 → |I 0 x - Resampler.Kernel.besselI0 x| ≤ 2 * eps * Resampler.Kernel.besselI0 x) ∧
    1 ≤ Resampler.Kernel.besselI0 x ∧
    ∀ y, x ≤ y → Resampler.Kernel.besselI0 x ≤ Resampler.Kernel.besselI0 y := by
  refine ⟨fun hx => ?_, ?_, fun y hy => ?_⟩
  · rw [portable_I0]; exact series_rel (by norm_num) h0 hx
  · rw [portable_I0]; exact (series_mono h0 le_rfl).2
  · rw [portable_I0, portable_I0]; exact (series_mono h0 hy).1

/-- **C37 for the Bessel function of the code.** The Kaiser window with `BesselI0`, for every `beta` below 21. -/
theorem C37_kaiser_bessel (beta : ℝ) (hb : 0 ≤ beta) (hb1 : beta < 21) (r : ℝ) (hr : 0 < r) :
    WindowSpec.IsWindow r (1 / 10 ^ 12) (Windows.kaiser besselI0 beta r) ∧
    Windows.kaiser besselI0 beta r r = 1 / besselI0 beta ∧
    ∀ x, |x| ≤ r → Windows.kaiser besselI0 beta r x = besselI0 (beta * √(1 - (x / r) ^ 2)) / besselI0 beta := by
  have hser : ∀ z, 0 ≤ z → z < 21 → besselI0 z = besselISeries 0 z := fun z h0 h1 => by
    rw [besselI0, abs_of_nonneg h0, if_pos h1]
  have harg : ∀ y : ℝ, 0 ≤ beta * √(max 0 (1 - y * y)) ∧ beta * √(max 0 (1 - y * y)) ≤ beta := by
    intro y
    refine ⟨by positivity, mul_le_of_le_one_right hb ?_⟩
    exact Real.sqrt_le_iff.2 ⟨one_pos.le, by
      rw [one_pow]; exact max_le zero_le_one (by nlinarith [mul_self_nonneg y])⟩
  have heq : Windows.kaiser besselI0 beta r = Windows.kaiser (besselISeries 0) beta r := by
    ext x
    rw [Windows.kaiser, Windows.kaiser]
    split_ifs
    · rw [hser _ (harg _).1 (lt_of_le_of_lt (harg _).2 hb1), hser beta hb hb1]
    · rfl
  have h := Windows.C37_kaiser (besselISeries 0) (fun x hx => lt_of_lt_of_le one_pos (series_mono hx le_rfl).2)
    (fun x y hx hy => (series_mono hx hy).1) beta hb r hr
  rw [heq]
  refine ⟨h.1, ?_, fun x hx => ?_⟩
  · rw [h.2.1, hser beta hb hb1]
    congr 1
    have e : besselISeries 0 0 = besselI0 0 := (hser 0 le_rfl (by norm_num)).symm
    obtain ⟨N, h1, -, h3, -⟩ := series_eq (n := 0) (by norm_num) 0
    rw [h3, sum_eq_single 0]
    · rw [term_zero]; simp
    · intro k _ hk
      rw [term, zero_div, zero_pow (by omega), zero_div]
    · intro hn; exact absurd (mem_range.2 (by omega)) hn
  · rw [h.2.2 x hx, hser beta hb hb1, hser]
    · positivity
    · refine lt_of_le_of_lt (mul_le_of_le_one_right hb ?_) hb1
      exact Real.sqrt_le_iff.2 ⟨one_pos.le, by nlinarith [sq_nonneg (x / r)]⟩

/-- **C37.** The Kaiser window is within `3·10⁻¹⁵` of the ideal one, for every `beta`. -/
theorem C37_kaiser_accuracy (beta : ℝ) (r : ℝ) (hr : 0 < r) (x : ℝ) (hx : |x| ≤ r) :
    |Windows.kaiser besselI0 beta r x - I 0 (beta * √(1 - (x / r) ^ 2)) / I 0 beta|
      ≤ 3 / 10 ^ 15 * (I 0 (beta * √(1 - (x / r) ^ 2)) / I 0 beta) := by
  have h1 : |x / r| ≤ 1 := by rw [abs_div, abs_of_pos hr, div_le_one hr]; exact hx
  have e : Windows.kaiser besselI0 beta r x = besselI0 (beta * √(1 - (x / r) ^ 2)) / besselI0 beta := by
    rw [Windows.kaiser]
    rw [if_pos (lt_of_le_of_lt h1 (by norm_num)), abs_mul_abs_self, ← sq, max_eq_right]
    have := (sq_le_one_iff_abs_le_one (x / r)).2 h1
    linarith
  rw [e]
  have ha := abs_le.1 (C90_I0 (beta * √(1 - (x / r) ^ 2)))
  have hb := abs_le.1 (C90_I0 beta)
  have ha1 := I0_ge_one (beta * √(1 - (x / r) ^ 2))
  have hb1 := I0_ge_one beta
  generalize I 0 (beta * √(1 - (x / r) ^ 2)) = A at *
  generalize besselI0 (beta * √(1 - (x / r) ^ 2)) = A' at *
  generalize I 0 beta = B at *
  generalize besselI0 beta = B' at *
  have hB' : 0 < B' := by nlinarith
  have hB : 0 < B := by linarith
  rw [div_sub_div _ _ hB'.ne' hB.ne', abs_div, abs_of_pos (mul_pos hB' hB), ← mul_div_assoc,
    div_le_div_iff₀ (mul_pos hB' hB) hB]
  have h2 : |A' * B - B' * A| ≤ 2 / 10 ^ 15 * (A * B) := by
    have h3 : A' * B - B' * A = (A' - A) * B + A * (B - B') := by ring
    rw [h3]
    refine (abs_add_le _ _).trans ?_
    rw [abs_mul, abs_mul, abs_of_pos hB, abs_of_pos (by linarith : 0 < A)]
    have h4 : |A' - A| ≤ 1 / 10 ^ 15 * A := abs_le.2 ⟨by linarith, by linarith⟩
    have h5 : |B - B'| ≤ 1 / 10 ^ 15 * B := abs_le.2 ⟨by linarith, by linarith⟩
    have h6 := mul_le_mul_of_nonneg_right h4 hB.le
    have h7 := mul_le_mul_of_nonneg_left h5 (by linarith : 0 ≤ A)
    linarith
  have h8 : 2 / 10 ^ 15 * B ≤ 3 / 10 ^ 15 * B' := by linarith
  have h9 : 0 < A * B := mul_pos (by linarith) hB
  nlinarith [mul_le_mul_of_nonneg_right h2 hB.le, mul_le_mul_of_nonneg_left h8 h9.le]

/-! ## The hypotheses are met -/

example : |I 0 6 - besselI0 6| ≤ 2 * eps * besselI0 6 ∧ |I 0 100 - besselI0 100| ≤ 1 / 10 ^ 15 * I 0 100 :=
  ⟨(C90_small (by norm_num)).1, C90_I0 100⟩

example : WindowSpec.IsWindow 5 (1 / 10 ^ 12) (Windows.kaiser besselI0 6 5) :=
  (C37_kaiser_bessel 6 (by norm_num) (by norm_num) 5 (by norm_num)).1

example : I 2 1 = I 0 1 - 2 * (1 : ℕ) / 1 * I 1 1 := C90_recursion 1 le_rfl one_ne_zero

end Verif.Bessel
