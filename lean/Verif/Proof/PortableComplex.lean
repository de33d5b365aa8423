import Verif.Model.PortableComplex
import Mathlib.Analysis.SpecialFunctions.Complex.Log
import Mathlib.Tactic.FieldSimp
import Mathlib.Tactic.Linarith
import Mathlib.Tactic.LinearCombination

namespace Verif.PortableComplex

/-- The complex number that a `ComplexDouble` stands for. -/
def CD.val (z : CD) : ℂ := ⟨z.real, z.imag⟩

theorem CD.val_inj {w z : CD} (h : w.val = z.val) : w = z := by
  have h1 := congrArg Complex.re h
  have h2 := congrArg Complex.im h
  exact CD.ext h1 h2

theorem frexp_spec (x : ℝ) : (frexp x).1 = x * 2 ^ (-(frexp x).2) ∧ x = (frexp x).1 * 2 ^ (frexp x).2 := by
  unfold frexp
  split_ifs with h
  · simp [h]
  · dsimp only
    rw [zpow_neg, ← div_eq_mul_inv]
    refine ⟨rfl, ?_⟩
    rw [div_mul_cancel₀]; positivity

theorem frexp_range {x : ℝ} (h : x ≠ 0) : 1 / 2 ≤ |(frexp x).1| ∧ |(frexp x).1| < 1 := by
  have hx : 0 < |x| := abs_pos.2 h
  have h1 := Int.zpow_log_le_self (b := 2) (r := |x|) (by norm_num) hx
  have h2 := Int.lt_zpow_succ_log_self (b := 2) (by norm_num) |x|
  push_cast at h1 h2
  have hp : (0 : ℝ) < 2 ^ (Int.log 2 |x| + 1) := by positivity
  unfold frexp
  rw [if_neg h]
  dsimp only
  rw [abs_div, abs_of_pos hp, div_lt_one hp, le_div_iff₀ hp]
  refine ⟨?_, h2⟩
  rw [zpow_add_one₀ (by norm_num)]
  linarith

theorem div_eq {w z : CD} (hz : z.val ≠ 0) : (div w z).val = w.val / z.val := by
  have hne : z.real ≠ 0 ∨ z.imag ≠ 0 := by
    by_contra h
    push Not at h
    exact hz (Complex.ext h.1 h.2)
  have hd : z.real * z.real + z.imag * z.imag ≠ 0 := by
    rcases hne with h | h
    · have : 0 < z.real * z.real := mul_self_pos.2 h
      have := mul_self_nonneg z.imag
      linarith
    · have : 0 < z.imag * z.imag := mul_self_pos.2 h
      have := mul_self_nonneg z.real
      linarith
  have key : ∀ e : ℤ, ∀ u v a b : ℝ, a = u * 2 ^ (-e) → b = v * 2 ^ (-e) →
      u * u + v * v ≠ 0 → ∀ p q : ℝ,
      (p * a + q * b) / (a * a + b * b) * 2 ^ (-e) = (p * u + q * v) / (u * u + v * v) := by
    intro e u v a b ha hb hne p q
    have hp : (2 : ℝ) ^ (-e) ≠ 0 := by positivity
    rw [ha, hb]
    generalize (2 : ℝ) ^ (-e) = t at hp
    rw [show u * t * (u * t) + v * t * (v * t) = (u * u + v * v) * (t * t) by ring]
    field_simp
  have hval : (div w z).real = (w.real * z.real + w.imag * z.imag) /
        (z.real * z.real + z.imag * z.imag) ∧
      (div w z).imag = (w.imag * z.real - w.real * z.imag) /
        (z.real * z.real + z.imag * z.imag) := by
    unfold div ldexp
    dsimp only
    split_ifs with h
    · dsimp only
      constructor
      · exact key _ _ _ _ _ (frexp_spec z.real).1 rfl hd _ _
      · have := key (frexp z.real).2 z.real z.imag _ _ (frexp_spec z.real).1 rfl hd w.imag (-w.real)
        simpa only [neg_mul, ← sub_eq_add_neg] using this
    · dsimp only
      constructor
      · exact key _ _ _ _ _ rfl (frexp_spec z.imag).1 hd _ _
      · have := key (frexp z.imag).2 z.real z.imag _ _ rfl (frexp_spec z.imag).1 hd w.imag (-w.real)
        simpa only [neg_mul, ← sub_eq_add_neg] using this
  apply Complex.ext
  · rw [Complex.div_re, Complex.normSq_apply]
    simp only [CD.val]
    rw [hval.1, add_div]
  · rw [Complex.div_im, Complex.normSq_apply]
    simp only [CD.val]
    rw [hval.2, sub_div]

theorem norm_val (z : CD) : ‖z.val‖ = √(z.real * z.real + z.imag * z.imag) := by
  rw [Complex.norm_def, Complex.normSq_apply]; rfl

theorem abs_eq (z : CD) : abs z = ‖z.val‖ := by
  rw [norm_val]
  have key : ∀ a b : ℝ, ldexp (√((frexp a).1 * (frexp a).1 + ldexp b (-(frexp a).2) *
      ldexp b (-(frexp a).2))) (frexp a).2 = √(a * a + b * b) := by
    intro a b
    have h := (frexp_spec a).1
    have hp : (0 : ℝ) < 2 ^ (-(frexp a).2) := by positivity
    rw [h]
    unfold ldexp
    rw [show a * 2 ^ (-(frexp a).2) * (a * 2 ^ (-(frexp a).2)) + b * 2 ^ (-(frexp a).2) *
      (b * 2 ^ (-(frexp a).2)) = (2 ^ (-(frexp a).2)) ^ 2 * (a * a + b * b) by ring,
      Real.sqrt_mul (by positivity), Real.sqrt_sq hp.le, mul_comm _ √_, mul_assoc, zpow_neg,
      inv_mul_cancel₀ (by positivity), mul_one]
  unfold abs
  dsimp only
  rw [key]
  split_ifs
  · rw [abs_mul_abs_self, abs_mul_abs_self, add_comm]
  · rw [abs_mul_abs_self, abs_mul_abs_self]

theorem norm_sq (z : CD) : ‖z.val‖ ^ 2 = z.real ^ 2 + z.imag ^ 2 := by
  rw [norm_val, Real.sq_sqrt (add_nonneg (mul_self_nonneg _) (mul_self_nonneg _))]; ring

theorem norm_ge_re (z : CD) : |z.real| ≤ ‖z.val‖ := Complex.abs_re_le_norm z.val

theorem sqrt_spec (z : CD) : (sqrt z).val ^ 2 = z.val ∧
    (0 < (sqrt z).real ∨ (sqrt z).real = 0 ∧ 0 ≤ (sqrt z).imag) := by
  have sq : ∀ a b : ℝ, (⟨a, b⟩ : ℂ) ^ 2 = ⟨a ^ 2 - b ^ 2, 2 * a * b⟩ := by
    intro a b
    rw [pow_two]
    apply Complex.ext
    · simp; ring
    · simp; ring
  unfold sqrt
  split_ifs with h0 h1 h2 h3
  · dsimp only [CD.val]
    have hq : √(|z.imag| / 2) ^ 2 = |z.imag| / 2 := Real.sq_sqrt (by positivity)
    have hn : 0 < |z.imag| / 2 := by have := abs_pos.2 h1.ne; linarith
    rw [sq, h0]
    refine ⟨Complex.ext (by simp) ?_, Or.inl (Real.sqrt_pos.2 hn)⟩
    simp only
    rw [abs_of_neg h1] at hq ⊢
    linarith
  · dsimp only [CD.val]
    have hq : √(|z.imag| / 2) ^ 2 = |z.imag| / 2 := Real.sq_sqrt (by positivity)
    rw [sq, h0]
    refine ⟨Complex.ext (by simp) ?_, ?_⟩
    · simp only
      rw [abs_of_nonneg (not_lt.1 h1)] at hq ⊢
      linarith
    · rcases (Real.sqrt_nonneg (|z.imag| / 2)).eq_or_lt with h | h
      · exact Or.inr ⟨h.symm, h.le⟩
      · exact Or.inl h
  all_goals
    rw [abs_eq]
    have hn := norm_sq z
    have hge := norm_ge_re z
    have hpos := abs_pos.2 h0
    have hq : √((‖z.val‖ + |z.real|) / 2) ^ 2 = (‖z.val‖ + |z.real|) / 2 :=
      Real.sq_sqrt (by linarith)
    have hq0 : 0 < √((‖z.val‖ + |z.real|) / 2) := Real.sqrt_pos.2 (by linarith)
    generalize √((‖z.val‖ + |z.real|) / 2) = q at hq hq0
    have hN := norm_nonneg z.val
    generalize ‖z.val‖ = N at hq hN hge hn
    dsimp only [CD.val]
    rw [sq]
  · rw [abs_of_pos h2] at hq hge
    refine ⟨Complex.ext ?_ ?_, Or.inl hq0⟩
    · simp only
      rw [div_pow, mul_pow, hq]
      have : N + z.real ≠ 0 := by linarith
      field_simp
      nlinarith
    · simp only; field_simp
  · have hx : z.real < 0 := lt_of_le_of_ne (not_lt.1 h2) h0
    rw [abs_of_neg hx] at hq hge
    refine ⟨Complex.ext ?_ ?_, Or.inl ?_⟩
    · simp only
      rw [div_pow, mul_pow, neg_sq, hq, sq_abs]
      have : N + -z.real ≠ 0 := by linarith
      field_simp
      nlinarith
    · simp only; rw [abs_of_neg h3]; field_simp
    · have := abs_pos.2 h3.ne; positivity
  · have hx : z.real < 0 := lt_of_le_of_ne (not_lt.1 h2) h0
    rw [abs_of_neg hx] at hq hge
    refine ⟨Complex.ext ?_ ?_, ?_⟩
    · simp only
      rw [div_pow, mul_pow, hq, sq_abs]
      have : N + -z.real ≠ 0 := by linarith
      field_simp
      nlinarith
    · simp only; rw [abs_of_nonneg (not_lt.1 h3)]; field_simp
    · rcases (abs_nonneg z.imag).eq_or_lt with h | h
      · right; refine ⟨by rw [← h]; simp, hq0.le⟩
      · left; positivity

theorem add_val (w z : CD) : (add w z).val = w.val + z.val := Complex.ext rfl rfl

theorem log_val (z : CD) : (log z).val = Complex.log z.val := by
  apply Complex.ext
  · rw [Complex.log_re, ← abs_eq]; rfl
  · rw [Complex.log_im]; rfl

theorem cosh_parts (a b : ℝ) : Complex.cosh ⟨a, b⟩ =
    ⟨Real.cosh a * Real.cos b, Real.sinh a * Real.sin b⟩ := by
  have h : (⟨a, b⟩ : ℂ) = a + b * Complex.I := Complex.mk_eq_add_mul_I a b
  rw [h, Complex.cosh_add, Complex.cosh_mul_I, Complex.sinh_mul_I, Complex.mk_eq_add_mul_I]
  push_cast; ring

theorem sinh_parts (a b : ℝ) : Complex.sinh ⟨a, b⟩ =
    ⟨Real.sinh a * Real.cos b, Real.cosh a * Real.sin b⟩ := by
  have h : (⟨a, b⟩ : ℂ) = a + b * Complex.I := Complex.mk_eq_add_mul_I a b
  rw [h, Complex.sinh_add, Complex.cosh_mul_I, Complex.sinh_mul_I, Complex.mk_eq_add_mul_I]
  push_cast; ring

theorem cos_parts (a b : ℝ) : Complex.cos ⟨a, b⟩ =
    ⟨Real.cos a * Real.cosh b, -Real.sin a * Real.sinh b⟩ := by
  have h : (⟨a, b⟩ : ℂ) = a + b * Complex.I := Complex.mk_eq_add_mul_I a b
  rw [h, Complex.cos_add, Complex.cos_mul_I, Complex.sin_mul_I, Complex.mk_eq_add_mul_I]
  push_cast; ring

theorem sin_parts (a b : ℝ) : Complex.sin ⟨a, b⟩ =
    ⟨Real.sin a * Real.cosh b, Real.cos a * Real.sinh b⟩ := by
  have h : (⟨a, b⟩ : ℂ) = a + b * Complex.I := Complex.mk_eq_add_mul_I a b
  rw [h, Complex.sin_add, Complex.cos_mul_I, Complex.sin_mul_I, Complex.mk_eq_add_mul_I]
  push_cast; ring

/-- The logarithm of `z + s` for `s² = z² - 1`. -/
theorem log_cosh {z s : ℂ} (h : s ^ 2 = z ^ 2 - 1) : Complex.cosh (Complex.log (z + s)) = z ∧
    Complex.sinh (Complex.log (z + s)) = s := by
  have h1 : (z + s) * (z - s) = 1 := by linear_combination -h
  have hne : z + s ≠ 0 := fun h0 => by rw [h0] at h1; simp at h1
  have h2 : Complex.exp (-Complex.log (z + s)) = z - s := by
    rw [Complex.exp_neg, Complex.exp_log hne]
    exact (eq_inv_of_mul_eq_one_right h1).symm
  rw [Complex.cosh, Complex.sinh, h2, Complex.exp_log hne]
  constructor <;> ring

/-- The logarithm of `z + s` for `s² = z² + 1`. -/
theorem log_sinh {z s : ℂ} (h : s ^ 2 = z ^ 2 + 1) : Complex.sinh (Complex.log (z + s)) = z ∧
    Complex.cosh (Complex.log (z + s)) = s := by
  have h1 : (z + s) * (s - z) = 1 := by linear_combination h
  have hne : z + s ≠ 0 := fun h0 => by rw [h0] at h1; simp at h1
  have h2 : Complex.exp (-Complex.log (z + s)) = s - z := by
    rw [Complex.exp_neg, Complex.exp_log hne]
    exact (eq_inv_of_mul_eq_one_right h1).symm
  rw [Complex.cosh, Complex.sinh, h2, Complex.exp_log hne]
  constructor <;> ring

theorem copySign_abs (x y : ℝ) : |copySign x y| = |x| := by
  unfold copySign; split_ifs <;> simp

end Verif.PortableComplex
