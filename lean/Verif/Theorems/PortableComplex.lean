import Verif.Proof.PortableComplex
import Mathlib.Analysis.SpecialFunctions.Trigonometric.Complex
import Mathlib.Analysis.SpecialFunctions.Trigonometric.DerivHyp

/-!
# C49: the portable complex arithmetic

`z.val : ℂ` is the number with real part `z.real` and imaginary part `z.imag`. Statements compare with
Mathlib's complex numbers; rounding and signed zeros are not modelled.
-/

namespace Verif.PortableComplex
open Real (pi)

/-- **C49.** The algebraic operations. -/
theorem C49_ring (w z : CD) (x : ℝ) :
    (conj z).val = (starRingEnd ℂ) z.val ∧ (neg z).val = -z.val ∧
    (add w z).val = w.val + z.val ∧ (sub w z).val = w.val - z.val ∧
    (mul w z).val = w.val * z.val ∧ (mulReal z x).val = z.val * x ∧
    (square z).val = z.val ^ 2 ∧ abs2 z = ‖z.val‖ ^ 2 := by
  refine ⟨rfl, rfl, rfl, rfl, rfl, ?_, ?_, ?_⟩
  · apply Complex.ext <;> simp [CD.val, mulReal]
  · rw [pow_two]
    apply Complex.ext
    · rfl
    · simp [CD.val, square]; ring
  · rw [norm_sq, abs2]; ring

/-- **C49.** Division by every nonzero number, and magnitude; the scaled component that is squared is
at least 1/2 and less than 1 in magnitude (or zero), so the scaling prevents overflow and underflow of
its square. -/
theorem C49_div_abs (w z : CD) :
    (z.val ≠ 0 → (div w z).val = w.val / z.val) ∧ abs z = ‖z.val‖ ∧
    ∀ x : ℝ, x ≠ 0 → 1 / 2 ≤ |(frexp x).1| ∧ |(frexp x).1| < 1 :=
  ⟨div_eq, abs_eq z, fun _ => frexp_range⟩

/-- **C49.** The square root is the principal one, for every argument: its square is the argument,
and it lies in the right half plane or on the nonnegative imaginary axis; no other number does both,
so this is the whole specification. -/
theorem C49_sqrt (z : CD) :
    (sqrt z).val ^ 2 = z.val ∧ (0 < (sqrt z).real ∨ (sqrt z).real = 0 ∧ 0 ≤ (sqrt z).imag) ∧
    ∀ w : ℂ, w ^ 2 = z.val → (0 < w.re ∨ w.re = 0 ∧ 0 ≤ w.im) → w = (sqrt z).val := by
  obtain ⟨h1, h2⟩ := sqrt_spec z
  refine ⟨h1, h2, fun w hw hp => ?_⟩
  rw [← h1] at hw
  rcases sq_eq_sq_iff_eq_or_eq_neg.1 hw with h | h
  · exact h
  · have hre : w.re = -(sqrt z).real := by rw [h]; rfl
    have him : w.im = -(sqrt z).imag := by rw [h]; rfl
    rcases hp with hp | ⟨hp, hp'⟩ <;> rcases h2 with h2 | ⟨h2, h2'⟩
    · linarith
    · linarith
    · linarith
    · apply Complex.ext
      · rw [hp]; exact h2.symm
      · have : (sqrt z).imag = 0 := by linarith
        rw [him, this]
        show -0 = (sqrt z).imag
        rw [this, neg_zero]

/-- **C49.** Exponential, logarithm (principal branch), and the trigonometric and hyperbolic
functions. -/
theorem C49_exp_log_trig (z : CD) :
    (exp z).val = Complex.exp z.val ∧ arg z = Complex.arg z.val ∧
    (log z).val = Complex.log z.val ∧
    (cosh z).val = Complex.cosh z.val ∧ (sinh z).val = Complex.sinh z.val ∧
    (cos z).val = Complex.cos z.val ∧ (sin z).val = Complex.sin z.val := by
  refine ⟨?_, rfl, log_val z, (cosh_parts _ _).symm, (sinh_parts _ _).symm, (cos_parts _ _).symm,
    (sin_parts _ _).symm⟩
  apply Complex.ext
  · rw [Complex.exp_re]; rfl
  · rw [Complex.exp_im]; rfl

theorem sq_sub (z : CD) : (⟨z.real * z.real - z.imag * z.imag - 1, 2 * z.real * z.imag⟩ : CD).val =
    z.val ^ 2 - 1 := by
  rw [pow_two]
  apply Complex.ext
  · simp [CD.val]
  · simp [CD.val]; ring

theorem sq_add (z : CD) : (⟨z.real * z.real - z.imag * z.imag + 1, 2 * z.real * z.imag⟩ : CD).val =
    z.val ^ 2 + 1 := by
  rw [pow_two]
  apply Complex.ext
  · simp [CD.val]
  · simp [CD.val]; ring

/-- Parts of the logarithm that `acosh` and `acos` adjust. -/
theorem acosh_log (z : CD) : ∃ a b : ℝ,
    log (add z (sqrt ⟨z.real * z.real - z.imag * z.imag - 1, 2 * z.real * z.imag⟩)) = ⟨a, b⟩ ∧
    Real.cosh a * Real.cos b = z.real ∧ Real.sinh a * Real.sin b = z.imag ∧ |b| ≤ pi := by
  obtain ⟨h1, -⟩ := sqrt_spec ⟨z.real * z.real - z.imag * z.imag - 1, 2 * z.real * z.imag⟩
  rw [sq_sub] at h1
  obtain ⟨h2, -⟩ := log_cosh h1
  rw [← add_val, ← log_val] at h2
  obtain ⟨L, hL⟩ : ∃ L, L = log (add z (sqrt ⟨z.real * z.real - z.imag * z.imag - 1,
    2 * z.real * z.imag⟩)) := ⟨_, rfl⟩
  rw [← hL] at h2 ⊢
  refine ⟨L.real, L.imag, rfl, ?_, ?_, ?_⟩
  · have := congrArg Complex.re h2
    rwa [CD.val, cosh_parts] at this
  · have := congrArg Complex.im h2
    rwa [CD.val, cosh_parts] at this
  · rw [hL]
    have := Complex.arg_mem_Ioc (add z (sqrt ⟨z.real * z.real - z.imag * z.imag - 1,
      2 * z.real * z.imag⟩)).val
    exact abs_le.2 ⟨this.1.le, this.2⟩

theorem asinh_log (z : CD) : ∃ a b : ℝ,
    log (add z (sqrt ⟨z.real * z.real - z.imag * z.imag + 1, 2 * z.real * z.imag⟩)) = ⟨a, b⟩ ∧
    Real.sinh a * Real.cos b = z.real ∧ Real.cosh a * Real.sin b = z.imag ∧ |b| ≤ pi ∧
    0 ≤ Real.cos b := by
  obtain ⟨h1, hp⟩ := sqrt_spec ⟨z.real * z.real - z.imag * z.imag + 1, 2 * z.real * z.imag⟩
  rw [sq_add] at h1
  obtain ⟨h2, h3⟩ := log_sinh h1
  rw [← add_val, ← log_val] at h2 h3
  obtain ⟨L, hL⟩ : ∃ L, L = log (add z (sqrt ⟨z.real * z.real - z.imag * z.imag + 1,
    2 * z.real * z.imag⟩)) := ⟨_, rfl⟩
  rw [← hL] at h2 h3 ⊢
  refine ⟨L.real, L.imag, rfl, ?_, ?_, ?_, ?_⟩
  · have := congrArg Complex.re h2
    rwa [CD.val, sinh_parts] at this
  · have := congrArg Complex.im h2
    rwa [CD.val, sinh_parts] at this
  · rw [hL]
    have := Complex.arg_mem_Ioc (add z (sqrt ⟨z.real * z.real - z.imag * z.imag + 1,
      2 * z.real * z.imag⟩)).val
    exact abs_le.2 ⟨this.1.le, this.2⟩
  · have := congrArg Complex.re h3
    rw [CD.val, cosh_parts] at this
    have h0 : 0 ≤ (sqrt ⟨z.real * z.real - z.imag * z.imag + 1, 2 * z.real * z.imag⟩).real := by
      rcases hp with h | h
      · exact h.le
      · exact h.1.ge
    have h4 : 0 ≤ Real.cosh L.real * Real.cos L.imag :=
      h0.trans_eq this.symm
    exact nonneg_of_mul_nonneg_right h4 (Real.cosh_pos _)

theorem sin_abs_nonneg {b : ℝ} (h : |b| ≤ pi) : 0 ≤ Real.sin |b| :=
  Real.sin_nonneg_of_nonneg_of_le_pi (abs_nonneg b) h

theorem abs_sin {b : ℝ} (h : |b| ≤ pi) : |Real.sin b| = Real.sin |b| := by
  rcases le_total 0 b with h0 | h0
  · rw [abs_of_nonneg h0] at *
    exact abs_of_nonneg (Real.sin_nonneg_of_nonneg_of_le_pi h0 h)
  · rw [abs_of_nonpos h0] at h
    rw [abs_of_nonpos h0, Real.sin_neg, abs_of_nonpos]
    exact Real.sin_nonpos_of_nonpos_of_neg_pi_le h0 (by linarith)

theorem abs_sinh (a : ℝ) : |Real.sinh a| = Real.sinh |a| := Real.abs_sinh a

/-- **C49.** `acosh` returns the principal value: `cosh` of it is the argument, its real part is
nonnegative, its imaginary part in `(-π, π]` (nonnegative if the real part is 0); no other number has
these properties. -/
theorem C49_acosh (z : CD) :
    Complex.cosh (acosh z).val = z.val ∧
    (0 < (acosh z).real ∨ (acosh z).real = 0 ∧ 0 ≤ (acosh z).imag) ∧
    -pi < (acosh z).imag ∧ (acosh z).imag ≤ pi ∧
    ∀ w : ℂ, Complex.cosh w = z.val → (0 < w.re ∨ w.re = 0 ∧ 0 ≤ w.im) → -pi < w.im → w.im ≤ pi →
      w = (acosh z).val := by
  obtain ⟨a, b, hL, h1, h2, hb⟩ := acosh_log z
  have hpi := Real.pi_pos
  have main : Complex.cosh (acosh z).val = z.val := by
    rw [acosh, hL]
    simp only [CD.val, cosh_parts, Real.cosh_abs]
    apply Complex.ext
    · simp only
      rw [← h1]
      unfold copySign
      split_ifs <;> simp [Real.cos_abs]
    · simp only
      have habs : Real.sinh |a| * Real.sin |b| = |z.imag| := by
        rw [← h2, abs_mul, abs_sin hb, abs_sinh]
      unfold copySign
      split_ifs with h
      · rw [Real.sin_neg, mul_neg, habs, abs_of_neg h, neg_neg]
      · rw [habs, abs_of_nonneg (not_lt.1 h)]
  have hre : (acosh z).real = |a| := by rw [acosh]; dsimp only; rw [hL]
  have him : (acosh z).imag = copySign b z.imag := by rw [acosh]; dsimp only; rw [hL]
  have p1 : 0 < (acosh z).real ∨ (acosh z).real = 0 ∧ 0 ≤ (acosh z).imag := by
    rw [hre, him]
    rcases (abs_nonneg a).eq_or_lt with h | h
    · right
      refine ⟨h.symm, ?_⟩
      have ha : a = 0 := abs_eq_zero.1 h.symm
      rw [ha, Real.sinh_zero, zero_mul] at h2
      unfold copySign
      rw [if_neg (by rw [← h2]; simp)]
      exact abs_nonneg b
    · exact Or.inl h
  have p2 : -pi < (acosh z).imag := by
    rw [him]
    unfold copySign
    split_ifs with h
    · rcases hb.eq_or_lt with e | e
      · have : Real.sin b = 0 := by
          have := abs_sin hb
          rw [e, Real.sin_pi] at this
          exact abs_eq_zero.1 this
        rw [this, mul_zero] at h2
        linarith
      · linarith
    · have := abs_nonneg b; linarith
  have p3 : (acosh z).imag ≤ pi := by
    rw [him]
    exact (le_abs_self _).trans (by rw [copySign_abs]; exact hb)
  refine ⟨main, p1, p2, p3, fun w hw q1 q2 q3 => ?_⟩
  rw [← main] at hw
  have e1 : ∀ u : ℂ, Complex.cosh u = Complex.cos (u * Complex.I) := fun u => by
    rw [Complex.cos_mul_I]
  rw [e1, e1, Complex.cos_eq_cos_iff] at hw
  obtain ⟨k, hk⟩ := hw
  have hI : ∀ u : ℂ, u = -(u * Complex.I) * Complex.I := fun u => by
    rw [neg_mul, mul_assoc, Complex.I_mul_I]; ring
  have vre : (acosh z).val.re = (acosh z).real := rfl
  have vim : (acosh z).val.im = (acosh z).imag := rfl
  rcases hk with hk | hk
  · have hr := congrArg Complex.re hk
    have hi := congrArg Complex.im hk
    simp at hr hi
    rw [vim] at hr
    rw [vre] at hi
    have : (k : ℝ) = 0 := by
      have h3 : (k : ℝ) < 1 := by nlinarith
      have h4 : (-1 : ℝ) < k := by nlinarith
      have h5 : k < 1 := by exact_mod_cast h3
      have h6 : -1 < k := by exact_mod_cast h4
      have : k = 0 := by omega
      rw [this]; simp
    rw [this] at hr
    apply Complex.ext
    · rw [vre]; linarith
    · rw [vim]; linarith
  · have hr := congrArg Complex.re hk
    have hi := congrArg Complex.im hk
    simp at hr hi
    rw [vim] at hr
    rw [vre] at hi
    have a1 : w.re = 0 ∧ (acosh z).real = 0 := by
      rcases q1 with q | q <;> rcases p1 with p | p
      · linarith
      · rw [p.1] at hi; exact ⟨by linarith, p.1⟩
      · rw [q.1] at hi; exact ⟨q.1, by linarith⟩
      · exact ⟨q.1, p.1⟩
    have q1' : 0 ≤ w.im := by
      rcases q1 with q | q
      · linarith
      · exact q.2
    have p1' : 0 ≤ (acosh z).imag := by
      rcases p1 with p | p
      · linarith [a1.2]
      · exact p.2
    have : (k : ℝ) = 0 ∨ (k : ℝ) = -1 := by
      have h3 : (k : ℝ) < 1 := by nlinarith
      have h4 : (-2 : ℝ) < k := by nlinarith
      have h5 : k < 1 := by exact_mod_cast h3
      have h6 : -2 < k := by exact_mod_cast h4
      have : k = 0 ∨ k = -1 := by omega
      rcases this with h | h
      · left; rw [h]; simp
      · right; rw [h]; simp
    apply Complex.ext
    · rw [vre, a1.1, a1.2]
    · rw [vim]
      rcases this with h | h <;> rw [h] at hr <;> linarith

/-- **C49.** `asinh` returns the principal value: `sinh` of it is the argument and its imaginary part
is in `[-π/2, π/2]`. -/
theorem C49_asinh (z : CD) :
    Complex.sinh (asinh z).val = z.val ∧ |(asinh z).imag| ≤ pi / 2 := by
  obtain ⟨a, b, hL, h1, h2, hb, hc⟩ := asinh_log z
  have hpi := Real.pi_pos
  rw [asinh]
  dsimp only
  rw [hL]
  refine ⟨?_, ?_⟩
  · simp only [CD.val, sinh_parts]
    have cc : ∀ x y : ℝ, Real.cos (copySign x y) = Real.cos x := by
      intro x y; unfold copySign; split_ifs <;> simp [Real.cos_abs]
    have cch : ∀ x y : ℝ, Real.cosh (copySign x y) = Real.cosh x := by
      intro x y; unfold copySign; split_ifs <;> simp [Real.cosh_abs]
    apply Complex.ext
    · simp only
      rw [cc]
      have habs : Real.sinh |a| * Real.cos b = |z.real| := by
        rw [← h1, abs_mul, abs_sinh, abs_of_nonneg hc]
      unfold copySign
      split_ifs with h
      · rw [Real.sinh_neg, neg_mul, habs, abs_of_neg h, neg_neg]
      · rw [habs, abs_of_nonneg (not_lt.1 h)]
    · simp only
      rw [cch]
      have habs : Real.cosh a * Real.sin |b| = |z.imag| := by
        rw [← h2, abs_mul, abs_sin hb, abs_of_pos (Real.cosh_pos a)]
      unfold copySign
      split_ifs with h
      · rw [Real.sin_neg, mul_neg, habs, abs_of_neg h, neg_neg]
      · rw [habs, abs_of_nonneg (not_lt.1 h)]
  · simp only
    rw [copySign_abs]
    by_contra hcon
    push Not at hcon
    have := Real.cos_neg_of_pi_div_two_lt_of_lt hcon (by linarith)
    rw [Real.cos_abs] at this
    linarith

/-- **C49.** `acos` returns the principal value: `cos` of it is the argument and its real part is in
`[0, π]`. -/
theorem C49_acos (z : CD) :
    Complex.cos (acos z).val = z.val ∧ 0 ≤ (acos z).real ∧ (acos z).real ≤ pi := by
  obtain ⟨a, b, hL, h1, h2, hb⟩ := acosh_log z
  rw [acos]
  dsimp only
  rw [hL]
  refine ⟨?_, abs_nonneg b, hb⟩
  simp only [CD.val, cos_parts, Real.cos_abs]
  have cch : ∀ x y : ℝ, Real.cosh (copySign x y) = Real.cosh x := by
    intro x y; unfold copySign; split_ifs <;> simp [Real.cosh_abs]
  apply Complex.ext
  · simp only
    rw [cch, ← h1, mul_comm]
  · simp only
    have habs : Real.sinh |a| * Real.sin |b| = |z.imag| := by
      rw [← h2, abs_mul, abs_sin hb, abs_sinh]
    unfold copySign
    split_ifs with h
    · rw [Real.sinh_neg]
      rw [abs_of_pos (show 0 < z.imag by linarith)] at habs
      linarith
    · rw [abs_of_nonpos (show z.imag ≤ 0 by linarith)] at habs
      linarith

/-- **C49.** `asin` returns the principal value: `sin` of it is the argument and its real part is in
`[-π/2, π/2]`. -/
theorem C49_asin (z : CD) :
    Complex.sin (asin z).val = z.val ∧ |(asin z).real| ≤ pi / 2 := by
  obtain ⟨h1, h2⟩ := C49_asinh ⟨-z.imag, z.real⟩
  refine ⟨?_, h2⟩
  rw [CD.val, sinh_parts] at h1
  have e1 := congrArg Complex.re h1
  have e2 := congrArg Complex.im h1
  simp only [CD.val] at e1 e2
  rw [asin]
  simp only [CD.val, sin_parts, Real.cosh_neg, Real.sinh_neg]
  apply Complex.ext
  · simp only; rw [mul_comm]; exact e2
  · simp only
    linarith

/-- **C49 (violation).** "We follow the conventional choice of branch cut as used in std::complex,
numpy": for an argument `x + 0i` those return on the cut `x > 1` the limit from above, with negative
imaginary part for `acos` and positive for `asin`. Here the imaginary parts on the cut have the
opposite signs, those of the limits from below: they jump when the imaginary part of the argument
goes from arbitrarily small positive values to zero. -/
theorem C49_branch_cut_violation (x : ℝ) (hx : 1 < x) :
    (0 < (acos ⟨x, 0⟩).imag ∧ ∀ y > 0, (acos ⟨x, y⟩).imag < 0) ∧
    ((asin ⟨x, 0⟩).imag < 0 ∧ ∀ y > 0, 0 < (asin ⟨x, y⟩).imag) := by
  have e1 : ∀ y, ∃ a b : ℝ, (acos ⟨x, y⟩).imag = copySign a (-y) ∧
      Real.cosh a * Real.cos b = x := by
    intro y
    obtain ⟨a, b, hL, h1, -⟩ := acosh_log ⟨x, y⟩
    refine ⟨a, b, ?_, h1⟩
    rw [acos]; dsimp only at hL ⊢; rw [hL]
  have e2 : ∀ y, ∃ a b : ℝ, (asin ⟨x, y⟩).imag = -copySign a (-y) ∧
      Real.cosh a * Real.sin b = x := by
    intro y
    obtain ⟨a, b, hL, -, h1, -⟩ := asinh_log ⟨-y, x⟩
    refine ⟨a, b, ?_, h1⟩
    rw [asin, asinh]; dsimp only at hL ⊢; rw [hL]
  have apos : ∀ a c : ℝ, Real.cosh a * c = x → |c| ≤ 1 → 0 < |a| := by
    intro a c h hc
    rw [abs_pos]
    rintro rfl
    rw [Real.cosh_zero, one_mul] at h
    have := (abs_le.1 hc).2
    linarith
  refine ⟨⟨?_, fun y hy => ?_⟩, ?_, fun y hy => ?_⟩
  · obtain ⟨a, b, h, h'⟩ := e1 0
    rw [h]; unfold copySign; rw [if_neg (by simp)]
    exact apos a _ h' (Real.abs_cos_le_one b)
  · obtain ⟨a, b, h, h'⟩ := e1 y
    rw [h]; unfold copySign; rw [if_pos (by linarith)]
    have := apos a _ h' (Real.abs_cos_le_one b)
    linarith
  · obtain ⟨a, b, h, h'⟩ := e2 0
    rw [h]; unfold copySign; rw [if_neg (by simp)]
    have := apos a _ h' (Real.abs_sin_le_one b)
    linarith
  · obtain ⟨a, b, h, h'⟩ := e2 y
    rw [h]; unfold copySign; rw [if_pos (by linarith)]
    have := apos a _ h' (Real.abs_sin_le_one b)
    linarith

/-- A concrete case: the square root of `-4` is `2i`, and `(1 + 2i) / (3 - 4i) = (-1 + 2i) / 5`. -/
example : sqrt ⟨-4, 0⟩ = ⟨0, 2⟩ ∧ div ⟨1, 2⟩ ⟨3, -4⟩ = ⟨-1 / 5, 2 / 5⟩ := by
  constructor
  · apply CD.val_inj
    have h := (C49_sqrt ⟨-4, 0⟩).2.2 ⟨0, 2⟩ (by
      rw [pow_two]; apply Complex.ext <;> simp [CD.val]; norm_num) (Or.inr ⟨rfl, by simp⟩)
    exact h.symm
  · apply CD.val_inj
    have hz : (⟨3, -4⟩ : CD).val ≠ 0 := fun h => by
      have := congrArg Complex.re h; simp [CD.val] at this
    rw [(C49_div_abs ⟨1, 2⟩ ⟨3, -4⟩).1 hz]
    rw [div_eq_iff hz]
    apply Complex.ext <;> simp [CD.val] <;> norm_num

end Verif.PortableComplex
