import Verif.Proof.Elliptic2
import Verif.Theorems.PortableComplex
import Mathlib.Analysis.SpecialFunctions.Trigonometric.Complex

/-! # Lemmas for C88 and C89: the two implementations, over any square root and arcsine with the principal properties -/

namespace Verif.Elliptic
open Verif.Elliptic.Spec Verif.PoleZero Verif.PortableComplex

/-- What is used of the library functions. -/
structure Prims (sq as : ℂ → ℂ) : Prop where
  sq_sq : ∀ z, sq z ^ 2 = z
  sq_re : ∀ z, 0 ≤ (sq z).re
  sin_as : ∀ z, Complex.sin (as z) = z
  as_re : ∀ z, |(as z).re| ≤ Real.pi / 2

noncomputable def gLoop (sq : ℂ → ℂ) : List ℝ → ℂ → ℂ
  | k :: k1 :: rest, w => gLoop sq (k1 :: rest) (w * (2 / ((1 + k1) * (1 + sq (1 - (k * w) ^ 2)))))
  | [_], w => w
  | [], w => w

noncomputable def gF (sq as : ℂ → ℂ) (phi : ℂ) (m : ℝ) : ℂ :=
  if ‖phi‖ < 1 / 10 ^ 3 then phi * (1 + phi ^ 2 * ((m / 6 : ℝ) : ℂ))
  else as (gLoop sq (landenSequence m) (Complex.sin phi)) * ((2 / Real.pi * kFromLanden (landenSequence m) : ℝ) : ℂ)

noncomputable def gUp (l : List ℝ) (w : ℂ) : ℂ := l.foldr (fun k w => w * ((1 + k) / (1 + k * w ^ 2))) w

noncomputable def gA (as : ℂ → ℂ) (u : ℂ) (m : ℝ) : ℂ :=
  as (gUp (landenLoop 9 √m) (Complex.sin (u * ((Real.pi / 2 / kFromLanden (landenSequence m) : ℝ) : ℂ))))

/-! ## C++ -/

theorem csqrt_sq (z : ℂ) : csqrt z ^ 2 = z := by
  have := Complex.cpow_nat_inv_pow z (n := 2) (by norm_num)
  rw [csqrt]
  simpa using this

theorem csqrt_re (z : ℂ) : 0 ≤ (csqrt z).re := by
  rw [csqrt]
  by_cases hz : z = 0
  · subst hz; simp
  · rw [Complex.cpow_def_of_ne_zero hz, Complex.exp_re]
    refine mul_nonneg (Real.exp_pos _).le (Real.cos_nonneg_of_mem_Icc ?_)
    have h := Complex.arg_mem_Ioc z
    have e : (Complex.log z * (1 / 2)).im = Complex.arg z / 2 := by
      rw [← Complex.log_im, show (1 / 2 : ℂ) = ((1 / 2 : ℝ) : ℂ) by push_cast; rfl, Complex.im_mul_ofReal]
      ring
    rw [e]
    constructor <;> linarith [h.1, h.2]

theorem casin_sin (z : ℂ) : Complex.sin (casin z) = z ∧ Complex.cos (casin z) = csqrt (1 - z ^ 2) := by
  have h := csqrt_sq (1 - z ^ 2)
  have h2 : csqrt (1 - z ^ 2) ^ 2 = (Complex.I * z) ^ 2 + 1 := by rw [h, mul_pow, Complex.I_sq]; ring
  obtain ⟨a, b⟩ := log_sinh h2
  rw [casin, neg_mul, Complex.sin_neg, Complex.cos_neg, mul_comm Complex.I (Complex.log _)]
  have e1 : Complex.sin (Complex.log (Complex.I * z + csqrt (1 - z ^ 2)) * Complex.I) = Complex.I * z * Complex.I := by
    rw [Complex.sin_mul_I, a]
  have e2 : Complex.cos (Complex.log (Complex.I * z + csqrt (1 - z ^ 2)) * Complex.I) = csqrt (1 - z ^ 2) := by
    rw [Complex.cos_mul_I, b]
  rw [e1, e2]
  refine ⟨?_, rfl⟩
  linear_combination (-z) * Complex.I_sq

theorem casin_re (z : ℂ) : |(casin z).re| ≤ Real.pi / 2 := by
  have h1 := (casin_sin z).2
  have h2 := csqrt_re (1 - z ^ 2)
  have e : (casin z).re = Complex.arg (Complex.I * z + csqrt (1 - z ^ 2)) := by
    rw [casin, ← Complex.log_im]
    simp
  have harg := Complex.arg_mem_Ioc (Complex.I * z + csqrt (1 - z ^ 2))
  rw [← e] at harg
  rw [← h1, show casin z = ⟨(casin z).re, (casin z).im⟩ from rfl, cos_parts] at h2
  have h3 : 0 ≤ Real.cos (casin z).re := nonneg_of_mul_nonneg_left h2 (Real.cosh_pos _)
  by_contra hc
  push Not at hc
  have h4 : Real.cos |(casin z).re| < 0 := by
    refine Real.cos_neg_of_pi_div_two_lt_of_lt hc ?_
    have : |(casin z).re| ≤ Real.pi := abs_le.2 ⟨harg.1.le, harg.2⟩
    linarith [Real.pi_pos]
  rw [Real.cos_abs] at h4
  linarith

theorem prims_cpp : Prims csqrt casin := ⟨csqrt_sq, csqrt_re, fun z => (casin_sin z).1, casin_re⟩

theorem fLoop_gLoop (l : List ℝ) (w : ℂ) : fLoop l w = gLoop csqrt l w := by
  induction l generalizing w with
  | nil => rfl
  | cons k l ih =>
    cases l with
    | nil => rfl
    | cons k1 l => rw [fLoop, gLoop, ih]

theorem ellipticF_g (phi : ℂ) (m : ℝ) : ellipticF phi m = gF csqrt casin phi m := by
  rw [ellipticF, gF]
  split_ifs
  · rfl
  · dsimp only
    rw [fLoop_gLoop]
    push_cast
    ring

theorem jacobi_g (u : ℂ) (m : ℝ) : jacobiAmplitude u m = gA casin u m := by
  rw [jacobiAmplitude, gA]
  rw [show ((Real.pi / 2 : ℝ) : ℂ) * u / ((kFromLanden (landenSequence m) : ℝ) : ℂ)
    = u * ((Real.pi / 2 / kFromLanden (landenSequence m) : ℝ) : ℂ) by push_cast; ring]
  rfl

/-! ## C -/

noncomputable def sqC (z : ℂ) : ℂ := (sqrt ⟨z.re, z.im⟩).val
noncomputable def asC (z : ℂ) : ℂ := (asin ⟨z.re, z.im⟩).val

theorem prims_c : Prims sqC asC := by
  refine ⟨fun z => (C49_sqrt ⟨z.re, z.im⟩).1, fun z => ?_, fun z => (C49_asin ⟨z.re, z.im⟩).1,
    fun z => (C49_asin ⟨z.re, z.im⟩).2⟩
  rcases (C49_sqrt ⟨z.re, z.im⟩).2.1 with h | h
  · exact h.le
  · exact h.1.ge

theorem sqrt_val (z : CD) : (sqrt z).val = sqC z.val := rfl
theorem asin_val (z : CD) : (asin z).val = asC z.val := rfl
theorem one_val : (⟨1, 0⟩ : CD).val = 1 := rfl

theorem div_val (w z : CD) : (div w z).val = w.val / z.val := by
  by_cases hz : z.val = 0
  · have h1 : z.real = 0 := congrArg Complex.re hz
    have h2 : z.imag = 0 := congrArg Complex.im hz
    rw [hz, div_zero]
    apply Complex.ext
    · simp [CD.val, div, h1, h2, frexp, ldexp]
    · simp [CD.val, div, h1, h2, frexp, ldexp]
  · exact div_eq hz

theorem portable_loop (l : List ℝ) (w : CD) : (PortableElliptic.fLoop l w).val = gLoop sqC l w.val := by
  induction l generalizing w with
  | nil => rfl
  | cons k l ih =>
    cases l with
    | nil => rfl
    | cons k1 l =>
      rw [PortableElliptic.fLoop, gLoop, ih, div_val, (C49_ring ⟨0, 0⟩ _ _).2.2.2.2.2.1, (C49_ring _ _ 0).2.2.1, sqrt_val,
        (C49_ring _ _ 0).2.2.2.1, (C49_ring ⟨0, 0⟩ _ 0).2.2.2.2.2.2.1, (C49_ring ⟨0, 0⟩ w k).2.2.2.2.2.1, one_val]
      congr 1
      rw [mul_comm w.val (k : ℂ), div_eq_mul_inv, div_eq_mul_inv, mul_inv, mul_inv]
      congr 1
      push_cast
      rw [show (0.5 : ℂ) = 2⁻¹ by norm_num, mul_inv, inv_inv]
      ring

theorem portable_F (phi : CD) (m : ℝ) : (PortableElliptic.ellipticF phi m).val = gF sqC asC phi.val m := by
  have hc : abs2 phi < 1 / 10 ^ 6 ↔ ‖phi.val‖ < 1 / 10 ^ 3 := by
    rw [(C49_ring ⟨0, 0⟩ phi 0).2.2.2.2.2.2.2, show (1 / 10 ^ 6 : ℝ) = (1 / 10 ^ 3) ^ 2 by norm_num]
    exact pow_lt_pow_iff_left₀ (norm_nonneg _) (by norm_num) (by norm_num)
  rw [PortableElliptic.ellipticF, gF]
  by_cases h : abs2 phi < 1 / 10 ^ 6
  · rw [if_pos h, if_pos (hc.1 h), (C49_ring _ _ 0).2.2.2.2.1, (C49_ring _ _ 0).2.2.1,
      (C49_ring ⟨0, 0⟩ _ _).2.2.2.2.2.1, (C49_ring ⟨0, 0⟩ _ 0).2.2.2.2.2.2.1, one_val]
  · rw [if_neg h, if_neg (fun g => h (hc.2 g))]
    dsimp only
    rw [(C49_ring ⟨0, 0⟩ _ _).2.2.2.2.2.1, asin_val, portable_loop, (C49_exp_log_trig phi).2.2.2.2.2.2]

theorem portable_up (l : List ℝ) (w : CD) :
    (l.foldr (fun k w => mulReal (div w (add ⟨1, 0⟩ (mulReal (square w) k))) (1 + k)) w).val = gUp l w.val := by
  induction l with
  | nil => rfl
  | cons k l ih =>
    rw [List.foldr_cons, (C49_ring ⟨0, 0⟩ _ _).2.2.2.2.2.1, div_val, (C49_ring _ _ 0).2.2.1,
      (C49_ring ⟨0, 0⟩ _ _).2.2.2.2.2.1, (C49_ring ⟨0, 0⟩ _ 0).2.2.2.2.2.2.1, one_val, ih]
    have : gUp (k :: l) w.val = gUp l w.val * ((1 + k) / (1 + k * gUp l w.val ^ 2)) := rfl
    rw [this]
    push_cast
    ring

theorem portable_A (u : CD) (m : ℝ) : (PortableElliptic.jacobiAmplitude u m).val = gA asC u.val m := by
  rw [PortableElliptic.jacobiAmplitude, gA]
  rw [asin_val, portable_up, (C49_exp_log_trig _).2.2.2.2.2.2, (C49_ring ⟨0, 0⟩ _ _).2.2.2.2.2.1]
  rfl

/-! ## Consequences of the principal properties -/

variable {sq as : ℂ → ℂ}

theorem Prims.sqrt_real (hp : Prims sq as) {r : ℝ} (hr : 0 ≤ r) : sq (r : ℂ) = ((√r : ℝ) : ℂ) := by
  have h1 := hp.sq_sq r
  have h2 := hp.sq_re r
  have h3 : ((√r : ℝ) : ℂ) ^ 2 = r := by rw [← Complex.ofReal_pow, Real.sq_sqrt hr]
  rcases sq_eq_sq_iff_eq_or_eq_neg.1 (h1.trans h3.symm) with h | h
  · exact h
  · have h4 : 0 ≤ -√r := by
      have := h2
      rw [h] at this
      simpa using this
    have h5 : √r = 0 := le_antisymm (by linarith) (Real.sqrt_nonneg r)
    rw [h, h5]
    simp

theorem Prims.as_real (hp : Prims sq as) {s : ℝ} (hs : s ^ 2 ≤ 1) : as (s : ℂ) = ((Real.arcsin s : ℝ) : ℂ) := by
  have h1 := hp.sin_as s
  have h2 := hp.as_re s
  obtain ⟨a, b, e⟩ : ∃ a b, as (s : ℂ) = ⟨a, b⟩ := ⟨_, _, rfl⟩
  rw [e, sin_parts] at h1
  rw [e] at h2 ⊢
  have e1 : Real.sin a * Real.cosh b = s := congrArg Complex.re h1
  have e2 : Real.cos a * Real.sinh b = 0 := congrArg Complex.im h1
  have hb : b = 0 := by
    rcases mul_eq_zero.1 e2 with h | h
    · have h3 : Real.sin a ^ 2 = 1 := by have := Real.sin_sq_add_cos_sq a; rw [h] at this; linarith
      have h4 : Real.cosh b ^ 2 ≤ 1 := by
        have : s ^ 2 = Real.cosh b ^ 2 := by rw [← e1, mul_pow, h3, one_mul]
        rwa [← this]
      have h5 := Real.cosh_sq b
      have h6 : Real.sinh b = 0 := by
        have : Real.sinh b ^ 2 = 0 := le_antisymm (by linarith) (sq_nonneg _)
        exact pow_eq_zero_iff (by norm_num) |>.1 this
      exact Real.sinh_eq_zero.1 h6
    · exact Real.sinh_eq_zero.1 h
  rw [hb, Real.cosh_zero, mul_one] at e1
  rw [hb, ← e1, Real.arcsin_sin (by linarith [abs_le.1 h2]) (abs_le.1 h2).2]
  rfl

theorem Prims.as_sin (hp : Prims sq as) {φ : ℂ} (h : |φ.re| < Real.pi / 2) : as (Complex.sin φ) = φ := by
  have h1 := hp.sin_as (Complex.sin φ)
  have h2 := hp.as_re (Complex.sin φ)
  obtain ⟨n, hn⟩ := Complex.sin_eq_sin_iff.1 h1
  generalize as (Complex.sin φ) = v at *
  have hpi := Real.pi_pos
  rw [abs_lt] at h
  rw [abs_le] at h2
  rcases hn with hn | hn
  · have e : φ.re = 2 * n * Real.pi + v.re := by
      have := congrArg Complex.re hn
      simpa using this
    have : n = 0 := by
      have a : (n : ℝ) < 1 := by nlinarith
      have b : (-1 : ℝ) < n := by nlinarith
      have a' : n < 1 := by exact_mod_cast a
      have b' : -1 < n := by exact_mod_cast b
      omega
    rw [hn, this]; simp
  · exfalso
    have e : φ.re = (2 * n + 1) * Real.pi - v.re := by
      have := congrArg Complex.re hn
      simpa using this
    have a : (2 * n + 1 : ℝ) < 1 := by nlinarith
    have b : (-1 : ℝ) < 2 * n + 1 := by nlinarith
    have a' : 2 * n + 1 < 1 := by exact_mod_cast a
    have b' : -1 < 2 * n + 1 := by exact_mod_cast b
    omega

end Verif.Elliptic
