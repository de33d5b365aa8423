import Verif.Spec.EllipticDesign
import Verif.Proof.EllipticPoles
import Verif.Proof.Elliptic4
import Verif.Proof.Chebyshev2

/-! # The elliptic prototype with exact elliptic functions: poles, zeros and response -/

namespace Verif.Elliptic
open Verif.Elliptic.Spec Verif.PoleZero

variable {m k : ℝ} {N : ℕ}

theorem pn_K (h : Par m) : pn (K m) m = 0 := by rw [pn, cn_K h, zero_mul]

theorem sn_K_sub (h : Par m) (u : ℝ) : sn (K m - u) m = cn u m / dn u m := by
  have hd := dn_pos h u
  have hd2 := dn_sq h u
  rw [sub_eq_add_neg, sn_add h, pn_K h, sn_K h, sn_neg h, pn, cn_neg h, dn_neg h]
  rw [mul_zero, add_zero, one_mul, one_pow, mul_one, neg_sq, ← hd2]
  field_simp

theorem pn_K_sub (h : Par m) {u : ℝ} (h0 : 0 < u) (h1 : u < K m) : pn (K m - u) m = (1 - m) * sn u m / dn u m ^ 2 := by
  have hd := dn_pos h u
  have hs : 0 < sn u m := sn_pos h h0 (by linarith)
  have hm := h.2
  have hp : 0 < pn (K m - u) m :=
    mul_pos (cn_pos h (by rw [abs_of_pos] <;> linarith)) (dn_pos h _)
  have hq : 0 < (1 - m) * sn u m / dn u m ^ 2 := div_pos (mul_pos (by linarith) hs) (by positivity)
  have e := pn_sq h (K m - u)
  rw [sn_K_sub h, div_pow, cn_sq] at e
  have hd2 := dn_sq h u
  have e2 : pn (K m - u) m ^ 2 = ((1 - m) * sn u m / dn u m ^ 2) ^ 2 := by
    have a1 : 1 - (1 - sn u m ^ 2) / dn u m ^ 2 = (1 - m) * sn u m ^ 2 / dn u m ^ 2 := by
      field_simp
      linear_combination hd2
    have a2 : 1 - m * ((1 - sn u m ^ 2) / dn u m ^ 2) = (1 - m) / dn u m ^ 2 := by
      field_simp
      linear_combination hd2
    rw [e, a1, a2]
    field_simp
  exact (pow_left_inj₀ hp.le hq.le two_ne_zero).1 e2

theorem mul_parts {A B D E F G H : ℝ} (h1 : A * D = E * G - F * H) (h2 : B * D = E * H + F * G) :
    ((A : ℂ) + B * Complex.I) * D = ((E : ℂ) + F * Complex.I) * (G + H * Complex.I) := by
  apply Complex.ext
  · simp
    linear_combination h1
  · simp
    linear_combination h2

/-- `cd(u - iV) = sn(K - u + iV)`. -/
theorem Cd_eq (h : Par m) {u V : ℝ} (h0 : 0 < u) (h1 : u < K m) (hV : |V| < K (1 - m)) :
    Cn (vert u (-V)) m / Dn (vert u (-V)) m = Sn (vert (K m - u) V) m := by
  have hV' : |-V| < K (1 - m) := by rwa [abs_neg]
  have d1 := denom_pos h (x := u) hV'
  have d2 := denom_pos h (x := K m - u) hV
  have hd := dn_pos h u
  have hd1 := dn_pos h.compl V
  have hc1 := cn_pos h.compl hV
  have eD : Dn (vert u (-V)) m = ((dn u m * cn V (1 - m) * dn V (1 - m) : ℝ) + (m * sn u m * cn u m * sn V (1 - m) : ℝ) * Complex.I) /
      (denom (vert u (-V)) m : ℝ) := by
    apply Complex.ext
    · simp [Dn, vert, cn_neg h.compl, dn_neg h.compl]
    · simp [Dn, vert, sn_neg h.compl]
  have eC : Cn (vert u (-V)) m = ((cn u m * cn V (1 - m) : ℝ) + (sn u m * dn u m * sn V (1 - m) * dn V (1 - m) : ℝ) * Complex.I) /
      (denom (vert u (-V)) m : ℝ) := by
    apply Complex.ext
    · simp [Cn, vert, cn_neg h.compl]
    · simp [Cn, vert, sn_neg h.compl, dn_neg h.compl]
  have eS := Sn_eq_complex (K m - u) V m
  have hp := pn_K_sub h h0 h1
  rw [pn] at hp
  rw [hp, sn_K_sub h] at eS
  have ed2 : denom (vert (K m - u) V) m = cn V (1 - m) ^ 2 + m * (cn u m / dn u m) ^ 2 * sn V (1 - m) ^ 2 := by
    rw [← sn_K_sub h]; rfl
  have hne : (((dn u m * cn V (1 - m) * dn V (1 - m) : ℝ) + (m * sn u m * cn u m * sn V (1 - m) : ℝ) * Complex.I) : ℂ) ≠ 0 := by
    intro h0
    have := congrArg Complex.re h0
    simp at this
    rcases this with (h | h) | h <;> linarith
  rw [eC, eD, eS, div_div_div_cancel_right₀ (by exact_mod_cast d1.ne'), div_eq_div_iff hne (by exact_mod_cast d2.ne')]
  rw [ed2]
  have q1 := cn_sq u m
  have q2 := dn_sq h u
  have q3 := cn_sq V (1 - m)
  have q4 := dn_sq h.compl V
  generalize sn u m = s at *
  generalize cn u m = c at *
  generalize dn u m = d at *
  generalize sn V (1 - m) = s1 at *
  generalize cn V (1 - m) = c1 at *
  generalize dn V (1 - m) = e1 at *
  have key1 : c * c1 * (c1 ^ 2 + m * (c / d) ^ 2 * s1 ^ 2) =
      c / d * e1 * (d * c1 * e1) - (1 - m) * s / d ^ 2 * s1 * c1 * (m * s * c * s1) := by
    field_simp
    have hf : c1 ^ 2 * d ^ 2 + m * c ^ 2 * s1 ^ 2 = d ^ 2 * e1 ^ 2 - (1 - m) * m * s ^ 2 * s1 ^ 2 := by
      rw [q1, q2, q3, q4]; ring
    linear_combination c * hf
  have key2 : s * d * s1 * e1 * (c1 ^ 2 + m * (c / d) ^ 2 * s1 ^ 2) =
      c / d * e1 * (m * s * c * s1) + (1 - m) * s / d ^ 2 * s1 * c1 * (d * c1 * e1) := by
    field_simp
    have hf : c1 ^ 2 * d ^ 2 + m * c ^ 2 * s1 ^ 2 = m * c ^ 2 + (1 - m) * c1 ^ 2 := by
      rw [q1, q2, q3]; ring
    linear_combination (s * s1) * hf
  exact mul_parts key1 key2

theorem Cn_re_pos (h : Par m) {u V : ℝ} (hu : |u| < K m) (hV : |V| < K (1 - m)) : 0 < (Cn (vert u V) m).re :=
  div_pos (mul_pos (cn_pos h hu) (cn_pos h.compl hV)) (denom_pos h hV)

theorem Dn_re_pos (h : Par m) {u V : ℝ} (hV : |V| < K (1 - m)) : 0 < (Dn (vert u V) m).re :=
  div_pos (mul_pos (mul_pos (dn_pos h u) (cn_pos h.compl hV)) (dn_pos h.compl V)) (denom_pos h hV)

theorem Sn_neg_conj (h : Par m) (x V : ℝ) : Sn (vert (-x) V) m = -(starRingEnd ℂ) (Sn (vert x V) m) := by
  apply Complex.ext
  · simp [Sn, vert, denom, sn_neg h, neg_div]
  · simp [Sn, vert, denom, sn_neg h, cn_neg h, dn_neg h]

/-- Products over the zeros, folded. -/
theorem prod_fold {M : Type} [CommMonoid M] (f : ℕ → M) (N : ℕ) : ∏ j ∈ Finset.range N, f j =
    (if N % 2 = 1 then f (N / 2) else 1) * ∏ i ∈ Finset.range (N / 2), (f i * f (N - 1 - i)) := by
  rw [Finset.prod_mul_distrib]
  rcases Nat.mod_two_eq_zero_or_one N with h | h
  · obtain ⟨n, hn⟩ : ∃ n, N = n + n := ⟨N / 2, by omega⟩
    rw [if_neg (by omega), one_mul, show N / 2 = n by omega]
    have := Finset.prod_range_reflect (fun j => f (n + j)) n
    rw [hn, Finset.prod_range_add, ← this]
    congr 1
    apply Finset.prod_congr rfl
    intro j hj
    have := Finset.mem_range.1 hj
    congr 1
    omega
  · obtain ⟨n, hn⟩ : ∃ n, N = n + (n + 1) := ⟨N / 2, by omega⟩
    rw [if_pos h, show N / 2 = n by omega]
    have := Finset.prod_range_reflect (fun j => f (n + (j + 1))) n
    rw [hn, Finset.prod_range_add, Finset.prod_range_succ', ← this, add_zero]
    have e : ∏ j ∈ Finset.range n, f (n + (n - 1 - j + 1)) = ∏ i ∈ Finset.range n, f (n + (n + 1) - 1 - i) := by
      apply Finset.prod_congr rfl
      intro j hj
      have := Finset.mem_range.1 hj
      congr 1
      omega
    rw [e]
    rw [mul_comm (∏ i ∈ Finset.range n, f (n + (n + 1) - 1 - i)) (f n), mul_left_comm]

theorem amp_fold (h : Mod k) (hN : 1 ≤ N) :
    amp k N = (∏ i ∈ Finset.range (N / 2), sn ((2 * i + 1) * K (k ^ 2) / N) (k ^ 2)) ^ 2 := by
  have hN0 : (N : ℝ) ≠ 0 := by positivity
  rw [amp, prod_fold, ← Finset.prod_pow]
  have e : ∀ i ∈ Finset.range (N / 2), sn ((2 * (i : ℝ) + 1) * K (k ^ 2) / N) (k ^ 2) *
      sn ((2 * ((N - 1 - i : ℕ) : ℝ) + 1) * K (k ^ 2) / N) (k ^ 2) =
      sn ((2 * (i : ℝ) + 1) * K (k ^ 2) / N) (k ^ 2) ^ 2 := by
    intro i hi
    have hi := Finset.mem_range.1 hi
    have : ((N - 1 - i : ℕ) : ℝ) = N - 1 - i := by
      rw [Nat.cast_sub (by omega), Nat.cast_sub (by omega)]; simp
    rw [this, show (2 * ((N : ℝ) - 1 - i) + 1) * K (k ^ 2) / N = 2 * K (k ^ 2) - (2 * (i : ℝ) + 1) * K (k ^ 2) / N by
      field_simp; ring, sn_two_K_sub h.par]
    ring
  rw [Finset.prod_congr rfl e]
  split_ifs with ho
  · have : ((N / 2 : ℕ) : ℝ) = (N - 1) / 2 := by
      have : N = 2 * (N / 2) + 1 := by omega
      have := congrArg (fun n : ℕ => (n : ℝ)) this
      push_cast at this
      linarith
    rw [this, show (2 * (((N : ℝ) - 1) / 2) + 1) * K (k ^ 2) / N = K (k ^ 2) by field_simp; ring, sn_K h.par, one_mul]
  · rw [one_mul]


/-! ### The inverse of `sn` on the imaginary axis -/

theorem gd_deriv (h : Par m) (y : ℝ) : HasDerivAt (fun y => F (Real.arctan (Real.sinh y)) (1 - m))
    (1 / √(1 + m * Real.sinh y ^ 2)) y := by
  have h1 := F_deriv h.compl.1.le h.compl.2 (Real.arctan (Real.sinh y))
  have h2 := (Real.hasDerivAt_sinh y).arctan
  refine (h1.comp y h2).congr_deriv ?_
  have hc := Real.cosh_pos y
  have e : 1 + Real.sinh y ^ 2 = Real.cosh y ^ 2 := by rw [Real.cosh_sq]; ring
  rw [Real.sin_arctan, e, Real.sqrt_sq hc.le]
  have hs : 0 ≤ 1 + m * Real.sinh y ^ 2 := by have := h.1; positivity
  have e2 : 1 - (1 - m) * (Real.sinh y / Real.cosh y) ^ 2 = (1 + m * Real.sinh y ^ 2) / Real.cosh y ^ 2 := by
    field_simp
    rw [← e]; ring
  rw [e2, Real.sqrt_div hs, Real.sqrt_sq hc.le]
  have : 0 < √(1 + m * Real.sinh y ^ 2) := Real.sqrt_pos.2 (by have := h.1; positivity)
  field_simp

theorem integrand_imag (h : Par m) (y : ℝ) :
    integrand m ((y : ℂ) * Complex.I) = ((1 / √(1 + m * Real.sinh y ^ 2) : ℝ) : ℂ) := by
  have hs : 0 < 1 + m * Real.sinh y ^ 2 := by have := h.1; positivity
  have e : (1 - m * Complex.sin ((y : ℂ) * Complex.I) ^ 2 : ℂ) = ((√(1 + m * Real.sinh y ^ 2) ^ 2 : ℝ) : ℂ) := by
    rw [Real.sq_sqrt hs.le, Complex.sin_mul_I, mul_pow, Complex.I_sq]
    push_cast
    ring
  have e2 : (1 - m * Complex.sin ((y : ℂ) * Complex.I) ^ 2 : ℂ) ^ (1 / 2 : ℂ) = ((√(1 + m * Real.sinh y ^ 2) : ℝ) : ℂ) := by
    rw [e]
    apply csqrt_unique
    · push_cast; ring
    · exact_mod_cast Real.sqrt_pos.2 hs
  rw [integrand, e2]
  push_cast
  ring

theorem Fc_imag (h : Par m) (y : ℝ) :
    Fc ((y : ℂ) * Complex.I) m = ((F (Real.arctan (Real.sinh y)) (1 - m) : ℝ) : ℂ) * Complex.I := by
  have h1 : ∀ t ∈ Set.uIcc (0 : ℝ) 1, HasDerivAt
      (fun t : ℝ => ((F (Real.arctan (Real.sinh (t * y))) (1 - m) : ℝ) : ℂ) * Complex.I)
      ((y : ℂ) * Complex.I * integrand m ((t : ℂ) * ((y : ℂ) * Complex.I))) t := by
    intro t _
    have a := (gd_deriv h (t * y)).comp t ((hasDerivAt_id t).mul_const y)
    have b := (ofReal_deriv a).mul_const Complex.I
    refine b.congr_deriv ?_
    rw [← mul_assoc (t : ℂ), ← Complex.ofReal_mul, integrand_imag h]
    push_cast
    ring
  have hc : Continuous fun t : ℝ => (y : ℂ) * Complex.I * integrand m ((t : ℂ) * ((y : ℂ) * Complex.I)) := by
    have e : (fun t : ℝ => (y : ℂ) * Complex.I * integrand m ((t : ℂ) * ((y : ℂ) * Complex.I))) =
        fun t : ℝ => (y : ℂ) * Complex.I * ((1 / √(1 + m * Real.sinh (t * y) ^ 2) : ℝ) : ℂ) := by
      funext t
      rw [← mul_assoc (t : ℂ), ← Complex.ofReal_mul, integrand_imag h]
    rw [e]
    refine continuous_const.mul (Complex.continuous_ofReal.comp ?_)
    refine continuous_const.div ?_ fun t => ?_
    · exact (continuous_const.add (continuous_const.mul ((Real.continuous_sinh.comp
        (continuous_id.mul continuous_const)).pow 2))).sqrt
    · exact (Real.sqrt_pos.2 (by have := h.1; positivity)).ne'
  rw [Fc, intervalIntegral.integral_eq_sub_of_hasDerivAt h1 (hc.intervalIntegrable _ _)]
  simp [F]

theorem casin_imag (x : ℝ) : casin ⟨0, x⟩ = (Real.arsinh x : ℂ) * Complex.I := by
  have hs : 0 < 1 + x ^ 2 := by positivity
  have h1 : (⟨0, x⟩ : ℂ) = x * Complex.I := by apply Complex.ext <;> simp
  have h2 : csqrt (1 - (x * Complex.I) ^ 2) = ((√(1 + x ^ 2) : ℝ) : ℂ) := by
    apply csqrt_unique
    · rw [← Complex.ofReal_pow, Real.sq_sqrt hs.le, mul_pow, Complex.I_sq]
      push_cast
      ring
    · exact_mod_cast Real.sqrt_pos.2 hs
  rw [casin, h1, h2]
  have h3 : Complex.I * (x * Complex.I) + ((√(1 + x ^ 2) : ℝ) : ℂ) = ((-x + √(1 + (-x) ^ 2) : ℝ) : ℂ) := by
    push_cast
    rw [neg_sq]
    linear_combination (x : ℂ) * Complex.I_sq
  have h4 : 0 < -x + √(1 + (-x) ^ 2) := by
    rw [← Real.exp_arsinh]
    exact Real.exp_pos _
  rw [h3, ← Complex.ofReal_log h4.le]
  have h5 : Real.log (-x + √(1 + (-x) ^ 2)) = -Real.arsinh x := by rw [← Real.arsinh_neg]; rfl
  rw [h5]
  push_cast
  ring

end Verif.Elliptic
