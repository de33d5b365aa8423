import Verif.Proof.Jacobi
import Mathlib.Algebra.Polynomial.Derivative
import Mathlib.Algebra.Polynomial.FieldDivision
import Mathlib.Algebra.Polynomial.Roots
import Mathlib.Analysis.Calculus.Deriv.Polynomial
import Mathlib.Analysis.Polynomial.Basic
import Mathlib.RingTheory.Coprime.Lemmas

/-!
# The elliptic rational function

`R = P / (A Q)` has the zeros `sn((2 j + 1 - N) K / N)`. The passband and stopband polynomials `A² Q² - P²` and
`A² Q² - k₁² P²` factor, and `R` satisfies the differential equation of `sn`.
-/

namespace Verif.Elliptic
open Verif.Elliptic.Spec Polynomial

/-- The moduli considered. -/
def Mod (k : ℝ) : Prop := 0 < k ∧ k < 1

theorem Mod.par {k : ℝ} (h : Mod k) : Par (k ^ 2) := by
  refine ⟨pow_pos h.1 2, ?_⟩
  have := h.1
  have := h.2
  nlinarith

theorem sn_add_mul_sub {m : ℝ} (h : Par m) (u t : ℝ) :
    sn (u + t) m * sn (u - t) m * (1 - m * sn t m ^ 2 * sn u m ^ 2) = sn u m ^ 2 - sn t m ^ 2 := by
  have h1 := sn_add h u t
  have h2 := sn_add h u (-t)
  have hp : pn (-t) m = pn t m := by rw [pn, cn_neg h, dn_neg h, pn]
  rw [sn_neg h, hp, neg_sq, ← sub_eq_add_neg] at h2
  have h3 := (sn_denom_pos h u t).ne'
  have h4 := pn_sq h u
  have h5 := pn_sq h t
  rw [h1, h2]
  generalize sn u m = x at *
  generalize sn t m = y at *
  generalize pn u m = X at *
  generalize pn t m = Y at *
  have h6 : 1 - m * y ^ 2 * x ^ 2 ≠ 0 := by rwa [show m * y ^ 2 * x ^ 2 = m * x ^ 2 * y ^ 2 by ring]
  rw [div_mul_div_comm, div_mul_eq_mul_div, div_eq_iff (mul_ne_zero h3 h3)]
  linear_combination (1 - m * x ^ 2 * y ^ 2) * (x ^ 2 * h5 - y ^ 2 * h4)

variable {k : ℝ} {N : ℕ}

/-- The argument of the zero `j`. -/
noncomputable def zarg (k : ℝ) (N j : ℕ) : ℝ := (2 * j + 1 - N) * K (k ^ 2) / N

/-- The zero `j`. -/
noncomputable def zero (k : ℝ) (N j : ℕ) : ℝ := sn (zarg k N j) (k ^ 2)

noncomputable def numP (k : ℝ) (N : ℕ) : ℝ[X] := ∏ j ∈ Finset.range N, (X - C (zero k N j))

noncomputable def denQ (k : ℝ) (N : ℕ) : ℝ[X] := ∏ j ∈ Finset.range N, (1 - C (k * zero k N j) * X)

/-- The normalisation. -/
noncomputable def amp (k : ℝ) (N : ℕ) : ℝ := ∏ j ∈ Finset.range N, sn ((2 * j + 1) * K (k ^ 2) / N) (k ^ 2)

/-- The modulus of the transformed function. -/
noncomputable def modulus (k : ℝ) (N : ℕ) : ℝ := amp k N ^ 2 * k ^ N

noncomputable def prodf (k : ℝ) (N : ℕ) (u : ℝ) : ℝ := ∏ j ∈ Finset.range N, sn (u + zarg k N j) (k ^ 2)

theorem zarg_reflect (hN : 1 ≤ N) {j : ℕ} (hj : j < N) : zarg k N (N - 1 - j) = -zarg k N j := by
  rw [zarg, zarg]
  have : ((N - 1 - j : ℕ) : ℝ) = N - 1 - j := by
    rw [Nat.cast_sub (by omega), Nat.cast_sub hN]; simp
  rw [this]
  ring

theorem zero_reflect (h : Mod k) (hN : 1 ≤ N) {j : ℕ} (hj : j < N) : zero k N (N - 1 - j) = -zero k N j := by
  rw [zero, zarg_reflect hN hj, sn_neg h.par, zero]

theorem prod_reflect {M : Type} [CommMonoid M] (f : ℕ → M) (N : ℕ) :
    ∏ j ∈ Finset.range N, f (N - 1 - j) = ∏ j ∈ Finset.range N, f j := Finset.prod_range_reflect f N

theorem numP_eval (x : ℝ) : (numP k N).eval x = ∏ j ∈ Finset.range N, (x - zero k N j) := by
  rw [numP, eval_prod]; simp

theorem denQ_eval (x : ℝ) : (denQ k N).eval x = ∏ j ∈ Finset.range N, (1 - k * zero k N j * x) := by
  rw [denQ, eval_prod]; simp

theorem numP_eval' (h : Mod k) (hN : 1 ≤ N) (x : ℝ) :
    (numP k N).eval x = ∏ j ∈ Finset.range N, (x + zero k N j) := by
  rw [numP_eval, ← prod_reflect]
  refine Finset.prod_congr rfl fun j hj => ?_
  rw [zero_reflect h hN (Finset.mem_range.1 hj)]
  ring

theorem denQ_eval' (h : Mod k) (hN : 1 ≤ N) (x : ℝ) :
    (denQ k N).eval x = ∏ j ∈ Finset.range N, (1 + k * zero k N j * x) := by
  rw [denQ_eval, ← prod_reflect]
  refine Finset.prod_congr rfl fun j hj => ?_
  rw [zero_reflect h hN (Finset.mem_range.1 hj)]
  ring

theorem prodf_reflect (hN : 1 ≤ N) (u : ℝ) :
    prodf k N u = ∏ j ∈ Finset.range N, sn (u - zarg k N j) (k ^ 2) := by
  rw [prodf, ← prod_reflect]
  refine Finset.prod_congr rfl fun j hj => ?_
  rw [zarg_reflect hN (Finset.mem_range.1 hj)]
  rfl

theorem prodf_sq (h : Mod k) (hN : 1 ≤ N) (u : ℝ) :
    prodf k N u ^ 2 * (denQ k N).eval (sn u (k ^ 2)) ^ 2 = (numP k N).eval (sn u (k ^ 2)) ^ 2 := by
  have e1 : prodf k N u ^ 2 = ∏ j ∈ Finset.range N, sn (u + zarg k N j) (k ^ 2) * sn (u - zarg k N j) (k ^ 2) := by
    rw [Finset.prod_mul_distrib, ← prodf_reflect hN, sq, prodf]
  have e2 : (denQ k N).eval (sn u (k ^ 2)) ^ 2 = ∏ j ∈ Finset.range N,
      (1 - k ^ 2 * zero k N j ^ 2 * sn u (k ^ 2) ^ 2) := by
    rw [pow_two]
    conv_lhs => arg 1; rw [denQ_eval]
    conv_lhs => arg 2; rw [denQ_eval' h hN]
    rw [← Finset.prod_mul_distrib]
    refine Finset.prod_congr rfl fun j _ => ?_
    ring
  have e3 : (numP k N).eval (sn u (k ^ 2)) ^ 2 = ∏ j ∈ Finset.range N,
      (sn u (k ^ 2) ^ 2 - zero k N j ^ 2) := by
    rw [pow_two]
    conv_lhs => arg 1; rw [numP_eval]
    conv_lhs => arg 2; rw [numP_eval' h hN]
    rw [← Finset.prod_mul_distrib]
    refine Finset.prod_congr rfl fun j _ => ?_
    ring
  rw [e1, e2, e3, ← Finset.prod_mul_distrib]
  refine Finset.prod_congr rfl fun j _ => ?_
  exact sn_add_mul_sub h.par u (zarg k N j)

theorem prodf_step (h : Mod k) (hN : 1 ≤ N) (u : ℝ) : prodf k N (u + 2 * K (k ^ 2) / N) = -prodf k N u := by
  obtain ⟨n, rfl⟩ : ∃ n, N = n + 1 := ⟨N - 1, by omega⟩
  have hN0 : ((n + 1 : ℕ) : ℝ) ≠ 0 := by positivity
  have e : ∀ j, u + 2 * K (k ^ 2) / (n + 1 : ℕ) + zarg k (n + 1) j = u + zarg k (n + 1) (j + 1) := by
    intro j
    rw [zarg, zarg]
    push_cast
    field_simp
    ring
  rw [prodf, prodf]
  simp only [e]
  rw [Finset.prod_range_succ, Finset.prod_range_succ' (fun j => sn (u + zarg k (n + 1) j) (k ^ 2))]
  have e2 : u + zarg k (n + 1) (n + 1) = u + zarg k (n + 1) 0 + 2 * K (k ^ 2) := by
    rw [zarg, zarg]
    push_cast
    push_cast at hN0
    field_simp
    ring
  rw [e2, sn_add_two_K h.par]
  ring

theorem prodf_sym (h : Mod k) (hN : 1 ≤ N) (u : ℝ) : prodf k N (K (k ^ 2) + u) = prodf k N (K (k ^ 2) - u) := by
  rw [prodf_reflect hN (K (k ^ 2) - u), prodf]
  refine Finset.prod_congr rfl fun j _ => ?_
  rw [← sn_two_K_sub h.par]
  congr 1
  ring

theorem prodf_K (hN : 1 ≤ N) : prodf k N (K (k ^ 2)) = amp k N := by
  have hN0 : (N : ℝ) ≠ 0 := by positivity
  rw [prodf, amp]
  refine Finset.prod_congr rfl fun j _ => ?_
  congr 1
  rw [zarg]
  field_simp
  ring

theorem amp_pos (h : Mod k) (hN : 1 ≤ N) : 0 < amp k N := by
  have hK := K_pos h.par
  have hN0 : (0 : ℝ) < N := by positivity
  refine Finset.prod_pos fun j hj => ?_
  have hj' : (j : ℝ) + 1 ≤ N := by exact_mod_cast Finset.mem_range.1 hj
  refine sn_pos h.par (by positivity) ?_
  rw [div_lt_iff₀ hN0]
  nlinarith

theorem sn_le_one (u m : ℝ) : sn u m ≤ 1 := Real.sin_le_one _

theorem abs_sn_le (u m : ℝ) : |sn u m| ≤ 1 := Real.abs_sin_le_one _

theorem amp_le (h : Mod k) : amp k N ≤ 1 := by
  have hK := K_pos h.par
  refine Finset.prod_le_one (fun j hj => ?_) fun j _ => sn_le_one _ _
  have hN0 : (0 : ℝ) < N := by
    have := Finset.mem_range.1 hj
    exact_mod_cast (show 0 < N by omega)
  have hj' : (j : ℝ) + 1 ≤ N := by exact_mod_cast Finset.mem_range.1 hj
  refine (sn_pos h.par (by positivity) ?_).le
  rw [div_lt_iff₀ hN0]
  nlinarith

theorem modulus_mod (h : Mod k) (hN : 1 ≤ N) : Mod (modulus k N) := by
  have h1 := amp_pos h hN
  have h2 := amp_le (N := N) h
  refine ⟨mul_pos (pow_pos h1 2) (pow_pos h.1 N), ?_⟩
  have h3 : amp k N ^ 2 ≤ 1 := pow_le_one₀ h1.le h2
  have h4 : k ^ N < 1 := pow_lt_one₀ h.1.le h.2 (by omega)
  have h5 : 0 < k ^ N := pow_pos h.1 N
  rw [modulus]
  nlinarith [sq_nonneg (amp k N)]

/-! ### The extremal points -/

/-- The argument of the extremal point `j`. -/
noncomputable def earg (k : ℝ) (N j : ℕ) : ℝ := (N - 2 * j) * K (k ^ 2) / N

/-- The extremal point `j`. -/
noncomputable def ext (k : ℝ) (N j : ℕ) : ℝ := sn (earg k N j) (k ^ 2)

theorem earg_eq (hN : 1 ≤ N) (j : ℕ) : earg k N j = K (k ^ 2) - j * (2 * K (k ^ 2) / N) := by
  have hN0 : (N : ℝ) ≠ 0 := by positivity
  rw [earg]
  field_simp

theorem prodf_earg (h : Mod k) (hN : 1 ≤ N) (j : ℕ) (t : ℝ) :
    prodf k N (earg k N j + t) ^ 2 = prodf k N (K (k ^ 2) + t) ^ 2 := by
  rw [earg_eq hN]
  induction j with
  | zero => simp
  | succ j ih =>
    have := prodf_step h hN (K (k ^ 2) - ((j + 1 : ℕ) : ℝ) * (2 * K (k ^ 2) / N) + t)
    rw [← ih, ← neg_sq (prodf k N (K (k ^ 2) - ((j + 1 : ℕ) : ℝ) * (2 * K (k ^ 2) / N) + t)), ← this]
    congr 2
    push_cast
    ring

theorem prodf_differentiable (h : Mod k) : Differentiable ℝ (prodf k N) := by
  unfold prodf
  refine Differentiable.fun_finset_prod fun j _ => ?_
  intro u
  have := (sn_deriv h.par (u + zarg k N j)).comp_add_const u (zarg k N j)
  exact this.differentiableAt

theorem prodf_earg_deriv (h : Mod k) (hN : 1 ≤ N) (j : ℕ) :
    HasDerivAt (fun u => prodf k N u ^ 2) 0 (earg k N j) := by
  obtain ⟨d, hd⟩ : ∃ d, HasDerivAt (fun u => prodf k N u ^ 2) d (earg k N j) :=
    ⟨_, ((prodf_differentiable h).pow 2 (earg k N j)).hasDerivAt⟩
  have h1 : HasDerivAt (fun t => prodf k N (earg k N j + t) ^ 2) d 0 := by
    have := (hd : HasDerivAt (fun u => prodf k N u ^ 2) d (earg k N j))
    have h2 : HasDerivAt (fun u => prodf k N u ^ 2) d (earg k N j + 0) := by rwa [add_zero]
    exact h2.comp_const_add (earg k N j) 0
  have h2 : HasDerivAt (fun t => prodf k N (earg k N j - t) ^ 2) (-d) 0 := by
    have h2 : HasDerivAt (fun u => prodf k N u ^ 2) d (earg k N j - 0) := by rwa [sub_zero]
    exact h2.comp_const_sub (earg k N j) 0
  have e : (fun t => prodf k N (earg k N j + t) ^ 2) = fun t => prodf k N (earg k N j - t) ^ 2 := by
    funext t
    rw [prodf_earg h hN, sub_eq_add_neg, prodf_earg h hN, prodf_sym h hN, sub_eq_add_neg]
  rw [e] at h1
  have := h1.unique h2
  have hd0 : d = 0 := by linarith
  rwa [hd0] at hd

theorem ext_strictAnti (h : Mod k) (hN : 1 ≤ N) {i j : ℕ} (hij : i < j) (hj : j ≤ N) : ext k N j < ext k N i := by
  have hK := K_pos h.par
  have hN0 : (0 : ℝ) < N := by positivity
  have h1 : (i : ℝ) + 1 ≤ j := by exact_mod_cast hij
  have h2 : (j : ℝ) ≤ N := by exact_mod_cast hj
  have h3 : (0 : ℝ) ≤ i := by positivity
  refine sn_strictMono h.par ?_ ?_ ?_
  · rw [earg, le_div_iff₀ hN0]
    nlinarith
  · rw [earg, earg, div_lt_div_iff_of_pos_right hN0]
    nlinarith
  · rw [earg, div_le_iff₀ hN0]
    nlinarith

theorem ext_zero (h : Mod k) (hN : 1 ≤ N) : ext k N 0 = 1 := by
  have hN0 : (N : ℝ) ≠ 0 := by positivity
  rw [ext, earg_eq hN]
  simp [sn_K h.par]

theorem ext_last (h : Mod k) (hN : 1 ≤ N) : ext k N N = -1 := by
  have hN0 : (N : ℝ) ≠ 0 := by positivity
  rw [ext, earg, show ((N : ℝ) - 2 * N) * K (k ^ 2) / N = -K (k ^ 2) by field_simp; ring, sn_neg h.par, sn_K h.par]

theorem ext_lt (h : Mod k) (hN : 1 ≤ N) {j : ℕ} (h0 : 0 < j) (hj : j < N) : |ext k N j| < 1 := by
  rw [abs_lt]
  constructor
  · have := ext_strictAnti h hN hj le_rfl
    rwa [ext_last h hN] at this
  · have := ext_strictAnti h hN h0 hj.le
    rwa [ext_zero h hN] at this

theorem zero_lt (h : Mod k) (hN : 1 ≤ N) {j : ℕ} (hj : j < N) : |zero k N j| < 1 := by
  have hK := K_pos h.par
  have hN0 : (0 : ℝ) < N := by positivity
  have h1 : (j : ℝ) + 1 ≤ N := by exact_mod_cast hj
  have h3 : (0 : ℝ) ≤ j := by positivity
  rw [abs_lt]
  constructor
  · rw [← sn_K h.par, ← sn_neg h.par]
    refine sn_strictMono h.par le_rfl ?_ ?_
    · rw [zarg, lt_div_iff₀ hN0]; nlinarith
    · rw [zarg, div_le_iff₀ hN0]; nlinarith
  · rw [← sn_K h.par]
    refine sn_strictMono h.par ?_ ?_ le_rfl
    · rw [zarg, le_div_iff₀ hN0]; nlinarith
    · rw [zarg, div_lt_iff₀ hN0]; nlinarith

theorem denQ_pos (h : Mod k) (hN : 1 ≤ N) {x : ℝ} (hx : |x| ≤ 1) : 0 < (denQ k N).eval x := by
  rw [denQ_eval]
  refine Finset.prod_pos fun j hj => ?_
  have h1 := zero_lt h hN (Finset.mem_range.1 hj)
  have h2 : |k * zero k N j * x| < 1 := by
    rw [abs_mul, abs_mul, abs_of_pos h.1]
    have := h.1
    have := h.2
    have h3 : k * |zero k N j| < 1 := by nlinarith [abs_nonneg (zero k N j)]
    have h4 : 0 ≤ k * |zero k N j| := by positivity
    nlinarith [abs_nonneg x]
  have := (abs_lt.1 h2).2
  linarith

/-! ### The passband polynomial -/

noncomputable def passG (k : ℝ) (N : ℕ) : ℝ[X] := C (amp k N ^ 2) * denQ k N ^ 2 - numP k N ^ 2

theorem passG_sn (h : Mod k) (hN : 1 ≤ N) (u : ℝ) : (passG k N).eval (sn u (k ^ 2)) =
    (denQ k N).eval (sn u (k ^ 2)) ^ 2 * (amp k N ^ 2 - prodf k N u ^ 2) := by
  have := prodf_sq h hN u
  rw [passG]
  simp only [eval_sub, eval_mul, eval_C, eval_pow]
  linear_combination this

theorem passG_ext (h : Mod k) (hN : 1 ≤ N) (j : ℕ) : (passG k N).eval (ext k N j) = 0 := by
  rw [ext, passG_sn h hN]
  have := prodf_earg h hN j 0
  rw [add_zero, add_zero, prodf_K hN] at this
  rw [this, sub_self, mul_zero]

theorem passG_ext_deriv (h : Mod k) (hN : 1 ≤ N) {j : ℕ} (h0 : 0 < j) (hj : j < N) :
    (derivative (passG k N)).eval (ext k N j) = 0 := by
  have h1 : HasDerivAt (fun u => (passG k N).eval (sn u (k ^ 2)))
      ((derivative (passG k N)).eval (ext k N j) * pn (earg k N j) (k ^ 2)) (earg k N j) := by
    have a : HasDerivAt (fun x => (passG k N).eval x) _ (ext k N j) := (passG k N).hasDerivAt (ext k N j)
    exact a.comp (earg k N j) (sn_deriv h.par (earg k N j))
  have h2 : HasDerivAt (fun u => (denQ k N).eval (sn u (k ^ 2)) ^ 2 * (amp k N ^ 2 - prodf k N u ^ 2))
      0 (earg k N j) := by
    have a0 : HasDerivAt (fun x => (denQ k N).eval x) _ (ext k N j) := (denQ k N).hasDerivAt (ext k N j)
    have a := (a0.comp (earg k N j) (sn_deriv h.par (earg k N j))).pow 2
    have b := a.mul ((prodf_earg_deriv h hN j).const_sub (amp k N ^ 2))
    have e := prodf_earg h hN j 0
    rw [add_zero, add_zero, prodf_K hN] at e
    refine HasDerivAt.congr_deriv b ?_
    rw [e]
    simp
  have e : (fun u => (passG k N).eval (sn u (k ^ 2))) =
      fun u => (denQ k N).eval (sn u (k ^ 2)) ^ 2 * (amp k N ^ 2 - prodf k N u ^ 2) := by
    funext u
    exact passG_sn h hN u
  rw [e] at h1
  have h3 := h1.unique h2
  rcases mul_eq_zero.1 h3 with h4 | h4
  · exact h4
  · exfalso
    have h5 := pn_sq h.par (earg k N j)
    rw [h4] at h5
    have h6 := ext_lt h hN h0 hj
    have h7 : ext k N j ^ 2 < 1 := by rwa [sq_lt_one_iff_abs_lt_one]
    have h8 := dn_arg_pos h.par (earg k N j)
    rw [ext] at h7
    have : 0 < (1 - sn (earg k N j) (k ^ 2) ^ 2) * (1 - k ^ 2 * sn (earg k N j) (k ^ 2) ^ 2) :=
      mul_pos (by linarith) h8
    rw [← h5] at this
    norm_num at this

end Verif.Elliptic
