import Verif.Proof.EllipticRational
import Mathlib.Topology.Algebra.Polynomial

/-! # The elliptic rational function: factorisation and differential equation -/

namespace Verif.Elliptic
open Verif.Elliptic.Spec Polynomial

variable {k : ℝ} {N : ℕ}

theorem one_sub_ne {a b : ℝ} (h : Mod k) (ha : |a| ≤ 1) (hb : |b| ≤ 1) : 1 - k * a * b ≠ 0 := by
  have h2 : |k * a * b| < 1 := by
    rw [abs_mul, abs_mul, abs_of_pos h.1]
    have := h.1
    have := h.2
    have h3 : k * |a| < 1 := by nlinarith [abs_nonneg a]
    have h4 : 0 ≤ k * |a| := by positivity
    nlinarith [abs_nonneg b]
  have := (abs_lt.1 h2).2
  linarith

/-- The product over the inner extremal points. -/
noncomputable def extD (k : ℝ) (N : ℕ) : ℝ[X] := ∏ j ∈ Finset.Ico 1 N, (X - C (ext k N j))

/-- Its reversal. -/
noncomputable def extE (k : ℝ) (N : ℕ) : ℝ[X] := ∏ j ∈ Finset.Ico 1 N, (1 - C (k * ext k N j) * X)

theorem numP_monic : (numP k N).Monic := monic_prod_of_monic _ _ fun j _ => monic_X_sub_C _

theorem numP_natDegree : (numP k N).natDegree = N := by
  rw [numP, natDegree_prod_of_monic _ _ fun j _ => monic_X_sub_C _]
  simp

theorem denQ_natDegree : (denQ k N).natDegree ≤ N := by
  refine (natDegree_prod_le _ _).trans ?_
  calc ∑ j ∈ Finset.range N, (1 - C (k * zero k N j) * X).natDegree ≤ ∑ j ∈ Finset.range N, 1 := by
        refine Finset.sum_le_sum fun j _ => ?_
        compute_degree
    _ = N := by simp

theorem passG_natDegree : (passG k N).natDegree ≤ 2 * N := by
  rw [passG]
  refine (natDegree_sub_le _ _).trans (max_le ?_ ?_)
  · refine (natDegree_C_mul_le _ _).trans ((natDegree_pow_le).trans ?_)
    exact Nat.mul_le_mul_left 2 denQ_natDegree
  · refine (natDegree_pow_le).trans ?_
    rw [numP_natDegree]

theorem numP_zero {j : ℕ} (hj : j < N) : (numP k N).eval (zero k N j) = 0 := by
  rw [numP_eval]
  exact Finset.prod_eq_zero (Finset.mem_range.2 hj) (sub_self _)

theorem passG_zero_pos (h : Mod k) (hN : 1 ≤ N) : 0 < (passG k N).eval (zero k N 0) := by
  rw [passG]
  simp only [eval_sub, eval_mul, eval_C, eval_pow, numP_zero (show 0 < N by omega)]
  have h1 := amp_pos h hN
  have h2 := denQ_pos h hN (zero_lt h hN (show 0 < N by omega)).le
  simp only [ne_eq, OfNat.ofNat_ne_zero, not_false_eq_true, zero_pow, sub_zero]
  positivity

theorem ext_inj (h : Mod k) (hN : 1 ≤ N) {i j : ℕ} (hi : i ≤ N) (hj : j ≤ N) (hij : i ≠ j) : ext k N i ≠ ext k N j := by
  rcases lt_or_gt_of_ne hij with h1 | h1
  · exact (ext_strictAnti h hN h1 hj).ne'
  · exact (ext_strictAnti h hN h1 hi).ne

theorem coprime_sub {a b : ℝ} (hab : a ≠ b) : IsCoprime (X - C a : ℝ[X]) (X - C b) :=
  isCoprime_X_sub_C_of_isUnit_sub (sub_ne_zero_of_ne hab).isUnit

theorem passG_dvd (h : Mod k) (hN : 1 ≤ N) : (X - C 1) * (X - C (-1)) * extD k N ^ 2 ∣ passG k N := by
  have hG : passG k N ≠ 0 := by
    intro hc
    have := passG_zero_pos h hN
    rw [hc, eval_zero] at this
    exact lt_irrefl _ this
  have c1 : ∀ j ∈ Finset.Ico 1 N, IsCoprime (X - C 1 : ℝ[X]) (X - C (ext k N j)) := by
    intro j hj
    rw [Finset.mem_Ico] at hj
    refine coprime_sub ?_
    rw [← ext_zero h hN]
    exact ext_inj h hN (by omega) (by omega) (by omega)
  have c2 : ∀ j ∈ Finset.Ico 1 N, IsCoprime (X - C (-1) : ℝ[X]) (X - C (ext k N j)) := by
    intro j hj
    rw [Finset.mem_Ico] at hj
    refine coprime_sub ?_
    rw [← ext_last h hN]
    exact ext_inj h hN (by omega) (by omega) (by omega)
  refine IsCoprime.mul_dvd ?_ (IsCoprime.mul_dvd ?_ ?_ ?_) ?_
  · exact IsCoprime.mul_left (IsCoprime.pow_right (IsCoprime.prod_right c1)) (IsCoprime.pow_right (IsCoprime.prod_right c2))
  · exact coprime_sub (by norm_num)
  · rw [dvd_iff_isRoot, IsRoot, ← ext_zero h hN]
    exact passG_ext h hN 0
  · rw [dvd_iff_isRoot, IsRoot, ← ext_last h hN]
    exact passG_ext h hN N
  · rw [extD, ← Finset.prod_pow]
    refine Finset.prod_dvd_of_coprime ?_ ?_
    · intro i hi j hj hij
      rw [Finset.mem_coe, Finset.mem_Ico] at hi hj
      exact IsCoprime.pow (coprime_sub (ext_inj h hN (by omega) (by omega) hij))
    · intro j hj
      rw [Finset.mem_Ico] at hj
      rw [← le_rootMultiplicity_iff hG]
      exact (one_lt_rootMultiplicity_iff_isRoot hG).2
        ⟨passG_ext h hN j, passG_ext_deriv h hN (by omega) hj.2⟩

theorem extD_monic : (extD k N).Monic := monic_prod_of_monic _ _ fun j _ => monic_X_sub_C _

theorem extD_natDegree : (extD k N).natDegree = N - 1 := by
  rw [extD, natDegree_prod_of_monic _ _ fun j _ => monic_X_sub_C _]
  simp

/-- The positive constant of the factorisation. -/
noncomputable def lead (k : ℝ) (N : ℕ) : ℝ := -(passG k N).leadingCoeff

theorem passG_eq (h : Mod k) (hN : 1 ≤ N) : passG k N = C (lead k N) * ((1 - X ^ 2) * extD k N ^ 2) := by
  have hm : ((X - C 1 : ℝ[X]) * (X - C (-1)) * extD k N ^ 2).Monic :=
    ((monic_X_sub_C _).mul (monic_X_sub_C _)).mul (extD_monic.pow 2)
  have hd : ((X - C 1 : ℝ[X]) * (X - C (-1)) * extD k N ^ 2).natDegree = 2 * N := by
    rw [((monic_X_sub_C _).mul (monic_X_sub_C _)).natDegree_mul (extD_monic.pow 2),
      (monic_X_sub_C _).natDegree_mul (monic_X_sub_C _), extD_monic.natDegree_pow, extD_natDegree,
      natDegree_X_sub_C, natDegree_X_sub_C]
    omega
  have := eq_leadingCoeff_mul_of_monic_of_dvd_of_natDegree_le hm (passG_dvd h hN) (by rw [hd]; exact passG_natDegree)
  rw [lead]
  conv_lhs => rw [this]
  rw [C_neg, C_neg, C_1]
  ring

theorem passG_eval (h : Mod k) (hN : 1 ≤ N) (x : ℝ) :
    (passG k N).eval x = lead k N * ((1 - x ^ 2) * (extD k N).eval x ^ 2) := by
  rw [passG_eq h hN]
  simp

theorem lead_pos (h : Mod k) (hN : 1 ≤ N) : 0 < lead k N := by
  have h1 := passG_zero_pos h hN
  rw [passG_eval h hN] at h1
  have h2 := zero_lt h hN (show 0 < N by omega)
  have h3 : zero k N 0 ^ 2 < 1 := by rwa [sq_lt_one_iff_abs_lt_one]
  have h4 : 0 ≤ (1 - zero k N 0 ^ 2) * (extD k N).eval (zero k N 0) ^ 2 := mul_nonneg (by linarith) (sq_nonneg _)
  by_contra hc
  have := mul_nonpos_of_nonpos_of_nonneg (not_lt.1 hc) h4
  linarith

/-! ### Inversion -/

theorem numP_inv (h : Mod k) {x : ℝ} (hx : x ≠ 0) :
    (numP k N).eval (1 / (k * x)) * (k * x) ^ N = (denQ k N).eval x := by
  have hk := h.1.ne'
  rw [numP_eval, denQ_eval]
  conv_lhs => arg 2; rw [← Finset.card_range N, ← Finset.prod_const]
  rw [← Finset.prod_mul_distrib]
  refine Finset.prod_congr rfl fun j _ => ?_
  field_simp

theorem denQ_inv (h : Mod k) {x : ℝ} (hx : x ≠ 0) :
    (denQ k N).eval (1 / (k * x)) * x ^ N = (numP k N).eval x := by
  have hk := h.1.ne'
  rw [numP_eval, denQ_eval]
  conv_lhs => arg 2; rw [← Finset.card_range N, ← Finset.prod_const]
  rw [← Finset.prod_mul_distrib]
  refine Finset.prod_congr rfl fun j _ => ?_
  field_simp

theorem extD_eval (x : ℝ) : (extD k N).eval x = ∏ j ∈ Finset.Ico 1 N, (x - ext k N j) := by
  rw [extD, eval_prod]; simp

theorem extE_eval (x : ℝ) : (extE k N).eval x = ∏ j ∈ Finset.Ico 1 N, (1 - k * ext k N j * x) := by
  rw [extE, eval_prod]; simp

theorem extD_inv (h : Mod k) {x : ℝ} (hx : x ≠ 0) :
    (extD k N).eval (1 / (k * x)) * (k * x) ^ (N - 1) = (extE k N).eval x := by
  have hk := h.1.ne'
  rw [extD_eval, extE_eval]
  conv_lhs => arg 2; rw [← Nat.card_Ico 1 N, ← Finset.prod_const]
  rw [← Finset.prod_mul_distrib]
  refine Finset.prod_congr rfl fun j _ => ?_
  field_simp

theorem extE_inv (h : Mod k) {x : ℝ} (hx : x ≠ 0) :
    (extE k N).eval (1 / (k * x)) * x ^ (N - 1) = (extD k N).eval x := by
  have hk := h.1.ne'
  rw [extD_eval, extE_eval]
  conv_lhs => arg 2; rw [← Nat.card_Ico 1 N, ← Finset.prod_const]
  rw [← Finset.prod_mul_distrib]
  refine Finset.prod_congr rfl fun j _ => ?_
  field_simp

/-- The stopband polynomial. -/
noncomputable def stopG (k : ℝ) (N : ℕ) : ℝ[X] := C (amp k N ^ 2) * denQ k N ^ 2 - C (modulus k N ^ 2) * numP k N ^ 2

theorem stopG_eval_ne (h : Mod k) (hN : 1 ≤ N) {x : ℝ} (hx : x ≠ 0) :
    (stopG k N).eval x = amp k N ^ 2 * lead k N * ((1 - k ^ 2 * x ^ 2) * (extE k N).eval x ^ 2) := by
  have hk := h.1.ne'
  have e1 := numP_inv (N := N) h hx
  have e2 := denQ_inv (N := N) h hx
  have e3 := extD_inv (N := N) h hx
  have e4 := passG_eval h hN (1 / (k * x))
  rw [passG] at e4
  rw [stopG]
  simp only [eval_sub, eval_mul, eval_C, eval_pow] at e4 ⊢
  rw [← e1, ← e2, ← e3, modulus]
  generalize (numP k N).eval (1 / (k * x)) = p at *
  generalize (denQ k N).eval (1 / (k * x)) = q at *
  generalize (extD k N).eval (1 / (k * x)) = d at *
  generalize amp k N = A at *
  have hkx : (k * x) ^ 2 ≠ 0 := pow_ne_zero 2 (mul_ne_zero hk hx)
  have e5 : (k * x) ^ N = (k * x) ^ (N - 1) * (k * x) := by
    rw [← pow_succ]; congr 1; omega
  have e6 : k ^ N * x ^ N = (k * x) ^ (N - 1) * (k * x) := by rw [← mul_pow, e5]
  have e7 : (1 - (1 / (k * x)) ^ 2) * (k * x) ^ 2 = -(1 - k ^ 2 * x ^ 2) := by
    field_simp
    ring
  rw [e5]
  have e8 : (A ^ 2 * k ^ N) ^ 2 * (q * x ^ N) ^ 2 = A ^ 4 * q ^ 2 * ((k * x) ^ (N - 1) * (k * x)) ^ 2 := by
    rw [← e6]; ring
  rw [e8]
  linear_combination -A ^ 2 * ((k * x) ^ (N - 1) * (k * x)) ^ 2 * e4 - A ^ 2 * lead k N * (d * (k * x) ^ (N - 1)) ^ 2 * e7

theorem stopG_eq (h : Mod k) (hN : 1 ≤ N) :
    stopG k N = C (amp k N ^ 2 * lead k N) * ((1 - C (k ^ 2) * X ^ 2) * extE k N ^ 2) := by
  refine Polynomial.eq_of_infinite_eval_eq _ _ ?_
  refine Set.Infinite.mono ?_ (Set.Ioi_infinite (0 : ℝ))
  intro x hx
  have hx' : x ≠ 0 := (Set.mem_Ioi.1 hx).ne'
  rw [Set.mem_setOf_eq, stopG_eval_ne h hN hx']
  simp

/-! ### The Wronskian -/

noncomputable def wron (k : ℝ) (N : ℕ) : ℝ[X] := derivative (numP k N) * denQ k N - numP k N * derivative (denQ k N)

theorem wron_pass : 2 * numP k N * wron k N =
    2 * passG k N * derivative (denQ k N) - derivative (passG k N) * denQ k N := by
  rw [wron, passG]
  simp only [derivative_sub, derivative_mul, derivative_C, derivative_pow, Nat.cast_ofNat]
  simp only [C_ofNat]
  ring

theorem wron_stop : 2 * C (modulus k N ^ 2) * numP k N * wron k N =
    2 * stopG k N * derivative (denQ k N) - derivative (stopG k N) * denQ k N := by
  rw [wron, stopG]
  simp only [derivative_sub, derivative_mul, derivative_C, derivative_pow, Nat.cast_ofNat]
  simp only [C_ofNat]
  ring

theorem numP_ext_ne (h : Mod k) (hN : 1 ≤ N) {j : ℕ} (h0 : 0 < j) (hj : j < N) : (numP k N).eval (ext k N j) ≠ 0 := by
  intro hc
  have h1 := passG_ext h hN j
  rw [passG] at h1
  simp only [eval_sub, eval_mul, eval_C, eval_pow, hc] at h1
  have h2 := amp_pos h hN
  have h3 := denQ_pos h hN (ext_lt h hN h0 hj).le
  have : 0 < amp k N ^ 2 * (denQ k N).eval (ext k N j) ^ 2 := by positivity
  norm_num at h1
  rcases h1 with h1 | h1
  · exact h2.ne' h1
  · exact h3.ne' h1

theorem extD_coprime (h : Mod k) (hN : 1 ≤ N) : IsCoprime (extD k N) (numP k N) := by
  refine IsCoprime.prod_left fun j hj => IsCoprime.prod_right fun i hi => coprime_sub ?_
  rw [Finset.mem_Ico] at hj
  intro hc
  refine numP_ext_ne h hN (by omega) hj.2 ?_
  rw [hc]
  exact numP_zero (Finset.mem_range.1 hi)

theorem lin_coprime {a b : ℝ} (hab : 1 - b * a ≠ 0) : IsCoprime (1 - C b * X : ℝ[X]) (X - C a) := by
  refine ⟨C (1 - b * a)⁻¹, C (1 - b * a)⁻¹ * C b, ?_⟩
  have : C (1 - b * a)⁻¹ * C (1 - b * a) = (1 : ℝ[X]) := by rw [← C_mul, inv_mul_cancel₀ hab, C_1]
  rw [C_sub, C_mul, C_1] at this
  linear_combination this

theorem extE_coprime (h : Mod k) (hN : 1 ≤ N) : IsCoprime (extE k N) (numP k N) := by
  refine IsCoprime.prod_left fun j hj => IsCoprime.prod_right fun i hi => lin_coprime ?_
  rw [Finset.mem_Ico] at hj
  exact one_sub_ne h (ext_lt h hN (by omega) hj.2).le (zero_lt h hN (Finset.mem_range.1 hi)).le

theorem extE_extD_coprime (h : Mod k) (hN : 1 ≤ N) : IsCoprime (extE k N) (extD k N) := by
  refine IsCoprime.prod_left fun j hj => IsCoprime.prod_right fun i hi => lin_coprime ?_
  rw [Finset.mem_Ico] at hj hi
  exact one_sub_ne h (ext_lt h hN (by omega) hj.2).le (ext_lt h hN (by omega) hi.2).le

theorem dvd_deriv {p d r : ℝ[X]} {c : ℝ} (hp : p = C c * (r * d ^ 2)) : d ∣ p ∧ d ∣ derivative p := by
  refine ⟨⟨C c * (r * d), by rw [hp]; ring⟩, ?_⟩
  rw [hp]
  simp only [derivative_mul, derivative_C, derivative_pow, Nat.cast_ofNat, zero_mul, zero_add]
  exact ⟨C c * (derivative r * d + r * (C 2 * derivative d)), by simp only [C_ofNat]; ring⟩

theorem wron_dvd (h : Mod k) (hN : 1 ≤ N) : extE k N * extD k N ∣ wron k N := by
  refine IsCoprime.mul_dvd (extE_extD_coprime h hN) ?_ ?_
  · obtain ⟨h1, h2⟩ := dvd_deriv (stopG_eq h hN)
    have h3 : extE k N ∣ 2 * C (modulus k N ^ 2) * numP k N * wron k N := by
      rw [wron_stop]
      exact dvd_sub (dvd_mul_of_dvd_left (dvd_mul_of_dvd_right h1 _) _) (dvd_mul_of_dvd_left h2 _)
    have h4 : (extE k N) ∣ C (2 * modulus k N ^ 2) * (numP k N * wron k N) := by
      rw [C_mul, C_ofNat]
      convert h3 using 1
      ring
    have hm := modulus_mod h hN
    have h5 : (2 * modulus k N ^ 2) ≠ 0 := by
      have := hm.1
      positivity
    have h6 : extE k N ∣ numP k N * wron k N := by
      have := Dvd.dvd.mul_left h4 (C (2 * modulus k N ^ 2)⁻¹)
      rwa [← mul_assoc, ← C_mul, inv_mul_cancel₀ h5, C_1, one_mul] at this
    exact (extE_coprime h hN).dvd_of_dvd_mul_left h6
  · obtain ⟨h1, h2⟩ := dvd_deriv (passG_eq h hN)
    have h3 : extD k N ∣ 2 * numP k N * wron k N := by
      rw [wron_pass]
      exact dvd_sub (dvd_mul_of_dvd_left (dvd_mul_of_dvd_right h1 _) _) (dvd_mul_of_dvd_left h2 _)
    have h4 : extD k N ∣ C 2 * (numP k N * wron k N) := by
      rw [C_ofNat]
      convert h3 using 1
      ring
    have h6 : extD k N ∣ numP k N * wron k N := by
      have := Dvd.dvd.mul_left h4 (C (2 : ℝ)⁻¹)
      rwa [← mul_assoc, ← C_mul, inv_mul_cancel₀ (by norm_num), C_1, one_mul] at this
    exact (extD_coprime h hN).dvd_of_dvd_mul_left h6

/-- The derivative of a polynomial at the inverse point. -/
theorem inv_deriv (h : Mod k) {p q : ℝ[X]} {a : ℝ} (hpq : ∀ x ≠ 0, p.eval (1 / (k * x)) * (a * x) ^ N = q.eval x)
    {x : ℝ} (hx : x ≠ 0) (hN : 1 ≤ N) :
    -(derivative p).eval (1 / (k * x)) / (k * x ^ 2) * (a * x) ^ N + p.eval (1 / (k * x)) * (N * (a * x) ^ (N - 1) * a) =
      (derivative q).eval x := by
  have hk := h.1.ne'
  have h1 : HasDerivAt (fun x => 1 / (k * x)) (-1 / (k * x ^ 2)) x := by
    have := ((hasDerivAt_id x).const_mul k).inv (mul_ne_zero hk hx)
    simp only [id, mul_one] at this
    have e : (fun x => 1 / (k * x)) = fun x : ℝ => (k * x)⁻¹ := by funext x; rw [one_div]
    rw [e]
    refine HasDerivAt.congr_deriv this ?_
    field_simp
  have h2 : HasDerivAt (fun x => p.eval x) _ (1 / (k * x)) := p.hasDerivAt _
  have h3 : HasDerivAt (fun x => (a * x) ^ N) (N * (a * x) ^ (N - 1) * a) x := by
    have := ((hasDerivAt_id x).const_mul a).pow N
    simp only [id, mul_one] at this
    exact this
  have h4 := (h2.comp x h1).mul h3
  have h5 : HasDerivAt (fun x => q.eval x) _ x := q.hasDerivAt x
  have h6 := h5.congr_of_eventuallyEq (f₁ := (((fun x => p.eval x) ∘ fun x => 1 / (k * x)) * fun x => (a * x) ^ N)) (by
    filter_upwards [isOpen_ne.mem_nhds hx] with y hy
    exact hpq y hy)
  have := h4.unique h6
  rw [← this]
  simp only [Function.comp]
  ring

theorem wron_inv (h : Mod k) (hN : 1 ≤ N) {x : ℝ} (hx : x ≠ 0) :
    (wron k N).eval (1 / (k * x)) * (k ^ (N - 1) * (x ^ (N - 1)) ^ 2) = (wron k N).eval x := by
  have hk := h.1.ne'
  have e1 := inv_deriv h (N := N) (a := k) (fun x hx => numP_inv (N := N) h hx) hx hN
  have e2 := inv_deriv h (N := N) (a := 1) (p := denQ k N) (q := numP k N)
    (fun x hx => by rw [one_mul]; exact denQ_inv (N := N) h hx) hx hN
  have e3 := numP_inv (N := N) h hx
  have e4 := denQ_inv (N := N) h hx
  rw [wron]
  simp only [eval_sub, eval_mul]
  rw [← e1, ← e2, ← e3, ← e4]
  generalize (numP k N).eval (1 / (k * x)) = p at *
  generalize (denQ k N).eval (1 / (k * x)) = q at *
  generalize (derivative (numP k N)).eval (1 / (k * x)) = p' at *
  generalize (derivative (denQ k N)).eval (1 / (k * x)) = q' at *
  have e5 : (k * x) ^ N = k ^ (N - 1) * x ^ (N - 1) * (k * x) := by
    rw [← mul_pow, ← pow_succ]; congr 1; omega
  have e6 : x ^ N = x ^ (N - 1) * x := by rw [← pow_succ]; congr 1; omega
  rw [one_mul, e5, e6, mul_pow]
  field_simp
  ring

theorem exists_wron (h : Mod k) (hN : 1 ≤ N) : ∃ μ : ℝ, wron k N = C μ * (extE k N * extD k N) := by
  obtain ⟨g, hg⟩ := wron_dvd h hN
  have hk := h.1.ne'
  have hE : extE k N ≠ 0 := by
    intro hc
    have := extE_eval (k := k) (N := N) 0
    rw [hc] at this
    simp at this
  have hne : extE k N * extD k N ≠ 0 := mul_ne_zero hE extD_monic.ne_zero
  have h1 : ∀ᶠ x in Filter.atTop, g.eval (1 / (k * x)) = g.eval x := by
    filter_upwards [eventually_atTop_not_isRoot _ hne, Filter.eventually_gt_atTop 0] with x hx hx0
    have e := wron_inv h hN hx0.ne'
    rw [hg] at e
    simp only [eval_mul] at e
    rw [IsRoot, eval_mul] at hx
    refine mul_left_cancel₀ hx ?_
    rw [← e, ← extD_inv h hx0.ne', ← extE_inv h hx0.ne', mul_pow]
    ring
  have h2 : Filter.Tendsto (fun x => g.eval (1 / (k * x))) Filter.atTop (nhds (g.eval 0)) := by
    refine (g.continuous.tendsto 0).comp ?_
    have := (Filter.tendsto_id (α := ℝ)).const_mul_atTop h.1
    refine this.inv_tendsto_atTop.congr fun x => ?_
    simp [one_div]
  have h3 := (tendsto_nhds_iff g).1 (h2.congr' h1)
  refine ⟨g.coeff 0, ?_⟩
  rw [hg, ← eq_C_of_degree_le_zero h3.2]
  ring

noncomputable def wcon (k : ℝ) (N : ℕ) (h : Mod k) (hN : 1 ≤ N) : ℝ := (exists_wron h hN).choose

theorem wron_eq (h : Mod k) (hN : 1 ≤ N) : wron k N = C (wcon k N h hN) * (extE k N * extD k N) :=
  (exists_wron h hN).choose_spec

theorem zero_inj (h : Mod k) (hN : 1 ≤ N) {i j : ℕ} (hi : i < N) (hj : j < N) (hij : i ≠ j) :
    zero k N i ≠ zero k N j := by
  have hK := K_pos h.par
  have hN0 : (0 : ℝ) < N := by positivity
  have key : ∀ {i j : ℕ}, i < j → j < N → zero k N i < zero k N j := by
    intro i j hij hj
    have h1 : (i : ℝ) + 1 ≤ j := by exact_mod_cast hij
    have h2 : (j : ℝ) + 1 ≤ N := by exact_mod_cast hj
    have h3 : (0 : ℝ) ≤ i := by positivity
    refine sn_strictMono h.par ?_ ?_ ?_
    · rw [zarg, le_div_iff₀ hN0]; nlinarith
    · rw [zarg, zarg, div_lt_div_iff_of_pos_right hN0]; nlinarith
    · rw [zarg, div_le_iff₀ hN0]; nlinarith
  rcases lt_or_gt_of_ne hij with h1 | h1
  · exact (key h1 hj).ne
  · exact (key h1 hi).ne'

theorem wron_zero_ne (h : Mod k) (hN : 1 ≤ N) {j : ℕ} (hj : j < N) : (wron k N).eval (zero k N j) ≠ 0 := by
  rw [wron, eval_sub, eval_mul, eval_mul, numP_zero hj, zero_mul, sub_zero]
  refine mul_ne_zero ?_ (denQ_pos h hN (zero_lt h hN hj).le).ne'
  rw [numP, derivative_prod_finset, eval_finset_sum]
  rw [Finset.sum_eq_single_of_mem j (Finset.mem_range.2 hj)]
  · simp only [derivative_sub, derivative_X, derivative_C, sub_zero, mul_one, eval_prod, eval_sub, eval_X, eval_C]
    refine Finset.prod_ne_zero_iff.2 fun i hi => sub_ne_zero.2 ?_
    rw [Finset.mem_erase, Finset.mem_range] at hi
    exact zero_inj h hN hj hi.2 (Ne.symm hi.1)
  · intro i _ hij
    rw [eval_mul, eval_prod]
    rw [Finset.prod_eq_zero (i := j), zero_mul]
    · rw [Finset.mem_erase, Finset.mem_range]
      exact ⟨Ne.symm hij, hj⟩
    · simp

theorem wron_ne (h : Mod k) (hN : 1 ≤ N) : wron k N ≠ 0 := by
  intro hc
  have := wron_zero_ne h hN (show 0 < N by omega)
  rw [hc, eval_zero] at this
  exact this rfl

/-- The multiplier. -/
noncomputable def mult (k : ℝ) (N : ℕ) (h : Mod k) (hN : 1 ≤ N) : ℝ := |wcon k N h hN| / lead k N

theorem mult_pos (h : Mod k) (hN : 1 ≤ N) : 0 < mult k N h hN := by
  refine div_pos (abs_pos.2 ?_) (lead_pos h hN)
  intro hc
  have := wron_eq h hN
  rw [hc, C_0, zero_mul] at this
  exact wron_ne h hN this

/-- The first order differential equation. -/
theorem first_order (h : Mod k) (hN : 1 ≤ N) :
    C (amp k N ^ 2) * ((1 - X ^ 2) * (1 - C (k ^ 2) * X ^ 2)) * wron k N ^ 2 =
      C (mult k N h hN ^ 2) * (passG k N * stopG k N) := by
  rw [wron_eq h hN, passG_eq h hN, stopG_eq h hN, mult, div_pow, sq_abs]
  have h1 := (lead_pos h hN).ne'
  have h2 : C (wcon k N h hN ^ 2 / lead k N ^ 2) * (C (lead k N) * C (lead k N)) = C (wcon k N h hN) ^ 2 := by
    rw [← C_mul, ← C_mul, ← C_pow]
    congr 1
    field_simp
  rw [C_mul]
  linear_combination -C (amp k N ^ 2) * ((1 - X ^ 2) * (1 - C (k ^ 2) * X ^ 2)) * (extE k N * extD k N) ^ 2 * h2

/-- The second order differential equation. -/
theorem second_order (h : Mod k) (hN : 1 ≤ N) :
    C (amp k N ^ 2) * ((1 - X ^ 2) * (1 - C (k ^ 2) * X ^ 2) *
        (derivative (wron k N) * denQ k N - 2 * wron k N * derivative (denQ k N)) -
      X * (1 + C (k ^ 2) - 2 * C (k ^ 2) * X ^ 2) * wron k N * denQ k N) =
    -C (mult k N h hN ^ 2) * numP k N *
      (C (amp k N ^ 2) * (1 + C (modulus k N ^ 2)) * denQ k N ^ 2 - 2 * C (modulus k N ^ 2) * numP k N ^ 2) := by
  have h1 := first_order h hN
  have h2 := congrArg derivative h1
  simp only [derivative_mul, derivative_C, derivative_pow, derivative_sub, derivative_one, derivative_X,
    Nat.cast_ofNat, C_ofNat] at h2
  have hw : (2 : ℝ[X]) * wron k N ≠ 0 := mul_ne_zero two_ne_zero (wron_ne h hN)
  refine mul_left_cancel₀ hw ?_
  have h3 := wron_pass (k := k) (N := N)
  have h4 := wron_stop (k := k) (N := N)
  have h5 : passG k N = C (amp k N ^ 2) * denQ k N ^ 2 - numP k N ^ 2 := rfl
  have h6 : stopG k N = C (amp k N ^ 2) * denQ k N ^ 2 - C (modulus k N ^ 2) * numP k N ^ 2 := rfl
  generalize derivative (passG k N) = G' at *
  generalize derivative (stopG k N) = H' at *
  generalize passG k N = G at *
  generalize stopG k N = H at *
  generalize derivative (denQ k N) = Q' at *
  generalize derivative (wron k N) = W' at *
  generalize denQ k N = Q at *
  generalize numP k N = P at *
  generalize wron k N = W at *
  generalize C (mult k N h hN ^ 2) = l at *
  generalize C (modulus k N ^ 2) = κ at *
  generalize C (amp k N ^ 2) = a at *
  generalize C (k ^ 2) = kk at *
  linear_combination Q * h2 - 4 * Q' * h1 + l * H * h3 + l * G * h4 - 2 * W * l * P * h6 - 2 * W * l * P * κ * h5

end Verif.Elliptic
