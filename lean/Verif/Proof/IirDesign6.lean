import Verif.Proof.IirDesign5
import Mathlib.Analysis.SpecialFunctions.Arsinh

/-!
# The Chebyshev prototypes
-/

namespace Verif.IirDesign
open Verif.PortableComplex Spec
open scoped ComplexConjugate
open Verif.PoleZero (chebAngle prod_angles cheb_norm)
open Polynomial.Chebyshev (T)

theorem T_neg_sq (n : ℕ) (x : ℝ) : (T ℝ n).eval (-x) ^ 2 = (T ℝ n).eval x ^ 2 := by
  have h : ∀ n : ℕ, (T ℝ (n : ℤ)).eval (-x) = (-1) ^ n * (T ℝ (n : ℤ)).eval x ∧
      (T ℝ ((n + 1 : ℕ) : ℤ)).eval (-x) = (-1) ^ (n + 1) * (T ℝ ((n + 1 : ℕ) : ℤ)).eval x := by
    intro n
    induction n with
    | zero => simp
    | succ n ih =>
      refine ⟨ih.2, ?_⟩
      have e : ((n + 1 + 1 : ℕ) : ℤ) = (n : ℤ) + 2 := by push_cast; ring
      have e1 : ((n + 1 : ℕ) : ℤ) = (n : ℤ) + 1 := by push_cast; ring
      have ih1 := ih.1
      have ih2 := ih.2
      rw [e1] at ih2
      rw [e, Polynomial.Chebyshev.T_add_two]
      simp only [Polynomial.eval_sub, Polynomial.eval_mul, Polynomial.eval_ofNat, Polynomial.eval_X]
      rw [ih1, ih2]
      ring
  rw [(h n).1, mul_pow, ← pow_mul, mul_comm n 2, pow_mul]
  simp

theorem epsilon_sq {r : ℝ} (hr : 0 ≤ r) : epsilon r ^ 2 = (10 : ℝ) ^ (r / 10) - 1 := by
  unfold epsilon
  have e : (10 : ℝ) ^ (r / 10) = Real.exp (Real.log 10 / 10 * r) := by
    rw [Real.rpow_def_of_pos (by norm_num)]
    congr 1
    ring
  rw [e, Real.sq_sqrt]
  have h1 : 0 ≤ Real.log 10 := Real.log_nonneg (by norm_num)
  have h2 := Real.add_one_le_exp (Real.log 10 / 10 * r)
  have h3 : 0 ≤ Real.log 10 / 10 * r := by positivity
  linarith

theorem epsilon_pos {r : ℝ} (hr : 0 < r) : 0 < epsilon r := by
  unfold epsilon
  apply Real.sqrt_pos.2
  have h1 : 0 < Real.log 10 := Real.log_pos (by norm_num)
  have h2 := Real.add_one_le_exp (Real.log 10 / 10 * r)
  have h3 : 0 < Real.log 10 / 10 * r := by positivity
  linarith

/-! ### Type 1 -/

noncomputable def c1Root (μ t : ℝ) : CD := PortableComplex.neg (PortableComplex.sinh ⟨μ, t⟩)

theorem c1Root_val (μ t : ℝ) : (c1Root μ t).val = -Complex.sinh (μ + t * Complex.I) := by
  have h1 := (C49_ring (PortableComplex.sinh ⟨μ, t⟩) (PortableComplex.sinh ⟨μ, t⟩) 0).2.1
  have h2 := (C49_exp_log_trig ⟨μ, t⟩).2.2.2.2.1
  unfold c1Root
  rw [h1, h2]
  congr 2
  apply Complex.ext <;> simp [CD.val]

theorem c1Root_conj (μ t : ℝ) : PortableComplex.conj (c1Root μ t) = c1Root μ (-t) := by
  simp [c1Root, PortableComplex.conj, PortableComplex.neg, PortableComplex.sinh]

theorem sinh_cos (μ t : ℝ) (w : ℝ) : ‖(w : ℂ) * Complex.I + Complex.sinh (μ + t * Complex.I)‖ =
    ‖(w : ℂ) - Complex.cos (((Real.pi / 2 + t : ℝ) : ℂ) - μ * Complex.I)‖ := by
  have h1 : Complex.cos (((Real.pi / 2 + t : ℝ) : ℂ) - μ * Complex.I)
      = Complex.sinh (μ + t * Complex.I) * Complex.I := by
    rw [← Complex.sin_mul_I]
    have e1 : ((Real.pi / 2 + t : ℝ) : ℂ) - μ * Complex.I = Real.pi / 2 - (μ + t * Complex.I) * Complex.I := by
      push_cast
      linear_combination (t : ℂ) * Complex.I_sq
    rw [e1, Complex.cos_pi_div_two_sub]
  rw [h1]
  have h2 : (w : ℂ) * Complex.I + Complex.sinh (μ + t * Complex.I)
      = Complex.I * ((w : ℂ) - Complex.sinh (μ + t * Complex.I) * Complex.I) := by
    linear_combination Complex.sinh (μ + t * Complex.I) * Complex.I_sq
  rw [h2, norm_mul, Complex.norm_I, one_mul]

theorem chebAngle_eq {n : ℕ} (hn : 0 < n) (j : ℕ) :
    Real.pi / 2 + chebAngle n j = Real.pi * (2 * j + 1) / (2 * n) := by
  have hn' : (n : ℝ) ≠ 0 := by exact_mod_cast hn.ne'
  unfold chebAngle
  field_simp
  ring

theorem cheb_sinh {n : ℕ} (hn : 0 < n) (μ w : ℝ) :
    ∏ j ∈ Finset.range n, ‖(w : ℂ) * Complex.I + Complex.sinh (μ + (chebAngle n j : ℝ) * Complex.I)‖ ^ 2
      = ((T ℝ n).eval w ^ 2 + Real.sinh (n * μ) ^ 2) / 4 ^ (n - 1) := by
  rw [← cheb_norm n hn]
  apply Finset.prod_congr rfl
  intro j _
  rw [sinh_cos, chebAngle_eq hn]

theorem c1_nrm {n : ℕ} (hn : 0 < n) (μ w : ℝ) : nrm ((full n (c1Root μ)).map CD.val) w
    = ((T ℝ n).eval w ^ 2 + Real.sinh (n * μ) ^ 2) / 4 ^ (n - 1) := by
  rw [← cheb_sinh hn]
  unfold nrm
  rw [full_ps hn (c1Root_conj μ), norm_prod, ← Finset.prod_pow]
  apply Finset.prod_congr rfl
  intro j _
  rw [c1Root_val, sub_neg_eq_add]

theorem mu1 {n : ℕ} (hn : 0 < n) {e : ℝ} (he : 0 < e) :
    Real.sinh (n * (Real.log ((1 + √(1 + e * e)) / e) / n)) = 1 / e ∧ 0 < Real.log ((1 + √(1 + e * e)) / e) / n := by
  have hn' : (0 : ℝ) < n := by exact_mod_cast hn
  have h1 : Real.log ((1 + √(1 + e * e)) / e) = Real.arsinh (1 / e) := by
    unfold Real.arsinh
    congr 1
    have : √(1 + (1 / e) ^ 2) = √(1 + e * e) / e := by
      have e1 : 1 + (1 / e) ^ 2 = (1 + e * e) / e ^ 2 := by field_simp; ring
      rw [e1, Real.sqrt_div (by positivity), Real.sqrt_sq he.le]
    rw [this]
    field_simp
  rw [h1]
  refine ⟨?_, div_pos (Real.arsinh_pos_iff.2 (by positivity)) hn'⟩
  rw [mul_div_cancel₀ _ hn'.ne', Real.sinh_arsinh]

theorem sinh_left {μ t : ℝ} (hμ : 0 < μ) (ht : |t| < Real.pi / 2) : 0 < (Complex.sinh (μ + t * Complex.I)).re := by
  have h2 := (C49_exp_log_trig ⟨μ, t⟩).2.2.2.2.1
  have e : (⟨μ, t⟩ : CD).val = (μ : ℂ) + t * Complex.I := by apply Complex.ext <;> simp [CD.val]
  rw [e] at h2
  rw [← h2]
  show 0 < Real.sinh μ * Real.cos t
  exact mul_pos (Real.sinh_pos_iff.2 hμ) (cos_pos_of ht)

theorem chebyshev1_proto (n : ℕ) (h1 : 1 ≤ n) (h2 : n ≤ 30) {r : ℝ} (hr : 0 < r) (mem : Zpk) :
    ∃ f, chebyshev1Prototype n r mem = .ok f ∧ Proto f n (chebyshev1 n r) ∧ zeros f = [] ∧
      poles f = (full n (c1Root (Real.log ((1 + √(1 + epsilon r * epsilon r)) / epsilon r) / n))).map CD.val := by
  unfold chebyshev1Prototype
  rw [if_neg (by omega)]
  dsimp only
  rw [Int.toNat_natCast, if_neg (by unfold maxDegree; omega)]
  have he := epsilon_pos hr
  have he2 := epsilon_sq hr.le
  obtain ⟨m1, m2⟩ := mu1 h1 he
  generalize hμ : Real.log ((1 + √(1 + epsilon r * epsilon r)) / epsilon r) / n = μ at *
  generalize epsilon r = e at *
  have hlist : (if n % 2 = 0 then ([] : List CD) else [⟨-Real.sinh μ, 0⟩])
      ++ rootPairs n (fun t => PortableComplex.neg (PortableComplex.sinh ⟨μ, t⟩)) = full n (c1Root μ) := by
    unfold full
    congr 1
    simp [c1Root, PortableComplex.neg, PortableComplex.sinh]
  rw [hlist]
  show ∃ f, Except.ok { (⟨mem.zeros, writeList mem.poles (full n (c1Root μ)), 0, n, 1⟩ : Zpk) with
    gain := if n % 2 = 0 then unitDc (⟨mem.zeros, writeList mem.poles (full n (c1Root μ)), 0, n, 1⟩ : Zpk) / √(1 + e * e)
      else unitDc (⟨mem.zeros, writeList mem.poles (full n (c1Root μ)), 0, n, 1⟩ : Zpk) } = Except.ok f ∧ _
  obtain ⟨z, hz⟩ : ∃ z : Zpk, z = ⟨mem.zeros, writeList mem.poles (full n (c1Root μ)), 0, n, 1⟩ := ⟨_, rfl⟩
  rw [← hz]
  have hpz : poles z = (full n (c1Root μ)).map CD.val := by
    rw [hz]
    exact entries_writeList _ (full_length _ _)
  have hzz : zeros z = [] := by rw [hz]; rfl
  have hleft : ∀ r ∈ poles z, r.re < 0 := by
    intro r hr
    rw [hpz] at hr
    obtain ⟨c, hc, rfl⟩ := List.mem_map.1 hr
    obtain ⟨t, rfl, ht, -⟩ := full_mem (c1Root_conj μ) hc
    rw [c1Root_val, Complex.neg_re]
    linarith [sinh_left m2 ht]
  have hne : ∀ p ∈ poles z, p ≠ 0 := by
    intro p hp h0
    have := hleft p hp
    rw [h0] at this
    simp at this
  refine ⟨_, rfl, ⟨⟨?_, ?_⟩, by rw [hz], by rw [hz]; simp, ?_, hleft, ?_⟩, hzz, hpz⟩
  · show ((zeros z).map conj).Perm (zeros z)
    rw [hzz]; exact List.Perm.refl _
  · show ((poles z).map conj).Perm (poles z)
    rw [hpz]; exact full_conj (by simp [c1Root, PortableComplex.neg, PortableComplex.sinh])
  · intro r hr
    have hr : r ∈ zeros z := hr
    rw [hzz] at hr
    simp at hr
  · intro w
    rw [power_eq]
    show (if n % 2 = 0 then unitDc z / √(1 + e * e) else unitDc z) ^ 2 * nrm (zeros z) w / nrm (poles z) w = _
    have hg := gain_sq hne (by rw [hz])
    have hnil : ∀ w, nrm ([] : List ℂ) w = 1 := by intro w; simp [nrm]
    rw [hzz, hpz, c1_nrm h1, hnil, div_one, m1] at hg
    rw [hzz, hpz, c1_nrm h1, hnil, m1, chebyshev1, ← he2]
    have h4 : (4 : ℝ) ^ (n - 1) ≠ 0 := by positivity
    have hT : 0 ≤ (T ℝ n).eval w ^ 2 := sq_nonneg _
    have hpos : (T ℝ n).eval w ^ 2 + (1 / e) ^ 2 ≠ 0 := by positivity
    have hpos2 : 1 + e ^ 2 * (T ℝ n).eval w ^ 2 ≠ 0 := by positivity
    rcases Nat.mod_two_eq_zero_or_one n with hm | hm
    · have hT0 : (T ℝ n).eval 0 ^ 2 = 1 := by
        have hev : Even (n : ℤ) := by rw [Int.even_iff]; omega
        rw [Polynomial.Chebyshev.T_eval_zero_of_even ℝ hev]
        rcases Int.even_or_odd ((n : ℤ) / 2) with h | h
        · rw [Int.negOnePow_even _ h]; simp
        · rw [Int.negOnePow_odd _ h]; simp
      rw [hT0] at hg
      rw [if_pos hm, div_pow, Real.sq_sqrt (by positivity), hg]
      generalize (T ℝ n).eval w ^ 2 = X at *
      have : 1 + e * e ≠ 0 := by positivity
      field_simp
      ring
    · have hT0 : (T ℝ n).eval 0 ^ 2 = 0 := by
        have hodd : Odd (n : ℤ) := by rw [Int.odd_iff]; omega
        rw [Polynomial.Chebyshev.T_eval_zero_of_odd ℝ hodd]
        simp
      rw [hT0] at hg
      rw [if_neg (by omega), hg]
      generalize (T ℝ n).eval w ^ 2 = X at *
      field_simp
      ring

/-! ### Type 2 -/

noncomputable def c2Root (μ t : ℝ) : CD := PortableComplex.div ⟨-1, 0⟩ (PortableComplex.sinh ⟨μ, t⟩)

theorem sinh_val (μ t : ℝ) : (PortableComplex.sinh ⟨μ, t⟩).val = Complex.sinh (μ + t * Complex.I) := by
  rw [(C49_exp_log_trig ⟨μ, t⟩).2.2.2.2.1]
  congr 1
  apply Complex.ext <;> simp [CD.val]

/-- For angles where the denominator does not vanish. -/
theorem c2Root_val {μ t : ℝ} (h : Complex.sinh (μ + t * Complex.I) ≠ 0) :
    (c2Root μ t).val = -1 / Complex.sinh (μ + t * Complex.I) := by
  unfold c2Root
  rw [div_eq (by rw [sinh_val]; exact h), sinh_val, val_real]
  push_cast
  rfl

theorem sinh_ne {μ : ℝ} (hμ : 0 < μ) (t : ℝ) : Complex.sinh (μ + t * Complex.I) ≠ 0 := by
  intro h
  rw [← sinh_val] at h
  have h1 : Real.sinh μ * Real.cos t = 0 := congrArg Complex.re h
  have h2 : Real.cosh μ * Real.sin t = 0 := congrArg Complex.im h
  have h3 : Real.cos t = 0 := by
    rcases mul_eq_zero.1 h1 with h | h
    · exact absurd h (Real.sinh_pos_iff.2 hμ).ne'
    · exact h
  have h4 : Real.sin t = 0 := by
    rcases mul_eq_zero.1 h2 with h | h
    · exact absurd h (Real.cosh_pos _).ne'
    · exact h
  have := Real.cos_sq_add_sin_sq t
  rw [h3, h4] at this
  norm_num at this

theorem c2Root_conj {μ : ℝ} (hμ : 0 < μ) (t : ℝ) : PortableComplex.conj (c2Root μ t) = c2Root μ (-t) := by
  apply CD.val_inj
  have e : (PortableComplex.conj (c2Root μ t)).val = conj (c2Root μ t).val := rfl
  rw [e, c2Root_val (sinh_ne hμ _), c2Root_val (sinh_ne hμ _), map_div₀, ← Complex.sinh_conj]
  simp

theorem c2Root_zero {μ : ℝ} (hμ : 0 < μ) : c2Root μ 0 = ⟨-1 / Real.sinh μ, 0⟩ := by
  apply CD.val_inj
  rw [c2Root_val (sinh_ne hμ _), val_real]
  simp

theorem c2_left {μ t : ℝ} (hμ : 0 < μ) (ht : |t| < Real.pi / 2) : (c2Root μ t).val.re < 0 := by
  rw [c2Root_val (sinh_ne hμ _), neg_div, Complex.neg_re, one_div, Complex.inv_re, neg_lt_zero]
  exact div_pos (sinh_left hμ ht) (Complex.normSq_pos.2 (sinh_ne hμ _))

theorem c2_factor {μ : ℝ} (hμ : 0 < μ) (t : ℝ) {w : ℝ} (hw : w ≠ 0) :
    ‖(w : ℂ) * Complex.I - (c2Root μ t).val‖ ^ 2 = w ^ 2 * ‖(c2Root μ t).val‖ ^ 2 *
      ‖((-w⁻¹ : ℝ) : ℂ) * Complex.I + Complex.sinh (μ + t * Complex.I)‖ ^ 2 := by
  have hS := sinh_ne hμ t
  rw [c2Root_val hS]
  generalize Complex.sinh (μ + t * Complex.I) = S at *
  have hw' : (w : ℂ) ≠ 0 := by exact_mod_cast hw
  have e : (w : ℂ) * Complex.I - -1 / S = (w * Complex.I * (-(-1 / S))) * (((-w⁻¹ : ℝ) : ℂ) * Complex.I + S) := by
    push_cast
    field_simp
    linear_combination Complex.I_sq
  rw [e, norm_mul, norm_mul, norm_mul, norm_neg, Complex.norm_I, Complex.norm_real, mul_one, mul_pow, mul_pow,
    Real.norm_eq_abs, sq_abs]

theorem c2_nrm {n : ℕ} (hn : 0 < n) {μ : ℝ} (hμ : 0 < μ) {w : ℝ} (hw : w ≠ 0) :
    nrm ((full n (c2Root μ)).map CD.val) w = w ^ (2 * n) * nrm ((full n (c2Root μ)).map CD.val) 0 *
      (((T ℝ n).eval w⁻¹ ^ 2 + Real.sinh (n * μ) ^ 2) / 4 ^ (n - 1)) := by
  rw [← T_neg_sq, ← cheb_sinh hn]
  unfold nrm
  rw [full_ps hn (c2Root_conj hμ), full_ps hn (c2Root_conj hμ), norm_prod, norm_prod, ← Finset.prod_pow,
    ← Finset.prod_pow]
  have e : w ^ (2 * n) = ∏ _j ∈ Finset.range n, w ^ 2 := by
    rw [Finset.prod_const, Finset.card_range, ← pow_mul]
  rw [e, ← Finset.prod_mul_distrib, ← Finset.prod_mul_distrib]
  apply Finset.prod_congr rfl
  intro j _
  rw [c2_factor hμ _ hw]
  simp

/-- The zeros. -/
noncomputable def c2Zero (t : ℝ) : CD := ⟨0, 1 / Real.sin t⟩

theorem theta_sin {n k : ℕ} (hk : k < n / 2) : 0 < Real.sin (theta n (k + 1)) := by
  obtain ⟨b1, b2⟩ := theta_bounds hk
  have hn : (0 : ℝ) < n := by
    have : 0 < n := by omega
    exact_mod_cast this
  have hpos : 0 < Real.pi / (2 * n) := by
    have := Real.pi_pos
    positivity
  exact Real.sin_pos_of_pos_of_lt_pi (by linarith) (by linarith [Real.pi_pos])

theorem z2_nrm (n : ℕ) (w : ℝ) : nrm ((rootPairs n c2Zero).map CD.val) w =
    ∏ k ∈ Finset.range (n / 2), (w ^ 2 - (1 / Real.sin (theta n (k + 1))) ^ 2) ^ 2 := by
  unfold nrm
  rw [rootPairs_ps, norm_prod, ← Finset.prod_pow]
  apply Finset.prod_congr rfl
  intro k _
  have e1 : (c2Zero (theta n (k + 1))).val = ((1 / Real.sin (theta n (k + 1)) : ℝ) : ℂ) * Complex.I := by
    unfold c2Zero
    generalize (1 / Real.sin (theta n (k + 1)) : ℝ) = x
    apply Complex.ext <;> simp [CD.val]
  rw [e1]
  generalize (1 / Real.sin (theta n (k + 1)) : ℝ) = x
  have e2 : ((w : ℂ) * Complex.I - conj ((x : ℂ) * Complex.I)) * ((w : ℂ) * Complex.I - (x : ℂ) * Complex.I)
      = ((x ^ 2 - w ^ 2 : ℝ) : ℂ) := by
    rw [map_mul, Complex.conj_ofReal, Complex.conj_I]
    push_cast
    linear_combination ((w : ℂ) ^ 2 - x ^ 2) * Complex.I_sq
  rw [e2, Complex.norm_real, Real.norm_eq_abs, sq_abs]
  ring

theorem z2_T {n : ℕ} (hn : 0 < n) {w : ℝ} (hw : w ≠ 0) : nrm ((rootPairs n c2Zero).map CD.val) w =
    nrm ((rootPairs n c2Zero).map CD.val) 0 * (w ^ (2 * n) * ((T ℝ n).eval w⁻¹ ^ 2 / 4 ^ (n - 1))) := by
  have h0 := cheb_norm n hn 0 w⁻¹
  rw [mul_zero, Real.sinh_zero, zero_pow two_ne_zero, add_zero] at h0
  have h1 : ∏ j ∈ Finset.range n, ‖((w⁻¹ : ℝ) : ℂ) - Complex.cos ((Real.pi * (2 * j + 1) / (2 * n) : ℝ) - ((0 : ℝ) : ℂ) * Complex.I)‖ ^ 2
      = ∏ j ∈ Finset.range n, (w⁻¹ + Real.sin (chebAngle n j)) ^ 2 := by
    apply Finset.prod_congr rfl
    intro j _
    rw [Complex.ofReal_zero, zero_mul, sub_zero, ← Complex.ofReal_cos, ← Complex.ofReal_sub, Complex.norm_real,
      Real.norm_eq_abs, sq_abs, ← chebAngle_eq hn, add_comm (Real.pi / 2), Real.cos_add_pi_div_two, sub_neg_eq_add]
  rw [h1, prod_angles n hn (fun t => (w⁻¹ + Real.sin t) ^ 2)] at h0
  rw [z2_nrm, z2_nrm, ← h0]
  have h2 : ∏ k ∈ Finset.range (n / 2), ((w⁻¹ + Real.sin (-(Real.pi / n * ((k : ℝ) + 1 - (if n % 2 = 0 then 1 else 0) * (1 / 2))))) ^ 2 *
        (w⁻¹ + Real.sin (Real.pi / n * ((k : ℝ) + 1 - (if n % 2 = 0 then 1 else 0) * (1 / 2)))) ^ 2)
      = ∏ k ∈ Finset.range (n / 2), (w⁻¹ ^ 2 - Real.sin (theta n (k + 1)) ^ 2) ^ 2 := by
    apply Finset.prod_congr rfl
    intro k _
    have e : theta n (k + 1) = Real.pi / n * ((k : ℝ) + 1 - (if n % 2 = 0 then 1 else 0) * (1 / 2)) := by
      unfold theta
      push_cast
      rfl
    rw [← e, Real.sin_neg]
    ring
  rw [h2]
  have h3 : w ^ (2 * n) * (if n % 2 = 1 then (w⁻¹ + Real.sin 0) ^ 2 else 1) = ∏ _k ∈ Finset.range (n / 2), w ^ 4 := by
    rw [Finset.prod_const, Finset.card_range, ← pow_mul, Real.sin_zero, add_zero]
    rcases Nat.mod_two_eq_zero_or_one n with hm | hm
    · rw [if_neg (by omega), mul_one]
      congr 1
      omega
    · rw [if_pos hm]
      have : 2 * n = 4 * (n / 2) + 2 := by omega
      rw [this, pow_add]
      field_simp
  rw [← mul_assoc (w ^ (2 * n)), h3, ← Finset.prod_mul_distrib, ← Finset.prod_mul_distrib]
  apply Finset.prod_congr rfl
  intro k hk
  have hs := theta_sin (Finset.mem_range.1 hk)
  generalize Real.sin (theta n (k + 1)) = x at *
  field_simp
  ring

theorem mu2 {n : ℕ} (hn : 0 < n) {e : ℝ} (he : 0 < e) :
    Real.sinh (n * (Real.log (e + √(1 + e * e)) / n)) = e ∧ 0 < Real.log (e + √(1 + e * e)) / n := by
  have hn' : (0 : ℝ) < n := by exact_mod_cast hn
  have h1 : Real.log (e + √(1 + e * e)) = Real.arsinh e := by
    unfold Real.arsinh
    rw [pow_two]
  rw [h1]
  refine ⟨?_, div_pos (Real.arsinh_pos_iff.2 he) hn'⟩
  rw [mul_div_cancel₀ _ hn'.ne', Real.sinh_arsinh]

theorem chebyshev2_proto (n : ℕ) (h1 : 1 ≤ n) (h2 : n ≤ 30) {r : ℝ} (hr : 0 < r) (mem : Zpk) :
    ∃ f, chebyshev2Prototype n r mem = .ok f ∧ Proto f n (chebyshev2 n r) ∧
      zeros f = (rootPairs n c2Zero).map CD.val ∧
      poles f = (full n (c2Root (Real.log (epsilon r + √(1 + epsilon r * epsilon r)) / n))).map CD.val := by
  unfold chebyshev2Prototype
  rw [if_neg (by omega)]
  dsimp only
  rw [Int.toNat_natCast, if_neg (by unfold maxDegree; omega)]
  have he := epsilon_pos hr
  have he2 := epsilon_sq hr.le
  obtain ⟨m1, m2⟩ := mu2 h1 he
  generalize hμ : Real.log (epsilon r + √(1 + epsilon r * epsilon r)) / n = μ at *
  generalize epsilon r = e at *
  have hlist : (if n % 2 = 0 then ([] : List CD) else [⟨-1 / Real.sinh μ, 0⟩])
      ++ rootPairs n (fun t => PortableComplex.div ⟨-1, 0⟩ (PortableComplex.sinh ⟨μ, t⟩)) = full n (c2Root μ) := by
    unfold full
    rw [c2Root_zero m2]
    rfl
  rw [hlist]
  show ∃ f, Except.ok { (⟨writeList mem.zeros (rootPairs n c2Zero), writeList mem.poles (full n (c2Root μ)), n - n % 2, n, 1⟩ : Zpk) with
    gain := unitDc (⟨writeList mem.zeros (rootPairs n c2Zero), writeList mem.poles (full n (c2Root μ)), n - n % 2, n, 1⟩ : Zpk) }
      = Except.ok f ∧ _
  obtain ⟨z, hz⟩ : ∃ z : Zpk, z = ⟨writeList mem.zeros (rootPairs n c2Zero), writeList mem.poles (full n (c2Root μ)),
    n - n % 2, n, 1⟩ := ⟨_, rfl⟩
  rw [← hz]
  have hpz : poles z = (full n (c2Root μ)).map CD.val := by
    rw [hz]
    exact entries_writeList _ (full_length _ _)
  have hzz : zeros z = (rootPairs n c2Zero).map CD.val := by
    rw [hz]
    exact entries_writeList _ (by rw [rootPairs_length]; show _ = n - n % 2; omega)
  have hleft : ∀ r ∈ poles z, r.re < 0 := by
    intro r hr
    rw [hpz] at hr
    obtain ⟨c, hc, rfl⟩ := List.mem_map.1 hr
    obtain ⟨t, rfl, ht, -⟩ := full_mem (c2Root_conj m2) hc
    exact c2_left m2 ht
  have hne : ∀ p ∈ poles z, p ≠ 0 := by
    intro p hp h0
    have := hleft p hp
    rw [h0] at this
    simp at this
  have him : ∀ r ∈ zeros z, r.re = 0 ∧ r ≠ 0 := by
    intro r hr
    rw [hzz] at hr
    obtain ⟨c, hc, rfl⟩ := List.mem_map.1 hr
    unfold rootPairs at hc
    rw [List.mem_flatMap] at hc
    obtain ⟨k, hk, hc⟩ := hc
    have hs := theta_sin (List.mem_range.1 hk)
    have hi : 1 / Real.sin (theta n (k + 1)) ≠ 0 := by positivity
    have key : c.real = 0 ∧ c.imag ≠ 0 := by
      rcases List.mem_cons.1 hc with rfl | hc
      · exact ⟨rfl, neg_ne_zero.2 hi⟩
      · rw [List.mem_singleton.1 hc]
        exact ⟨rfl, hi⟩
    refine ⟨key.1, fun h => key.2 ?_⟩
    exact congrArg Complex.im h
  refine ⟨_, rfl, ⟨⟨?_, ?_⟩, by rw [hz], by rw [hz]; simp, him, hleft, ?_⟩, hzz, hpz⟩
  · show ((zeros z).map conj).Perm (zeros z)
    rw [hzz]; exact rootPairs_conj _ _
  · show ((poles z).map conj).Perm (poles z)
    rw [hpz]; exact full_conj (by rw [c2Root_zero m2])
  · intro w
    rw [power_eq]
    show unitDc z ^ 2 * nrm (zeros z) w / nrm (poles z) w = _
    have hz0 : nrm (zeros z) 0 ≠ 0 := by
      unfold nrm
      apply pow_ne_zero
      rw [norm_ne_zero_iff, Complex.ofReal_zero, zero_mul]
      exact ps_ne.2 fun r hr => (him r hr).2
    have hp0 : nrm (poles z) 0 ≠ 0 := by
      unfold nrm
      apply pow_ne_zero
      rw [norm_ne_zero_iff, Complex.ofReal_zero, zero_mul]
      exact ps_ne.2 hne
    have hg := gain_sq hne (by rw [hz])
    by_cases hw : w = 0
    · rw [chebyshev2, if_pos hw, hw, hg]
      field_simp
    have ez := z2_T h1 hw
    have ep := c2_nrm h1 m2 hw
    rw [← hzz] at ez
    rw [← hpz, m1] at ep
    rw [hg, ez, ep, chebyshev2, if_neg hw, ← he2]
    have h4 : (4 : ℝ) ^ (n - 1) ≠ 0 := by positivity
    have hw2 : w ^ (2 * n) ≠ 0 := pow_ne_zero _ hw
    have hT : 0 ≤ (T ℝ n).eval w⁻¹ ^ 2 := sq_nonneg _
    have hpos : (T ℝ n).eval w⁻¹ ^ 2 + e ^ 2 ≠ 0 := by positivity
    have hpos' : e ^ 2 + (T ℝ n).eval w⁻¹ ^ 2 ≠ 0 := by positivity
    generalize (T ℝ n).eval w⁻¹ ^ 2 = X at *
    generalize w ^ (2 * n) = W at *
    field_simp
    ring

end Verif.IirDesign
