import Verif.Proof.Elliptic5
import Verif.Proof.Elliptic6

/-!
# C88, C89: elliptic integrals and the Jacobi amplitude

Specification: `Verif/Spec/Elliptic.lean`. The theorems are about both implementations, C++ (`Verif.Elliptic`) and C
(`Verif.PortableElliptic`). The largest `double` below 1 is `1 - 2⁻⁵³`.
-/

namespace Verif.Elliptic
open Verif.Elliptic.Spec Verif.PoleZero Verif.PortableComplex

theorem last_final (n : ℕ) (k : ℝ) : (k :: landenLoop n k).getLast? = some (finalK n k) := by
  induction n generalizing k with
  | zero => rfl
  | succ n ih =>
    by_cases h : eps < k
    · rw [loop_go h, finalK, if_pos h, List.getLast?_cons_cons, ih]
    · rw [loop_stop h, final_stop h]; rfl

/-- **C88.** For every parameter the sequence of moduli fits the ten entries of the array of the C code, its entries
are in `[0, 1)`, each at most the square of the earlier ones, and it has converged: no warning. -/
theorem C88_moduli {m : ℝ} (h0 : 0 ≤ m) (h1 : m ≤ 1 - (1 / 2) ^ 53) :
    (landenSequence m).length ≤ 10 ∧ (∀ k ∈ landenSequence m, 0 ≤ k ∧ k < 1) ∧
      (landenSequence m).Pairwise (fun a b => b ≤ a ^ 2) ∧
      ∃ k, (landenSequence m).getLast? = some k ∧ k ≤ eps := by
  obtain ⟨k0, k1, k2, hf⟩ := converged h0 h1
  refine ⟨?_, ?_, loop_chain k0 k1, _, last_final 9 _, hf⟩
  · rw [landenSequence, List.length_cons]
    exact Nat.succ_le_succ (loop_length 9 _)
  · intro k hk
    rcases List.mem_cons.1 hk with rfl | hk
    · exact ⟨k0, k1⟩
    · exact loop_range k0 k1 k hk

theorem K_final {m : ℝ} (h0 : 0 ≤ m) (h1 : m ≤ 1 - (1 / 2) ^ 53) :
    |K m - kFromLanden (landenSequence m)| ≤ (1 / 2) ^ 104 * kFromLanden (landenSequence m) ∧
      0 < kFromLanden (landenSequence m) := by
  obtain ⟨k0, k1, k2, hf⟩ := converged h0 h1
  obtain ⟨f0, f1⟩ := final_range (n := 9) k0 k1
  have hP := prodK_pos (n := 9) k0 k1
  have hpi := Real.pi_pos
  have hone : ∀ {n : ℕ} {k : ℝ}, 0 ≤ k → k < 1 → ascend (landenLoop n k) 1 = 1 := by
    intro n
    induction n with
    | zero => intros; rfl
    | succ n ih =>
      intro k h0 h1
      obtain ⟨g0, g1, -⟩ := step_facts h0 h1
      by_cases h : eps < k
      · rw [loop_go h, ascend, List.foldr_cons]
        have := ih g0 g1
        rw [ascend] at this
        rw [this, gauss]
        field_simp
      · rw [loop_stop h]; rfl
  have e := (ascend_F (n := 9) k0 k1 (s := 1) (by norm_num)).2
  rw [hone k0 k1, Real.arcsin_one, k2] at e
  have hb := F_final (φ := Real.pi / 2) f0 hf
  rw [abs_of_pos (show 0 < Real.pi / 2 by linarith)] at hb
  rw [kFromLanden_eq]
  have hpos : 0 < Real.pi / 2 * prodK 9 √m := by positivity
  refine ⟨?_, hpos⟩
  rw [K, e, mul_comm (Real.pi / 2), ← mul_sub, abs_mul, abs_of_pos (by linarith : 0 < prodK 9 √m)]
  calc prodK 9 √m * |F (Real.pi / 2) (finalK 9 √m ^ 2) - Real.pi / 2|
      ≤ prodK 9 √m * ((1 / 2) ^ 104 * (Real.pi / 2)) := mul_le_mul_of_nonneg_left hb (by linarith)
    _ = _ := by ring

/-- **C88.** `EllipticK` is the complete elliptic integral up to one part in `10 ^ 24`, for every parameter below 1. -/
theorem C88_K {m : ℝ} (h0 : 0 ≤ m) (h1 : m < 1) :
    ∃ x, ellipticK m = some x ∧ 0 < x ∧ |K m - x| ≤ 1 / 10 ^ 24 * x := by
  rw [ellipticK, if_neg h1.ne]
  by_cases h : 1 - 1 / 10 ^ 12 < m
  · rw [if_pos h]
    refine ⟨_, rfl, ?_⟩
    have hm1 : 0 < 1 - m := by linarith
    have hc0 : 0 < √(1 - m) := Real.sqrt_pos.2 hm1
    have hc2 := Real.sq_sqrt hm1.le
    have hc1 : √(1 - m) ≤ 1 / 2 := by
      refine Real.sqrt_le_iff.2 ⟨by norm_num, ?_⟩
      have : (1 / 10 ^ 12 : ℝ) < (1 / 2) ^ 2 := by norm_num
      linarith
    have hn := near_one hc0 hc1
    have hl := lam_ge hc0 hc1
    have et : -(1 / 2) * Real.log ((1 - m) / 16) = lam √(1 - m) := by
      rw [lam_eq hc0, Real.log_div hm1.ne' (by norm_num), Real.log_sqrt hm1.le,
        show (16 : ℝ) = 2 ^ 4 by norm_num, Real.log_pow]
      push_cast
      ring
    rw [et]
    have ek : kap √(1 - m) = K m := by rw [kap, hc2, sub_sub_cancel]
    rw [ek, hc2] at hn
    have h4 : √(1 - m) ^ 4 ≤ 1 / 10 ^ 24 := by
      rw [show √(1 - m) ^ 4 = (√(1 - m) ^ 2) ^ 2 by ring, hc2]
      have : (1 - m) ^ 2 ≤ (1 / 10 ^ 12) ^ 2 := pow_le_pow_left₀ hm1.le (by linarith) 2
      refine this.trans (le_of_eq (by norm_num))
    generalize lam √(1 - m) = L at *
    have hge : L ≤ L + (L - 1) * (1 - m) / 4 := by
      have : 0 ≤ (L - 1) * (1 - m) / 4 := by
        have : 0 ≤ L - 1 := by linarith
        positivity
      linarith
    refine ⟨by linarith, hn.trans ?_⟩
    exact mul_le_mul h4 hge (by linarith) (by norm_num)
  · rw [if_neg h]
    have hle : m ≤ 1 - (1 / 2) ^ 53 := by
      have : ((1 / 2) ^ 53 : ℝ) ≤ 1 / 10 ^ 12 := by norm_num
      linarith
    obtain ⟨a, b⟩ := K_final h0 hle
    refine ⟨_, rfl, b, a.trans (mul_le_mul_of_nonneg_right ?_ b.le)⟩
    norm_num

/-- **C88.** At `m = 1` the result is infinite, and so is the integral: `K` is unbounded below 1. -/
theorem C88_K_one : ellipticK 1 = none ∧ Filter.Tendsto K (nhdsWithin 1 (Set.Iio 1)) Filter.atTop := by
  refine ⟨by rw [ellipticK, if_pos rfl], ?_⟩
  have h1 : Filter.Tendsto (fun m : ℝ => √(1 - m)) (nhdsWithin 1 (Set.Iio 1)) (nhdsWithin 0 (Set.Ioi 0)) := by
    refine tendsto_nhdsWithin_iff.2 ⟨?_, ?_⟩
    · have hc : ContinuousAt (fun m : ℝ => √(1 - m)) 1 := by fun_prop
      have := hc.tendsto
      rw [sub_self, Real.sqrt_zero] at this
      exact this.mono_left nhdsWithin_le_nhds
    · filter_upwards [self_mem_nhdsWithin] with m hm
      exact Real.sqrt_pos.2 (sub_pos.2 hm)
  have h2 := Filter.tendsto_neg_atBot_atTop.comp (Real.tendsto_log_nhdsGT_zero.comp h1)
  refine Filter.tendsto_atTop_mono' _ ?_ h2
  have hin : Set.Ioo (0 : ℝ) 1 ∈ nhdsWithin 1 (Set.Iio 1) := Ioo_mem_nhdsLT one_pos
  filter_upwards [hin] with m hm
  have hm1 : 0 < 1 - m := by linarith [hm.2]
  have h := kap_lower (c := √(1 - m)) (Real.sqrt_pos.2 hm1) (Real.sqrt_le_iff.2 ⟨by norm_num, by linarith [hm.1]⟩)
  rw [kap, Real.sq_sqrt hm1.le, sub_sub_cancel] at h
  exact h

/-! ## Incomplete integral -/

variable {sq as : ℂ → ℂ}

theorem Prims.loop_real (hp : Prims sq as) {n : ℕ} {k : ℝ} (h0 : 0 ≤ k) (h1 : k < 1) {s : ℝ} (hs : s ^ 2 ≤ 1) :
    gLoop sq (k :: landenLoop n k) (s : ℂ) = ((descendAll (k :: landenLoop n k) s : ℝ) : ℂ) := by
  induction n generalizing k s with
  | zero => rfl
  | succ n ih =>
    obtain ⟨g0, g1, -⟩ := step_facts h0 h1
    by_cases h : eps < k
    · have hr : 0 ≤ 1 - (k * s) ^ 2 := by
        nlinarith [mul_le_mul (show k ^ 2 ≤ 1 by nlinarith) hs (sq_nonneg s) one_pos.le]
      have e : (1 - (k * s) ^ 2 : ℂ) = ((1 - (k * s) ^ 2 : ℝ) : ℂ) := by push_cast; rfl
      rw [loop_go h, gLoop, descendAll, e, hp.sqrt_real hr]
      have d2 := (gauss_descend h0 h1 hs).2
      have := ih g0 g1 d2
      rw [descend] at this
      rw [← this]
      congr 1
      push_cast
      rfl
    · rw [loop_stop h]; rfl

theorem Prims.F_real (hp : Prims sq as) {m φ : ℝ} (h0 : 0 ≤ m) (h1 : m ≤ 1 - (1 / 2) ^ 53) (hφ : |φ| ≤ Real.pi / 2)
    (hl : 1 / 10 ^ 3 ≤ |φ|) :
    gF sq as φ m
      = ((prodK 9 √m * Real.arcsin (descendAll (√m :: landenLoop 9 √m) (Real.sin φ)) : ℝ) : ℂ) ∧
    |F φ m - prodK 9 √m * Real.arcsin (descendAll (√m :: landenLoop 9 √m) (Real.sin φ))|
      ≤ (1 / 2) ^ 104 * |prodK 9 √m * Real.arcsin (descendAll (√m :: landenLoop 9 √m) (Real.sin φ))| := by
  obtain ⟨k0, k1, k2, hf⟩ := converged h0 h1
  obtain ⟨f0, f1⟩ := final_range (n := 9) k0 k1
  have hP := prodK_pos (n := 9) k0 k1
  have hs := Real.sin_sq_le_one φ
  obtain ⟨a1, a2⟩ := ascend_descend (n := 9) k0 k1 hs
  constructor
  · rw [gF, if_neg (by rw [Complex.norm_real, Real.norm_eq_abs]; exact not_lt.2 hl), landenSequence, ← Complex.ofReal_sin,
      hp.loop_real k0 k1 hs, hp.as_real a2, ← landenSequence, kFromLanden_eq, ← Complex.ofReal_mul]
    congr 1
    have := Real.pi_ne_zero
    field_simp
  · have e := (ascend_F (n := 9) k0 k1 a2).2
    rw [a1, Real.arcsin_sin (by linarith [abs_le.1 hφ]) (abs_le.1 hφ).2, k2] at e
    generalize Real.arcsin (descendAll (√m :: landenLoop 9 √m) (Real.sin φ)) = x at *
    rw [e, ← mul_sub, abs_mul, abs_mul, abs_of_pos (by linarith : 0 < prodK 9 √m)]
    calc prodK 9 √m * |F x (finalK 9 √m ^ 2) - x| ≤ prodK 9 √m * ((1 / 2) ^ 104 * |x|) :=
          mul_le_mul_of_nonneg_left (F_final f0 hf) (by linarith)
      _ = _ := by ring

theorem cd_of_val {z : CD} {r : ℝ} (h : z.val = (r : ℂ)) : z = ⟨r, 0⟩ := CD.val_inj h

/-- **C88.** On the real line both implementations of `EllipticF` return the same real number, the integral up to
`2⁻¹⁰⁴` of it, for every parameter below 1 and every amplitude not below `10⁻³`. -/
theorem C88_F_real {m φ : ℝ} (h0 : 0 ≤ m) (h1 : m ≤ 1 - (1 / 2) ^ 53) (hφ : |φ| ≤ Real.pi / 2)
    (hl : 1 / 10 ^ 3 ≤ |φ|) :
    ∃ r : ℝ, ellipticF φ m = (r : ℂ) ∧ PortableElliptic.ellipticF ⟨φ, 0⟩ m = ⟨r, 0⟩ ∧
      |F φ m - r| ≤ (1 / 2) ^ 104 * |r| := by
  obtain ⟨e1, b⟩ := prims_cpp.F_real h0 h1 hφ hl
  refine ⟨_, by rw [ellipticF_g, e1], cd_of_val ?_, b⟩
  rw [portable_F]
  exact (prims_c.F_real h0 h1 hφ hl).1

/-- **C88.** `EllipticF` at `π/2` is `EllipticK` (outside the range of the asymptotic formula). -/
theorem C88_F_complete {m : ℝ} (h0 : 0 ≤ m) (h1 : m ≤ 1 - 1 / 10 ^ 12) :
    ∃ x : ℝ, ellipticK m = some x ∧ ellipticF ((Real.pi / 2 : ℝ) : ℂ) m = (x : ℂ) := by
  have hle : m ≤ 1 - (1 / 2) ^ 53 := by
    have : ((1 / 2) ^ 53 : ℝ) ≤ 1 / 10 ^ 12 := by norm_num
    linarith
  obtain ⟨k0, k1, k2, hf⟩ := converged h0 hle
  have hpi := Real.pi_gt_three
  have hne : m ≠ 1 := fun h => by rw [h] at h1; norm_num at h1
  refine ⟨_, by rw [ellipticK, if_neg hne, if_neg (not_lt.2 h1)], ?_⟩
  have habs : |Real.pi / 2| = Real.pi / 2 := abs_of_pos (by linarith)
  rw [ellipticF_g, (prims_cpp.F_real h0 hle (by rw [habs]) (by rw [habs]; norm_num; linarith)).1, kFromLanden_eq,
    Real.sin_pi_div_two]
  have hone : ∀ {n : ℕ} {k : ℝ}, 0 ≤ k → k < 1 → descendAll (k :: landenLoop n k) 1 = 1 := by
    intro n
    induction n with
    | zero => intros; rfl
    | succ n ih =>
      intro k h0 h1
      obtain ⟨g0, g1, -, -, g4⟩ := step_facts h0 h1
      by_cases h : eps < k
      · rw [loop_go h, descendAll, mul_one, pow_two, g4, div_self two_ne_zero, one_mul]
        exact ih g0 g1
      · rw [loop_stop h]; rfl
  rw [hone k0 k1, Real.arcsin_one, mul_comm]

/-- **C88.** Complex amplitudes: both implementations are within `2⁻⁵² ∫ |dz / √(1 - m sin² z)|` of the integral, in
the open strip `|Re φ| < π/2`. The last hypothesis only excludes parameters between 0 and `2⁻¹⁰⁴` with an imaginary
part above 17. -/
theorem C88_F_complex {m : ℝ} {φ : ℂ} (h0 : 0 ≤ m) (h1 : m ≤ 1 - (1 / 2) ^ 53) (hφ : |φ.re| < Real.pi / 2)
    (hl : 1 / 10 ^ 3 ≤ ‖φ‖) (hm : eps < √m ∨ m * Real.cosh φ.im ^ 2 ≤ eps) :
    ‖ellipticF φ m - Fc φ m‖ ≤ eps * Fabs φ m ∧
    ‖(PortableElliptic.ellipticF ⟨φ.re, φ.im⟩ m).val - Fc φ m‖ ≤ eps * Fabs φ m := by
  obtain ⟨k0, k1, k2, hf⟩ := converged h0 h1
  obtain ⟨f0, f1⟩ := final_range (n := 9) k0 k1
  have hB : ∀ t ∈ Set.Icc (0 : ℝ) 1,
      ‖(finalK 9 √m * gLoop csqrt (√m :: landenLoop 9 √m) (Complex.sin (t * φ)) : ℂ) ^ 2‖ ≤ eps := by
    intro t ht
    by_cases hk : eps < √m
    · obtain ⟨d', -, -, c3⟩ := curve_loop (inner_conn φ) (inner_unit hφ (by simp)) 9 (sin_curve φ) k0 k1
      have h := c3 (by norm_num) hk t
      have e : (finalK 9 √m * gLoop csqrt (√m :: landenLoop 9 √m) (Complex.sin (t * φ)) : ℂ) ^ 2
          = finalK 9 √m * (finalK 9 √m * gLoop csqrt (√m :: landenLoop 9 √m) (Complex.sin (t * φ)) ^ 2) := by ring
      rw [e, norm_mul, Complex.norm_real, Real.norm_of_nonneg f0]
      exact (mul_le_of_le_one_right f0 h).trans hf
    · have hc := hm.resolve_left hk
      rw [loop_stop hk, final_stop hk, gLoop, norm_pow, norm_mul, Complex.norm_real, Real.norm_of_nonneg k0, mul_pow, k2]
      refine le_trans (mul_le_mul_of_nonneg_left ?_ h0) hc
      rw [show (t : ℂ) * φ = ⟨t * φ.re, t * φ.im⟩ from
        Complex.ext (Complex.re_ofReal_mul t φ) (Complex.im_ofReal_mul t φ), sin_parts, ← Complex.normSq_eq_norm_sq,
        Complex.normSq_apply]
      dsimp only
      have hcs := Real.cosh_sq (t * φ.im)
      have hsc := Real.sin_sq_add_cos_sq (t * φ.re)
      have hmono : Real.cosh (t * φ.im) ≤ Real.cosh φ.im := by
        rw [Real.cosh_le_cosh, abs_mul, abs_of_nonneg ht.1]
        exact mul_le_of_le_one_left (abs_nonneg _) ht.2
      have hp := Real.cosh_pos (t * φ.im)
      have : Real.cosh (t * φ.im) ^ 2 ≤ Real.cosh φ.im ^ 2 := pow_le_pow_left₀ hp.le hmono 2
      nlinarith [sq_nonneg (Real.sin (t * φ.re)), sq_nonneg (Real.cos (t * φ.re))]
  have main := F_complex k0 k1 9 hφ hB
  rw [k2] at main
  have all : ∀ {sq as : ℂ → ℂ}, Prims sq as → ‖gF sq as φ m - Fc φ m‖ ≤ eps * Fabs φ m := by
    intro sq as hp
    obtain ⟨l1, l2⟩ := hp.loop_eq (n := 9) k0 k1 (strip_S hφ)
    rw [gF, if_neg (not_lt.2 hl), landenSequence, hp.as_eq l2, l1, ← landenSequence, kFromLanden_eq]
    rwa [show 2 / Real.pi * (Real.pi / 2 * prodK 9 √m) = prodK 9 √m by
      have := Real.pi_ne_zero
      field_simp]
  refine ⟨?_, ?_⟩
  · rw [ellipticF_g]; exact all prims_cpp
  · rw [portable_F]; exact all prims_c

/-- **C88.** Amplitudes below `10⁻³`: the Taylor polynomial is within `|φ|⁵` of the integral, in both
implementations. -/
theorem C88_F_small {m : ℝ} {φ : ℂ} (h0 : 0 ≤ m) (h1 : m < 1) (hφ : ‖φ‖ < 1 / 10 ^ 3) :
    ‖ellipticF φ m - Fc φ m‖ ≤ ‖φ‖ ^ 5 ∧
    ‖(PortableElliptic.ellipticF ⟨φ.re, φ.im⟩ m).val - Fc φ m‖ ≤ ‖φ‖ ^ 5 := by
  have k0 := Real.sqrt_nonneg m
  have k2 := Real.sq_sqrt h0
  have k1 : √m < 1 := by nlinarith
  have main := F_taylor k0 k1 hφ
  rw [k2] at main
  refine ⟨?_, ?_⟩
  · rw [ellipticF_g, gF, if_pos hφ]; exact main
  · rw [portable_F, gF]
    have : (⟨φ.re, φ.im⟩ : CD).val = φ := rfl
    rw [this, if_pos hφ]; exact main

/-- **C88.** The complex integral of the specification is the real one on the real line. -/
theorem C88_spec_real {m : ℝ} (h0 : 0 ≤ m) (h1 : m < 1) (φ : ℝ) : Fc φ m = ((F φ m : ℝ) : ℂ) := Fc_real h0 h1 φ

/-! ## The amplitude -/

theorem up_real (l : List ℝ) (s : ℝ) : gUp l (s : ℂ) = ((ascend l s : ℝ) : ℂ) := by
  induction l with
  | nil => rfl
  | cons k l ih =>
    have e1 : gUp (k :: l) (s : ℂ) = gUp l s * ((1 + k) / (1 + k * gUp l s ^ 2)) := rfl
    have e2 : ascend (k :: l) s = gauss k (ascend l s) := rfl
    rw [e1, e2, ih, gauss]
    push_cast
    ring

theorem Prims.A_real (hp : Prims sq as) {m u : ℝ} (h0 : 0 ≤ m) (h1 : m ≤ 1 - (1 / 2) ^ 53) :
    gA as u m = ((Real.arcsin (ascend (landenLoop 9 √m) (Real.sin (u / prodK 9 √m))) : ℝ) : ℂ) := by
  obtain ⟨k0, k1, k2, hf⟩ := converged h0 h1
  have hP := prodK_pos (n := 9) k0 k1
  have e : (u : ℂ) * ((Real.pi / 2 / kFromLanden (landenSequence m) : ℝ) : ℂ) = ((u / prodK 9 √m : ℝ) : ℂ) := by
    rw [kFromLanden_eq, ← Complex.ofReal_mul]
    congr 1
    have := Real.pi_ne_zero
    field_simp
  rw [gA, e, ← Complex.ofReal_sin, up_real, hp.as_real (ascend_F k0 k1 (Real.sin_sq_le_one _)).1]

/-- **C89.** On the real line, for `|u|` up to the complete integral the code computes, both implementations of
`JacobiAmplitude` return the same real `φ` in `[-π/2, π/2]`, whose integral is `u` up to `2⁻¹⁰⁴` of it. -/
theorem C89_amplitude {m u x : ℝ} (h0 : 0 ≤ m) (h1 : m ≤ 1 - 1 / 10 ^ 12) (hx : ellipticK m = some x) (hu : |u| ≤ x) :
    ∃ φ : ℝ, jacobiAmplitude u m = (φ : ℂ) ∧ PortableElliptic.jacobiAmplitude ⟨u, 0⟩ m = ⟨φ, 0⟩ ∧
      |φ| ≤ Real.pi / 2 ∧ |F φ m - u| ≤ (1 / 2) ^ 104 * |u| := by
  have hle : m ≤ 1 - (1 / 2) ^ 53 := by
    have : ((1 / 2) ^ 53 : ℝ) ≤ 1 / 10 ^ 12 := by norm_num
    linarith
  obtain ⟨k0, k1, k2, hf⟩ := converged h0 hle
  obtain ⟨f0, f1⟩ := final_range (n := 9) k0 k1
  have hP := prodK_pos (n := 9) k0 k1
  have hne : m ≠ 1 := fun h => by rw [h] at h1; norm_num at h1
  rw [ellipticK, if_neg hne, if_neg (not_lt.2 h1), kFromLanden_eq, Option.some_inj] at hx
  refine ⟨_, by rw [jacobi_g, prims_cpp.A_real h0 hle], cd_of_val ?_, ?_, ?_⟩
  · rw [portable_A]
    exact prims_c.A_real h0 hle
  · exact abs_le.2 ⟨Real.neg_pi_div_two_le_arcsin _, Real.arcsin_le_pi_div_two _⟩
  · have hP0 : 0 < prodK 9 √m := by linarith
    have hr : |u / prodK 9 √m| ≤ Real.pi / 2 := by
      rw [abs_div, abs_of_pos hP0, div_le_iff₀ hP0, hx]; exact hu
    have e := (ascend_F (n := 9) k0 k1 (Real.sin_sq_le_one (u / prodK 9 √m))).2
    rw [Real.arcsin_sin (by linarith [abs_le.1 hr]) (abs_le.1 hr).2, k2] at e
    have hb := F_final (φ := u / prodK 9 √m) f0 hf
    rw [e]
    have e2 : prodK 9 √m * F (u / prodK 9 √m) (finalK 9 √m ^ 2) - u
        = prodK 9 √m * (F (u / prodK 9 √m) (finalK 9 √m ^ 2) - u / prodK 9 √m) := by
      field_simp
    rw [e2, abs_mul, abs_of_pos hP0]
    calc _ ≤ prodK 9 √m * ((1 / 2) ^ 104 * |u / prodK 9 √m|) := mul_le_mul_of_nonneg_left hb hP0.le
      _ = (1 / 2) ^ 104 * |u| := by rw [abs_div, abs_of_pos hP0]; field_simp

theorem Prims.up_loop (hp : Prims sq as) {n : ℕ} {k : ℝ} (h0 : 0 ≤ k) (h1 : k < 1) (w : ℂ) :
    gUp (landenLoop n k) (gLoop sq (k :: landenLoop n k) w) = w := by
  induction n generalizing k w with
  | zero => rfl
  | succ n ih =>
    obtain ⟨g0, g1, -⟩ := step_facts h0 h1
    by_cases h : eps < k
    · obtain ⟨-, c2, -⟩ := cdesc_facts h0 h1 (hp.sq_sq (1 - (k * w) ^ 2)) (hp.sq_re _) rfl
      rw [loop_go h, gLoop]
      have e : ∀ z, gUp (landenStep k :: landenLoop n (landenStep k)) z
        = cgauss (landenStep k) (gUp (landenLoop n (landenStep k)) z) := fun _ => rfl
      rw [e, ih g0 g1, c2]
    · rw [loop_stop h]; rfl

theorem Prims.inverse (hp : Prims sq as) {m : ℝ} {φ : ℂ} (h0 : 0 ≤ m) (h1 : m < 1) (hφ : |φ.re| < Real.pi / 2)
    (hl : 1 / 10 ^ 3 ≤ ‖φ‖) : gA as (gF sq as φ m) m = φ := by
  have k0 := Real.sqrt_nonneg m
  have k2 := Real.sq_sqrt h0
  have k1 : √m < 1 := by nlinarith
  have hP := prodK_pos (n := 9) k0 k1
  have hPc : ((prodK 9 √m : ℝ) : ℂ) ≠ 0 := by
    have : prodK 9 √m ≠ 0 := by linarith
    exact_mod_cast this
  have hpi : ((Real.pi : ℝ) : ℂ) ≠ 0 := by exact_mod_cast Real.pi_ne_zero
  rw [gF, if_neg (not_lt.2 hl), gA, kFromLanden_eq, landenSequence, mul_assoc, ← Complex.ofReal_mul,
    show 2 / Real.pi * (Real.pi / 2 * prodK 9 √m) * (Real.pi / 2 / (Real.pi / 2 * prodK 9 √m)) = 1 by
      have := Real.pi_ne_zero
      have h2 : prodK 9 √m ≠ 0 := by linarith
      field_simp, Complex.ofReal_one, mul_one, hp.sin_as, hp.up_loop k0 k1, hp.as_sin hφ]

/-- **C89.** `JacobiAmplitude` inverts `EllipticF`, for every complex amplitude in the open strip `|Re φ| < π/2` (not
below `10⁻³`, where `EllipticF` is a polynomial) and every parameter below 1, in both implementations. -/
theorem C89_inverse {m : ℝ} {φ : ℂ} (h0 : 0 ≤ m) (h1 : m < 1) (hφ : |φ.re| < Real.pi / 2) (hl : 1 / 10 ^ 3 ≤ ‖φ‖) :
    jacobiAmplitude (ellipticF φ m) m = φ ∧
    PortableElliptic.jacobiAmplitude (PortableElliptic.ellipticF ⟨φ.re, φ.im⟩ m) m = ⟨φ.re, φ.im⟩ := by
  refine ⟨?_, CD.val_inj ?_⟩
  · rw [jacobi_g, ellipticF_g]; exact prims_cpp.inverse h0 h1 hφ hl
  · rw [portable_A, portable_F]; exact prims_c.inverse h0 h1 hφ hl

/-- **C89.** In the other direction, on the real line: `EllipticF` of the amplitude of `u` is `u`, up to the complete
integral, when the amplitude is not below `10⁻³`. -/
theorem C89_inverse_real {m u x φ : ℝ} (h0 : 0 ≤ m) (h1 : m ≤ 1 - 1 / 10 ^ 12) (hx : ellipticK m = some x)
    (hu : |u| ≤ x) (hφ : jacobiAmplitude u m = (φ : ℂ)) (hl : 1 / 10 ^ 3 ≤ |φ|) :
    ellipticF φ m = (u : ℂ) ∧ PortableElliptic.ellipticF ⟨φ, 0⟩ m = ⟨u, 0⟩ := by
  have hle : m ≤ 1 - (1 / 2) ^ 53 := by
    have : ((1 / 2) ^ 53 : ℝ) ≤ 1 / 10 ^ 12 := by norm_num
    linarith
  obtain ⟨k0, k1, k2, hf⟩ := converged h0 hle
  have hP := prodK_pos (n := 9) k0 k1
  have hne : m ≠ 1 := fun h => by rw [h] at h1; norm_num at h1
  rw [ellipticK, if_neg hne, if_neg (not_lt.2 h1), kFromLanden_eq, Option.some_inj] at hx
  have hP0 : 0 < prodK 9 √m := by linarith
  have hr : |u / prodK 9 √m| ≤ Real.pi / 2 := by
    rw [abs_div, abs_of_pos hP0, div_le_iff₀ hP0, hx]; exact hu
  rw [jacobi_g, prims_cpp.A_real h0 hle, Complex.ofReal_inj] at hφ
  have hb : |φ| ≤ Real.pi / 2 := by
    rw [← hφ]; exact abs_le.2 ⟨Real.neg_pi_div_two_le_arcsin _, Real.arcsin_le_pi_div_two _⟩
  have ha := (ascend_F (n := 9) k0 k1 (Real.sin_sq_le_one (u / prodK 9 √m))).1
  have e : prodK 9 √m * Real.arcsin (descendAll (√m :: landenLoop 9 √m) (Real.sin φ)) = u := by
    rw [← hφ, Real.sin_arcsin (by nlinarith) (by nlinarith), descend_ascend k0 k1 (Real.sin_sq_le_one _),
      Real.arcsin_sin (by linarith [abs_le.1 hr]) (abs_le.1 hr).2]
    field_simp
  refine ⟨?_, cd_of_val ?_⟩
  · rw [ellipticF_g, (prims_cpp.F_real h0 hle hb hl).1, e]
  · rw [portable_F]
    exact (prims_c.F_real h0 hle hb hl).1.trans (by rw [e])

/-- **C89, violation of the documented `am` and `cn`.** For real `u` the result is always in `[-π/2, π/2]`; the true
amplitude of a `u` beyond the complete integral is larger. At twice the complete integral the result is 0, with
cosine 1, although the amplitude is `π`, with cosine -1. -/
theorem C89_range_violation {m x : ℝ} (h0 : 0 ≤ m) (h1 : m ≤ 1 - 1 / 10 ^ 12) (hx : ellipticK m = some x) :
    jacobiAmplitude ((2 * x : ℝ) : ℂ) m = 0 ∧ F 0 m = 0 ∧ (∀ φ, F φ m = 2 * x → Real.pi / 2 < φ) := by
  have hle : m ≤ 1 - (1 / 2) ^ 53 := by
    have : ((1 / 2) ^ 53 : ℝ) ≤ 1 / 10 ^ 12 := by norm_num
    linarith
  have hm1 : m < 1 := by
    have : (0 : ℝ) < 1 / 10 ^ 12 := by norm_num
    linarith
  obtain ⟨k0, k1, k2, hf⟩ := converged h0 hle
  have hP := prodK_pos (n := 9) k0 k1
  have hne : m ≠ 1 := hm1.ne
  have hK := K_final h0 hle
  rw [ellipticK, if_neg hne, if_neg (not_lt.2 h1), Option.some_inj] at hx
  rw [hx] at hK
  refine ⟨?_, F_zero m, fun φ hφ => ?_⟩
  · have hxe : x / prodK 9 √m = Real.pi / 2 := by
      rw [← hx, kFromLanden_eq]
      have : prodK 9 √m ≠ 0 := by linarith
      field_simp
    rw [jacobi_g, prims_cpp.A_real h0 hle, mul_div_assoc, hxe, mul_div_cancel₀ _ two_ne_zero, Real.sin_pi]
    have hz : ∀ l : List ℝ, ascend l 0 = 0 := by
      intro l
      induction l with
      | nil => rfl
      | cons k l ih =>
        have : ascend (k :: l) 0 = gauss k (ascend l 0) := rfl
        rw [this, ih, gauss, zero_mul]
    rw [hz, Real.arcsin_zero, Complex.ofReal_zero]
  · by_contra hc
    have h2 : F φ m ≤ K m := (F_strictMono h0 hm1).monotone (not_lt.1 hc)
    have h3 := (abs_le.1 hK.1).2
    have h4 : ((1 / 2) ^ 104 : ℝ) < 1 := by norm_num
    have h5 := mul_lt_mul_of_pos_right h4 hK.2
    linarith

/-! ## The hypotheses are met -/

example : ∃ x, ellipticK (1 / 2) = some x ∧ |K (1 / 2) - x| ≤ 1 / 10 ^ 24 * x := by
  obtain ⟨x, h1, -, h2⟩ := C88_K (m := 1 / 2) (by norm_num) (by norm_num)
  exact ⟨x, h1, h2⟩

example : jacobiAmplitude (ellipticF (1 + 2 * Complex.I) (9 / 10)) (9 / 10) = 1 + 2 * Complex.I := by
  refine (C89_inverse (m := 9 / 10) (φ := 1 + 2 * Complex.I) (by norm_num) (by norm_num) ?_ ?_).1
  · have := Real.pi_gt_three
    simp
    linarith
  · refine le_trans ?_ (Complex.re_le_norm _)
    norm_num

example : ‖ellipticF (1 + 2 * Complex.I) (9 / 10) - Fc (1 + 2 * Complex.I) (9 / 10)‖
    ≤ eps * Fabs (1 + 2 * Complex.I) (9 / 10) := by
  refine (C88_F_complex (m := 9 / 10) (φ := 1 + 2 * Complex.I) (by norm_num) (by norm_num) ?_ ?_ (Or.inl ?_)).1
  · have := Real.pi_gt_three
    simp
    linarith
  · refine le_trans ?_ (Complex.re_le_norm _)
    norm_num
  · rw [eps]
    exact Real.lt_sqrt_of_sq_lt (by norm_num)

end Verif.Elliptic
