import Verif.Proof.Elliptic3
import Mathlib.Analysis.SpecialFunctions.Pow.Deriv
import Mathlib.Analysis.SpecialFunctions.Complex.LogDeriv
import Mathlib.Topology.Algebra.Field

/-! # Lemmas for C88: complex amplitudes -/

namespace Verif.Elliptic
open Verif.Elliptic.Spec Verif.PoleZero Verif.PortableComplex

/-- The plane without the real numbers of modulus at least 1. -/
def S (w : ℂ) : Prop := 1 - w ^ 2 ∈ Complex.slitPlane

theorem S_iff (w : ℂ) : S w ↔ ¬ (w.im = 0 ∧ 1 ≤ w.re ^ 2) := by
  have e1 : (1 - w ^ 2).re = 1 - w.re ^ 2 + w.im ^ 2 := by rw [pow_two]; simp; ring
  have e2 : (1 - w ^ 2).im = -(2 * w.re * w.im) := by rw [pow_two]; simp; ring
  rw [S, Complex.mem_slitPlane_iff, e1, e2]
  constructor
  · rintro h ⟨h1, h2⟩
    rw [h1] at h
    rcases h with h | h
    · nlinarith
    · simp at h
  · intro h
    by_cases hb : w.im = 0
    · left
      have : ¬ 1 ≤ w.re ^ 2 := fun h2 => h ⟨hb, h2⟩
      rw [hb]; linarith [not_le.1 this]
    · by_cases ha : w.re = 0
      · left; rw [ha]; positivity
      · right
        rw [neg_ne_zero]
        positivity

theorem S_mul {w : ℂ} (h : S w) {k : ℝ} (h0 : 0 ≤ k) (h1 : k < 1) : S (k * w) := by
  rw [S_iff] at h ⊢
  rintro ⟨a, b⟩
  rw [Complex.re_ofReal_mul] at b
  rw [Complex.im_ofReal_mul] at a
  rcases mul_eq_zero.1 a with hk | hi
  · rw [hk] at b; norm_num at b
  · refine h ⟨hi, ?_⟩
    rw [mul_pow] at b
    nlinarith [sq_nonneg w.re, show k ^ 2 ≤ 1 by nlinarith]

theorem csqrt_pos {z : ℂ} (h : z ∈ Complex.slitPlane) : 0 < (csqrt z).re := by
  refine lt_of_le_of_ne (csqrt_re z) fun h0 => ?_
  have e := csqrt_sq z
  obtain ⟨b, hb⟩ : ∃ b, csqrt z = ⟨0, b⟩ := ⟨(csqrt z).im, Complex.ext h0.symm rfl⟩
  rw [hb] at e
  rw [← e, Complex.mem_slitPlane_iff] at h
  rcases h with h | h
  · rw [pow_two] at h; simp at h; nlinarith
  · rw [pow_two] at h; simp at h

theorem csqrt_ne {z : ℂ} (h : z ∈ Complex.slitPlane) : csqrt z ≠ 0 := fun h0 => by
  have := csqrt_pos h
  rw [h0] at this
  simp at this

theorem Prims.sq_eq {sq as : ℂ → ℂ} (hp : Prims sq as) {z : ℂ} (h : z ∈ Complex.slitPlane) : sq z = csqrt z := by
  rcases sq_eq_sq_iff_eq_or_eq_neg.1 ((hp.sq_sq z).trans (csqrt_sq z).symm) with e | e
  · exact e
  · have h1 := hp.sq_re z
    rw [e, Complex.neg_re] at h1
    linarith [csqrt_pos h]

/-- Uniqueness of principal roots. -/
theorem csqrt_unique {z s : ℂ} (h : s ^ 2 = z) (hs : 0 < s.re) : csqrt z = s := by
  rcases sq_eq_sq_iff_eq_or_eq_neg.1 ((csqrt_sq z).trans h.symm) with e | e
  · exact e
  · have h1 := csqrt_re z
    rw [e, Complex.neg_re] at h1
    linarith

/-! ## One step -/

noncomputable def cgauss (q : ℝ) (d : ℂ) : ℂ := d * ((1 + q) / (1 + q * d ^ 2))

theorem cdesc_facts {k : ℝ} (h0 : 0 ≤ k) (h1 : k < 1) {w r d : ℂ} (hr : r ^ 2 = 1 - (k * w) ^ 2) (hre : 0 ≤ r.re)
    (hd : d = w * (2 / ((1 + landenStep k) * (1 + r)))) :
    1 + landenStep k * d ^ 2 ≠ 0 ∧ cgauss (landenStep k) d = w ∧
      r = (1 - landenStep k * d ^ 2) / (1 + landenStep k * d ^ 2) ∧ ‖(landenStep k : ℂ) * d ^ 2‖ ≤ 1 := by
  obtain ⟨g0, g1, -, g3, g4⟩ := step_facts h0 h1
  have hq : (1 + landenStep k : ℂ) ≠ 0 := by
    have : (1 + landenStep k : ℝ) ≠ 0 := by positivity
    exact_mod_cast this
  have h1r : 1 + r ≠ 0 := fun h => by
    have := congrArg Complex.re h
    simp at this
    linarith
  have g3' : (k : ℂ) ^ 2 * (1 + landenStep k) ^ 2 = 4 * landenStep k := by exact_mod_cast g3
  generalize hQ : (landenStep k : ℂ) = q at *
  have e : q * d ^ 2 = (1 - r) / (1 + r) := by
    rw [hd]
    field_simp
    linear_combination (-w ^ 2) * g3' + (1 + q) ^ 2 * hr
  have e1 : 1 + q * d ^ 2 = 2 / (1 + r) := by rw [e]; field_simp; ring
  have e2 : 1 - q * d ^ 2 = 2 * r / (1 + r) := by rw [e]; field_simp; ring
  refine ⟨?_, ?_, ?_, ?_⟩
  · rw [e1]; exact div_ne_zero two_ne_zero h1r
  · rw [cgauss, hQ, e1, hd]
    field_simp
  · rw [e1, e2]
    field_simp
  · rw [e, norm_div]
    refine div_le_one_of_le₀ ?_ (norm_nonneg _)
    rw [← sq_le_sq₀ (norm_nonneg _) (norm_nonneg _), ← Complex.normSq_eq_norm_sq, ← Complex.normSq_eq_norm_sq,
      Complex.normSq_apply, Complex.normSq_apply]
    simp
    nlinarith

/-- One step over the complex numbers. -/
noncomputable def cdesc (k : ℝ) (w : ℂ) : ℂ := w * (2 / ((1 + landenStep k) * (1 + csqrt (1 - (k * w) ^ 2))))

theorem cdesc_spec {k : ℝ} (h0 : 0 ≤ k) (h1 : k < 1) (w : ℂ) :
    1 + landenStep k * cdesc k w ^ 2 ≠ 0 ∧ cgauss (landenStep k) (cdesc k w) = w ∧
      csqrt (1 - (k * w) ^ 2) = (1 - landenStep k * cdesc k w ^ 2) / (1 + landenStep k * cdesc k w ^ 2) ∧
      ‖(landenStep k : ℂ) * cdesc k w ^ 2‖ ≤ 1 :=
  cdesc_facts h0 h1 (csqrt_sq _) (csqrt_re _) rfl

theorem cdesc_S {k : ℝ} (h0 : 0 ≤ k) (h1 : k < 1) {w : ℂ} (hw : S w) : S (cdesc k w) := by
  obtain ⟨g0, g1, -⟩ := step_facts h0 h1
  obtain ⟨-, e2, -, e4⟩ := cdesc_spec h0 h1 w
  generalize cdesc k w = d at *
  generalize landenStep k = q at *
  rw [S_iff]
  rintro ⟨hi, hd⟩
  obtain ⟨x, rfl⟩ : ∃ x : ℝ, d = x := ⟨d.re, Complex.ext rfl hi⟩
  rw [Complex.ofReal_re] at hd
  have hq : q * x ^ 2 ≤ 1 := by
    rw [← Complex.ofReal_pow, ← Complex.ofReal_mul, Complex.norm_real, Real.norm_of_nonneg (by positivity)] at e4
    exact e4
  have hwr : w = ((gauss q x : ℝ) : ℂ) := by rw [← e2, cgauss, gauss]; push_cast; ring
  rw [S_iff] at hw
  apply hw
  rw [hwr]
  refine ⟨Complex.ofReal_im _, ?_⟩
  rw [Complex.ofReal_re]
  have e := gauss_one_sub (s := x) g0
  have h2 : q ^ 2 * x ^ 2 ≤ 1 := by nlinarith [sq_nonneg x, mul_nonneg g0 (sq_nonneg x)]
  have h3 : (1 - x ^ 2) * (1 - q ^ 2 * x ^ 2) / (1 + q * x ^ 2) ^ 2 ≤ 0 :=
    div_nonpos_of_nonpos_of_nonneg (mul_nonpos_of_nonpos_of_nonneg (by linarith) (by linarith)) (sq_nonneg _)
  linarith

theorem csqrt_diff {z : ℂ} (h : z ∈ Complex.slitPlane) : DifferentiableAt ℂ csqrt z := by
  have := (hasDerivAt_id z).cpow_const (c := 1 / 2) h
  exact this.differentiableAt

theorem cdesc_diff {k : ℝ} (h0 : 0 ≤ k) (h1 : k < 1) {w : ℂ} (hw : S w) : DifferentiableAt ℂ (cdesc k) w := by
  have h2 : (1 - (k * w) ^ 2) ∈ Complex.slitPlane := S_mul hw h0 h1
  obtain ⟨g0, -⟩ := step_facts h0 h1
  have h3 : DifferentiableAt ℂ (fun w : ℂ => csqrt (1 - (k * w) ^ 2)) w :=
    (csqrt_diff h2).comp w (f := fun w : ℂ => 1 - (k * w) ^ 2) (by fun_prop)
  have hq : (1 + landenStep k : ℂ) ≠ 0 := by
    have : (1 + landenStep k : ℝ) ≠ 0 := by positivity
    exact_mod_cast this
  have h1r : 1 + csqrt (1 - (k * w) ^ 2) ≠ 0 := fun h => by
    have := congrArg Complex.re h
    have h5 := csqrt_re (1 - (k * w) ^ 2)
    rw [Complex.add_re, Complex.one_re, Complex.zero_re] at this
    linarith
  refine differentiableAt_id.mul (DifferentiableAt.div (differentiableAt_const _) ?_ (mul_ne_zero hq h1r))
  exact (differentiableAt_const _).mul ((differentiableAt_const _).add h3)

theorem cgauss_deriv {q : ℝ} {d : ℂ} (h : 1 + q * d ^ 2 ≠ 0) :
    HasDerivAt (cgauss q) ((1 + q) * (1 - q * d ^ 2) / (1 + q * d ^ 2) ^ 2) d := by
  have h1 : HasDerivAt (fun s : ℂ => 1 + q * s ^ 2) (q * (2 * d)) d := by
    have := ((hasDerivAt_pow 2 d).const_mul (q : ℂ)).const_add 1
    simpa using this
  have h2 := (hasDerivAt_id d).mul ((hasDerivAt_const d (1 + q : ℂ)).div h1 h)
  refine h2.congr_deriv ?_
  simp only [id, Pi.div_apply]
  field_simp
  ring

/-- The differential of the integral in the variable `w = sin φ`. -/
noncomputable def form (k : ℝ) (w w' : ℂ) : ℂ := w' / (csqrt (1 - w ^ 2) * csqrt (1 - (k * w) ^ 2))

/-- A differentiable path from 0 that stays off the cuts. -/
structure Curve (I : Set ℝ) (w w' : ℝ → ℂ) : Prop where
  deriv : ∀ t ∈ I, HasDerivAt w (w' t) t
  off : ∀ t ∈ I, S (w t)
  zero : w 0 = 0

theorem Curve.cont {I : Set ℝ} {w w' : ℝ → ℂ} (hw : Curve I w w') : ContinuousOn w I := fun t ht =>
  (hw.deriv t ht).continuousAt.continuousWithinAt

theorem Curve.cont_sqrt {I : Set ℝ} {w w' : ℝ → ℂ} (hw : Curve I w w') {k : ℝ} (h0 : 0 ≤ k) (h1 : k < 1) :
    ContinuousOn (fun t => csqrt (1 - (k * w t) ^ 2)) I := fun t ht => by
  have h2 : (1 - (k * w t) ^ 2) ∈ Complex.slitPlane := S_mul (hw.off t ht) h0 h1
  have h3 := (csqrt_diff h2).continuousAt
  refine ContinuousAt.comp_continuousWithinAt (f := fun t => 1 - (k * w t) ^ 2) h3 ?_
  exact continuousWithinAt_const.sub ((continuousWithinAt_const.mul (hw.cont t ht)).pow 2)

theorem Curve.cont_sqrt_one {I : Set ℝ} {w w' : ℝ → ℂ} (hw : Curve I w w') :
    ContinuousOn (fun t => csqrt (1 - w t ^ 2)) I := fun t ht => by
  have h3 := (csqrt_diff (hw.off t ht)).continuousAt
  refine ContinuousAt.comp_continuousWithinAt (f := fun t => 1 - w t ^ 2) h3 ?_
  exact continuousWithinAt_const.sub ((hw.cont t ht).pow 2)

theorem curve_step {I : Set ℝ} (hI : IsPreconnected I) (hz : (0 : ℝ) ∈ I) {w w' : ℝ → ℂ} (hw : Curve I w w') {k : ℝ}
    (h0 : 0 ≤ k) (h1 : k < 1) :
    ∃ d', Curve I (fun t => cdesc k (w t)) d' ∧
      ∀ t ∈ I, form (landenStep k) (cdesc k (w t)) (d' t) = form k (w t) (w' t) / (1 + landenStep k) := by
  obtain ⟨g0, g1, -⟩ := step_facts h0 h1
  have hc : Curve I (fun t => cdesc k (w t)) (deriv fun t => cdesc k (w t)) := by
    refine ⟨fun t ht => ?_, fun t ht => cdesc_S h0 h1 (hw.off t ht), ?_⟩
    · have d1 := (cdesc_diff h0 h1 (hw.off t ht)).hasDerivAt
      exact ((d1.scomp t (hw.deriv t ht)).differentiableAt).hasDerivAt
    · show cdesc k (w 0) = 0
      rw [hw.zero, cdesc, zero_mul]
  refine ⟨_, hc, ?_⟩
  have hq : (1 + landenStep k : ℂ) ≠ 0 := by
    have : (1 + landenStep k : ℝ) ≠ 0 := by positivity
    exact_mod_cast this
  have sgn : Set.EqOn (fun t => csqrt (1 - cdesc k (w t) ^ 2) * csqrt (1 - (landenStep k * cdesc k (w t)) ^ 2))
      (fun t => csqrt (1 - w t ^ 2) * (1 + landenStep k * cdesc k (w t) ^ 2)) I := by
    refine hI.eq_of_sq_eq (hc.cont_sqrt_one.mul (hc.cont_sqrt g0 g1))
      (hw.cont_sqrt_one.mul (continuousOn_const.add (continuousOn_const.mul (hc.cont.pow 2)))) ?_ ?_ hz ?_
    · intro t ht
      obtain ⟨f1, f2, -⟩ := cdesc_spec h0 h1 (w t)
      simp only [Pi.pow_apply, mul_pow, csqrt_sq]
      rw [cgauss] at f2
      generalize cdesc k (w t) = d at *
      have : w t * (1 + landenStep k * d ^ 2) = d * (1 + landenStep k) := by
        rw [← f2, mul_assoc, div_mul_cancel₀ _ f1]
      linear_combination (w t * (1 + landenStep k * d ^ 2) + d * (1 + landenStep k)) * this
    · intro t ht
      exact mul_ne_zero (csqrt_ne (hw.off t ht)) (cdesc_spec h0 h1 (w t)).1
    · have : cdesc k 0 = 0 := by rw [cdesc, zero_mul]
      simp only [hw.zero, this]
      have e1 : csqrt (1 - 0 ^ 2) = 1 := csqrt_unique (by norm_num) (by norm_num)
      rw [mul_zero, e1]
      norm_num
  intro t ht
  obtain ⟨f1, f2, f3, -⟩ := cdesc_spec h0 h1 (w t)
  have hd := (cgauss_deriv f1).scomp t (hc.deriv t ht)
  have he : (cgauss (landenStep k) ∘ fun t => cdesc k (w t)) = w := funext fun t => (cdesc_spec h0 h1 (w t)).2.1
  rw [he] at hd
  have e := (hw.deriv t ht).unique hd
  have hs := sgn ht
  simp only at hs
  have hn1 := csqrt_ne (hw.off t ht)
  have hn2 : csqrt (1 - (k * w t) ^ 2) ≠ 0 := csqrt_ne (S_mul (hw.off t ht) h0 h1)
  rw [f3] at hn2
  have hn3 : 1 - landenStep k * cdesc k (w t) ^ 2 ≠ 0 := fun h => hn2 (by rw [h, zero_div])
  rw [form, form, hs, f3, e, smul_eq_mul]
  field_simp

/-- All steps. -/
theorem curve_loop {I : Set ℝ} (hI : IsPreconnected I) (hz : (0 : ℝ) ∈ I) (n : ℕ) {w w' : ℝ → ℂ} (hw : Curve I w w')
    {k : ℝ} (h0 : 0 ≤ k) (h1 : k < 1) :
    ∃ d', Curve I (fun t => gLoop csqrt (k :: landenLoop n k) (w t)) d' ∧
      (∀ t ∈ I, form (finalK n k) (gLoop csqrt (k :: landenLoop n k) (w t)) (d' t)
        = form k (w t) (w' t) / (prodK n k : ℝ)) ∧
      (0 < n → eps < k → ∀ t, ‖(finalK n k : ℂ) * gLoop csqrt (k :: landenLoop n k) (w t) ^ 2‖ ≤ 1) := by
  induction n generalizing k w w' with
  | zero => exact ⟨w', hw, fun t _ => by simp [finalK, landenLoop, prodK, gLoop], by simp⟩
  | succ n ih =>
    obtain ⟨g0, g1, -⟩ := step_facts h0 h1
    by_cases h : eps < k
    · obtain ⟨d', c1, c2⟩ := curve_step hI hz hw h0 h1
      obtain ⟨e', i1, i2, i3⟩ := ih c1 g0 g1
      have e : ∀ t, gLoop csqrt (k :: landenLoop (n + 1) k) (w t)
          = gLoop csqrt (landenStep k :: landenLoop n (landenStep k)) (cdesc k (w t)) := fun t => by
        rw [loop_go h, gLoop]; rfl
      have ef : finalK (n + 1) k = finalK n (landenStep k) := by rw [finalK, if_pos h]
      have ep : prodK (n + 1) k = (1 + landenStep k) * prodK n (landenStep k) := by
        rw [prodK, prodK, loop_go h, List.map_cons, List.prod_cons]
      simp only [e, ef, ep]
      refine ⟨e', i1, fun t ht => ?_, fun _ _ t => ?_⟩
      · rw [i2 t ht, c2 t ht]
        push_cast
        rw [div_div]
      · by_cases hn : n = 0 ∨ ¬ eps < landenStep k
        · have e1 : landenLoop n (landenStep k) = [] := by
            rcases hn with rfl | hn
            · rfl
            · exact loop_stop hn
          have e2 : finalK n (landenStep k) = landenStep k := by
            rcases hn with rfl | hn
            · rfl
            · exact final_stop hn
          rw [e1, e2]
          exact (cdesc_spec h0 h1 (w t)).2.2.2
        · push Not at hn
          exact i3 (Nat.pos_of_ne_zero hn.1) hn.2 t
    · refine ⟨w', ?_, fun t _ => ?_, fun _ hk => absurd hk h⟩
      · simp only [loop_stop h, gLoop]; exact hw
      · rw [loop_stop h, final_stop h, prodK, loop_stop h]
        simp [gLoop]

/-- The implementations agree off the cuts. -/
theorem Prims.loop_eq {sq as : ℂ → ℂ} (hp : Prims sq as) {n : ℕ} {k : ℝ} (h0 : 0 ≤ k) (h1 : k < 1) {w : ℂ} (hw : S w) :
    gLoop sq (k :: landenLoop n k) w = gLoop csqrt (k :: landenLoop n k) w ∧ S (gLoop sq (k :: landenLoop n k) w) := by
  induction n generalizing k w with
  | zero => exact ⟨rfl, hw⟩
  | succ n ih =>
    obtain ⟨g0, g1, -⟩ := step_facts h0 h1
    by_cases h : eps < k
    · rw [loop_go h, gLoop, gLoop, hp.sq_eq (S_mul hw h0 h1)]
      exact ih g0 g1 (cdesc_S h0 h1 hw)
    · rw [loop_stop h]; exact ⟨rfl, hw⟩

/-! ## The arcsine -/

theorem strip_S {φ : ℂ} (h : |φ.re| < Real.pi / 2) : S (Complex.sin φ) := by
  rw [S_iff]
  obtain ⟨a, b⟩ := φ
  rw [sin_parts]
  have hc : 0 < Real.cos a := Real.cos_pos_of_mem_Ioo ⟨(abs_lt.1 h).1, (abs_lt.1 h).2⟩
  rintro ⟨h1, h2⟩
  simp only at h1 h2
  have hb : b = 0 := by
    rcases mul_eq_zero.1 h1 with h | h
    · exact absurd h hc.ne'
    · exact Real.sinh_eq_zero.1 h
  rw [hb, Real.cosh_zero, mul_one] at h2
  nlinarith [Real.sin_sq_add_cos_sq a]

theorem S_strip {z v : ℂ} (hz : S z) (h1 : Complex.sin v = z) (h2 : |v.re| ≤ Real.pi / 2) : |v.re| < Real.pi / 2 := by
  refine lt_of_le_of_ne h2 fun he => ?_
  rw [S_iff, ← h1] at hz
  apply hz
  obtain ⟨a, b⟩ := v
  rw [sin_parts]
  simp only at he ⊢
  have hc : Real.cos a = 0 := by rw [← Real.cos_abs, he, Real.cos_pi_div_two]
  have hs : Real.sin a ^ 2 = 1 := by have := Real.sin_sq_add_cos_sq a; rw [hc] at this; linarith
  refine ⟨by rw [hc, zero_mul], ?_⟩
  rw [mul_pow, hs, one_mul]
  have := Real.one_le_cosh b
  nlinarith

theorem Prims.as_eq {sq as : ℂ → ℂ} (hp : Prims sq as) {z : ℂ} (hz : S z) : as z = casin z := by
  have h := prims_cpp.as_sin (S_strip hz (hp.sin_as z) (hp.as_re z))
  rw [hp.sin_as] at h
  exact h.symm

theorem casin_deriv {z : ℂ} (hz : S z) : HasDerivAt casin (1 / csqrt (1 - z ^ 2)) z := by
  have hd : DifferentiableAt ℂ casin z := by
    have h1 : DifferentiableAt ℂ (fun z : ℂ => csqrt (1 - z ^ 2)) z :=
      (csqrt_diff hz).comp z (f := fun z : ℂ => 1 - z ^ 2) (by fun_prop)
    have h2 : DifferentiableAt ℂ (fun z : ℂ => Complex.I * z + csqrt (1 - z ^ 2)) z :=
      ((differentiableAt_const _).mul differentiableAt_id).add h1
    refine (differentiableAt_const _).mul (h2.clog ?_)
    have hs := S_strip hz (casin_sin z).1 (casin_re z)
    have e : Complex.I * z + csqrt (1 - z ^ 2) = Complex.exp (casin z * Complex.I) := by
      rw [Complex.exp_mul_I, (casin_sin z).1, (casin_sin z).2]; ring
    rw [e, Complex.mem_slitPlane_iff, Complex.exp_re]
    left
    refine mul_pos (Real.exp_pos _) ?_
    rw [Complex.mul_I_im]
    exact Real.cos_pos_of_mem_Ioo ⟨(abs_lt.1 hs).1, (abs_lt.1 hs).2⟩
  have h := hd.hasDerivAt
  have h2 := (Complex.hasDerivAt_sin (casin z)).comp z h
  have e : (Complex.sin ∘ casin) = id := funext fun z => (casin_sin z).1
  rw [e] at h2
  have h3 := (hasDerivAt_id z).unique h2
  rw [(casin_sin z).2] at h3
  refine h.congr_deriv ?_
  rw [eq_div_iff (csqrt_ne hz), mul_comm]
  exact h3.symm

/-! ## The integral -/

theorem csqrt_cos {φ : ℂ} (h : |φ.re| < Real.pi / 2) : csqrt (1 - Complex.sin φ ^ 2) = Complex.cos φ := by
  refine csqrt_unique (Complex.cos_sq' φ) ?_
  obtain ⟨a, b⟩ := φ
  rw [cos_parts]
  exact mul_pos (Real.cos_pos_of_mem_Ioo ⟨(abs_lt.1 h).1, (abs_lt.1 h).2⟩) (Real.cosh_pos b)

/-- The parameters with `tφ` inside the strip. -/
def inner (φ : ℂ) : Set ℝ := {t | |t * φ.re| < Real.pi / 2}

theorem inner_conn (φ : ℂ) : IsPreconnected (inner φ) := by
  refine Convex.isPreconnected ?_
  have : inner φ = (fun t : ℝ => t * φ.re) ⁻¹' Set.Ioo (-(Real.pi / 2)) (Real.pi / 2) := by
    ext t; show |t * φ.re| < _ ↔ _; rw [abs_lt]; rfl
  rw [this]
  exact (convex_Ioo _ _).is_linear_preimage ⟨fun x y => by ring, fun c x => by simp [mul_assoc]⟩

theorem inner_unit {φ : ℂ} (h : |φ.re| < Real.pi / 2) : Set.uIcc (0 : ℝ) 1 ⊆ inner φ := by
  rw [Set.uIcc_of_le zero_le_one]
  rintro t ⟨h0, h1⟩
  show |t * φ.re| < _
  rw [abs_mul, abs_of_nonneg h0]
  nlinarith [abs_nonneg φ.re]

theorem sin_curve (φ : ℂ) :
    Curve (inner φ) (fun t => Complex.sin (t * φ)) (fun t => φ * Complex.cos (t * φ)) := by
  refine ⟨fun t _ => ?_, fun t ht => strip_S ?_, by simp⟩
  · have h1 : HasDerivAt (fun t : ℝ => (t : ℂ) * φ) φ t := by
      have := (Complex.ofRealCLM.hasDerivAt (x := t)).mul_const φ
      simpa using this
    have := (Complex.hasDerivAt_sin (t * φ)).scomp t h1
    exact this
  · rw [Complex.re_ofReal_mul]; exact ht

theorem sin_form {φ : ℂ} {t : ℝ} (ht : t ∈ inner φ) {k : ℝ} :
    form k (Complex.sin (t * φ)) (φ * Complex.cos (t * φ)) = φ * integrand (k ^ 2) (t * φ) := by
  have h : |((t : ℂ) * φ).re| < Real.pi / 2 := by rw [Complex.re_ofReal_mul]; exact ht
  have h2 := csqrt_ne (strip_S h)
  rw [csqrt_cos h] at h2
  rw [form, csqrt_cos h, integrand, csqrt, mul_pow, mul_comm φ (Complex.cos _), mul_div_mul_left _ _ h2]
  push_cast
  ring

theorem integrand_contOn {φ : ℂ} {k : ℝ} (h0 : 0 ≤ k) (h1 : k < 1) :
    ContinuousOn (fun t : ℝ => φ * integrand (k ^ 2) (t * φ)) (inner φ) := by
  have h := (sin_curve φ).cont_sqrt h0 h1
  have e : ∀ t : ℝ, φ * integrand (k ^ 2) (t * φ) = φ * (1 / csqrt (1 - (k * Complex.sin (t * φ)) ^ 2)) := fun t => by
    rw [integrand, csqrt, mul_pow]; push_cast; rfl
  simp only [e]
  exact continuousOn_const.mul (continuousOn_const.div h fun t ht => csqrt_ne (S_mul ((sin_curve φ).off t ht) h0 h1))

theorem one_sub_csqrt (x : ℂ) : ‖1 - csqrt (1 - x)‖ ≤ ‖x‖ := by
  have h := csqrt_sq (1 - x)
  have hr := csqrt_re (1 - x)
  have e : (1 - csqrt (1 - x)) * (1 + csqrt (1 - x)) = x := by linear_combination -h
  have h1 : 1 ≤ ‖1 + csqrt (1 - x)‖ := by
    refine le_trans ?_ (Complex.re_le_norm _)
    simpa using hr
  calc ‖1 - csqrt (1 - x)‖ ≤ ‖1 - csqrt (1 - x)‖ * ‖1 + csqrt (1 - x)‖ := le_mul_of_one_le_right (norm_nonneg _) h1
    _ = ‖x‖ := by rw [← norm_mul, e]

theorem F_complex {k : ℝ} (h0 : 0 ≤ k) (h1 : k < 1) (n : ℕ) {φ : ℂ} (hφ : |φ.re| < Real.pi / 2) {B : ℝ}
    (hB : ∀ t ∈ Set.Icc (0 : ℝ) 1,
      ‖(finalK n k * gLoop csqrt (k :: landenLoop n k) (Complex.sin (t * φ)) : ℂ) ^ 2‖ ≤ B) :
    ‖casin (gLoop csqrt (k :: landenLoop n k) (Complex.sin φ)) * (prodK n k : ℝ) - Fc φ (k ^ 2)‖
      ≤ B * Fabs φ (k ^ 2) := by
  have hz : (0 : ℝ) ∈ inner φ := inner_unit hφ (by simp)
  obtain ⟨d', c1, c2, -⟩ := curve_loop (inner_conn φ) hz n (sin_curve φ) h0 h1
  obtain ⟨f0, f1⟩ := final_range (n := n) h0 h1
  have hP : (0 : ℝ) < prodK n k := one_pos.trans_le (prodK_pos h0 h1)
  have hPc : ((prodK n k : ℝ) : ℂ) ≠ 0 := by exact_mod_cast hP.ne'
  set W : ℝ → ℂ := fun t => gLoop csqrt (k :: landenLoop n k) (Complex.sin (t * φ)) with hW
  have hcs := c1.cont_sqrt f0 f1
  have hci := integrand_contOn (φ := φ) h0 h1
  have hder : ∀ t ∈ Set.uIcc (0 : ℝ) 1, HasDerivAt (fun t => casin (W t) * (prodK n k : ℝ))
      (φ * integrand (k ^ 2) (t * φ) * csqrt (1 - (finalK n k * W t) ^ 2)) t := by
    intro t ht
    have hin := inner_unit hφ ht
    have a1 := ((casin_deriv (c1.off t hin)).scomp t (c1.deriv t hin)).mul_const ((prodK n k : ℝ) : ℂ)
    refine a1.congr_deriv ?_
    have a2 := c2 t hin
    rw [sin_form hin, form, div_eq_div_iff (mul_ne_zero (csqrt_ne (c1.off t hin)) (csqrt_ne (S_mul (c1.off t hin) f0 f1))) hPc]
      at a2
    rw [smul_eq_mul, mul_one_div, div_mul_eq_mul_div, div_eq_iff (csqrt_ne (c1.off t hin)), a2]
    ring
  have hint : ContinuousOn (fun t : ℝ => φ * integrand (k ^ 2) (t * φ) * csqrt (1 - (finalK n k * W t) ^ 2))
      (Set.uIcc 0 1) := (hci.mul hcs).mono (inner_unit hφ)
  have key := intervalIntegral.integral_eq_sub_of_hasDerivAt hder hint.intervalIntegrable
  have hW0 : W 0 = 0 := c1.zero
  have hc0 : casin 0 = 0 := by
    have := prims_cpp.as_real (s := 0) (by norm_num)
    simpa using this
  have hW1 : W 1 = gLoop csqrt (k :: landenLoop n k) (Complex.sin φ) := by rw [hW]; simp
  rw [hW0, hc0, zero_mul, sub_zero, hW1] at key
  have hic : ContinuousOn (fun t : ℝ => φ * integrand (k ^ 2) (t * φ)) (Set.uIcc 0 1) := hci.mono (inner_unit hφ)
  rw [← key, Fc, ← intervalIntegral.integral_sub hint.intervalIntegrable hic.intervalIntegrable, Fabs,
    ← intervalIntegral.integral_const_mul]
  refine intervalIntegral.norm_integral_le_of_norm_le zero_le_one ?_ (hic.norm.intervalIntegrable.const_mul B)
  refine Filter.Eventually.of_forall fun t ht => ?_
  have hb := hB t ⟨ht.1.le, ht.2⟩
  rw [show φ * integrand (k ^ 2) (t * φ) * csqrt (1 - (finalK n k * W t) ^ 2) - φ * integrand (k ^ 2) (t * φ)
    = -(1 - csqrt (1 - (finalK n k * W t) ^ 2)) * (φ * integrand (k ^ 2) (t * φ)) by ring, norm_mul, norm_neg]
  exact mul_le_mul_of_nonneg_right ((one_sub_csqrt _).trans hb) (norm_nonneg _)

end Verif.Elliptic
