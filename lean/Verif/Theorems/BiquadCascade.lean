import Verif.Proof.BiquadCascade
import Verif.Theorems.Biquad
import Mathlib.Algebra.Order.Ring.Rat
import Mathlib.Algebra.Field.Rat
import Mathlib.Tactic.NormNum

/-!
# C22: cascade coefficient algebra

Specification: `evalZ φ p w = Σ φ(p_k) w^k` is the polynomial with coefficients `p` in the delay
`w = z⁻¹`, and `DiffEq b a xs ys` the difference equation (`Verif.Spec.LinearFilter`).
-/

namespace Verif.BiquadCascade
open Verif.LinearFilter.Spec Verif.Series Verif.Stream PowerSeries

variable {K : Type} [Field K] [LinearOrder K] [IsStrictOrderedRing K]

theorem ps_ne_zero_of_mem {p : List K} (h : ∃ c ∈ p, c ≠ 0) : ps p ≠ 0 := by
  obtain ⟨c, hc, h0⟩ := h
  intro hz
  obtain ⟨k, hk, rfl⟩ := List.mem_iff_getElem.mp hc
  apply h0
  have := (ps_eq_zero p).1 hz k
  rwa [getD_eq_getElem' _ _ hk] at this

theorem multiplyOut_correct (polys : List (List K)) (h : ∀ p ∈ polys, ∃ c ∈ p, c ≠ 0) :
    ∃ r, multiplyOut polys = some r ∧ ps r = (polys.map ps).prod := by
  obtain ⟨r, e, _, hr⟩ := multiplyOut_spec polys [1] (by rw [ps_one]; exact one_ne_zero)
    (fun p hp => ps_ne_zero_of_mem (h p hp))
  exact ⟨r, e, by rw [hr, ps_one, mul_one]⟩

/-- **C22.** For every list of stages none of whose numerators or denominators is identically zero,
`AsPolynomialRatio` returns polynomials that are, at every point, the products of the stages'
numerators and of the stages' denominators. -/
theorem C22_asPolynomialRatio (cs : List (Stage K))
    (h : ∀ s ∈ cs, (∃ c ∈ s.b, c ≠ 0) ∧ (∃ c ∈ s.a, c ≠ 0)) :
    ∃ b a, asPolynomialRatio cs = some (b, a) ∧
      ∀ {A : Type} [CommRing A] (φ : K →+* A) (w : A),
        evalZ φ b w = (cs.map (fun s => evalZ φ s.b w)).prod ∧
        evalZ φ a w = (cs.map (fun s => evalZ φ s.a w)).prod := by
  obtain ⟨b, eb, hb⟩ := multiplyOut_correct (cs.map (·.b)) (by
    intro p hp; obtain ⟨s, hs, rfl⟩ := List.mem_map.mp hp; exact (h s hs).1)
  obtain ⟨a, ea, ha⟩ := multiplyOut_correct (cs.map (·.a)) (by
    intro p hp; obtain ⟨s, hs, rfl⟩ := List.mem_map.mp hp; exact (h s hs).2)
  refine ⟨b, a, by simp [asPolynomialRatio, eb, ea], ?_⟩
  intro A _ φ w
  refine ⟨?_, ?_⟩
  · rw [evalZ_prod φ w _ _ hb, List.map_map]; rfl
  · rw [evalZ_prod φ w _ _ ha, List.map_map]; rfl

/-- **C22, finding.** If any stage has an all-zero numerator (a muted stage, e.g. after
`AdjustGain(0)`), `AsPolynomialRatio` (and with it `IsStable` and `AsLadderFilterCoefficients` of the
cascade) runs into undefined behaviour: `Convolve` reads before the start of the vector. -/
theorem C22_asPolynomialRatio_zero_violation (cs : List (Stage K)) (s : Stage K) (hs : s ∈ cs)
    (hz : ∀ c ∈ s.b, c = 0) : asPolynomialRatio cs = none := by
  have : multiplyOut (cs.map (·.b)) = none := by
    apply multiplyOut_none
    refine ⟨s.b, List.mem_map_of_mem hs, ?_⟩
    rw [ps_eq_zero]
    intro k
    by_cases hk : k < s.b.length
    · rw [getD_eq_getElem' _ _ hk]; exact hz _ (List.getElem_mem hk)
    · rw [List.getD_eq_getElem?_getD, List.getElem?_eq_none (by omega)]; rfl
  simp [asPolynomialRatio, this]

example : asPolynomialRatio ([⟨[1, 2, 0], [1, 1/2, 0]⟩, ⟨[3, 0, 1], [2, 0, 1/4]⟩] : List (Stage ℚ))
    = some ([3, 6, 1, 2], [2, 1, 1/4, 1/8]) := by decide +kernel

/-! ### The cascade filter realises the product -/

/-- A stage as the constructor accepts it (both vectors have three entries), with `a0 ≠ 0`. -/
structure Stage.Valid (s : Stage K) : Prop where
  lenB : s.b.length = 3
  lenA : s.a.length = 3
  a0 : s.a.getD 0 0 ≠ 0

theorem cascade_series : ∀ (cs : List (Stage K)), (∀ s ∈ cs, s.Valid) →
    ∃ fs, Biquad.cascadeInit (cs.map Stage.coeffs) = some fs ∧ ∀ xs : List K,
      (Biquad.cascadeBlock fs xs).2.length = xs.length ∧
      EqUpTo xs.length (denProd cs * ps (Biquad.cascadeBlock fs xs).2) (numProd cs * ps xs)
  | [], _ => ⟨[], rfl, fun xs => ⟨rfl, by
      simp only [denProd, numProd, List.map_nil, List.prod_nil]
      exact EqUpTo.of_eq rfl⟩⟩
  | s :: cs, h => by
    obtain ⟨fs, e, hfs⟩ := cascade_series cs (fun t ht => h t (by simp [ht]))
    have hv := h s (by simp)
    obtain ⟨f, hf⟩ : ∃ f, Biquad.init s.coeffs = some f := by
      cases hi : Biquad.init s.coeffs with
      | none => exact absurd ((Biquad.C21_init_check _).1 hi) hv.a0
      | some f => exact ⟨f, rfl⟩
    refine ⟨(f, Biquad.resetState) :: fs, ?_, ?_⟩
    · unfold Biquad.cascadeInit at e ⊢
      rw [List.map_cons, List.mapM_cons, hf]
      simp only [Option.map_some, Option.bind_eq_bind, Option.bind_some, e]
      rfl
    · intro xs
      have h1 := Biquad.step_diffEq hf xs
      rw [diffEq_iff] at h1
      obtain ⟨l1, e1⟩ := h1
      obtain ⟨l2, e2⟩ := hfs (runSamples (Biquad.step f) Biquad.resetState xs).2
      have eb : ps s.coeffs.num = ps s.b := by
        rw [ps_three s.b hv.lenB, ps_three _ rfl]; rfl
      have ea : ps s.coeffs.den = ps s.a := by
        rw [ps_three s.a hv.lenA, ps_three _ rfl]; rfl
      rw [eb, ea] at e1
      simp only [Biquad.cascadeBlock]
      refine ⟨by rw [l2, l1], ?_⟩
      simp only [denProd, numProd, List.map_cons, List.prod_cons]
      rw [l1] at e2
      refine (EqUpTo.of_eq (mul_assoc _ _ _)).trans ((e2.mul_left (ps s.a)).trans ?_)
      refine (EqUpTo.of_eq (mul_left_comm _ _ _)).trans ((e1.mul_left (numProd cs)).trans ?_)
      exact EqUpTo.of_eq (by simp only [numProd]; ring)

/-- **C22.** The output of a cascade filter for every input satisfies the difference equation whose
coefficients are the polynomials returned by `AsPolynomialRatio`. -/
theorem C22_cascade_response (cs : List (Stage K)) (hv : ∀ s ∈ cs, s.Valid)
    (hb : ∀ s ∈ cs, ∃ c ∈ s.b, c ≠ 0) :
    ∃ fs b a, Biquad.cascadeInit (cs.map Stage.coeffs) = some fs ∧
      asPolynomialRatio cs = some (b, a) ∧
      ∀ xs, DiffEq b a xs (Biquad.cascadeBlock fs xs).2 := by
  obtain ⟨b, eb, hb⟩ := multiplyOut_correct (cs.map (·.b)) (by
    intro p hp; obtain ⟨s, hs, rfl⟩ := List.mem_map.mp hp; exact hb s hs)
  obtain ⟨a, ea, ha⟩ := multiplyOut_correct (cs.map (·.a)) (by
    intro p hp; obtain ⟨s, hs, rfl⟩ := List.mem_map.mp hp
    have hl : 0 < s.a.length := by rw [(hv s hs).lenA]; omega
    exact ⟨s.a[0], List.getElem_mem hl, by rw [← getD_eq_getElem' _ _ hl]; exact (hv s hs).a0⟩)
  obtain ⟨fs, e, h⟩ := cascade_series cs hv
  refine ⟨fs, b, a, e, by simp [asPolynomialRatio, eb, ea], ?_⟩
  intro xs
  rw [diffEq_iff]
  refine ⟨(h xs).1, ?_⟩
  have h2 := (h xs).2
  rw [List.map_map] at hb ha
  rw [hb, ha]
  exact h2

/-! ### `Simplify` -/

/-- The transfer function of a cascade is unchanged up to a common factor of numerator and
denominator. -/
structure SameTransfer (cs cs' : List (Stage K)) : Prop where
  ratio : ∃ c : K, c ≠ 0 ∧ ∀ {A : Type} [CommRing A] (φ : K →+* A) (w : A),
    (cs.map (fun s => evalZ φ s.b w)).prod = φ c * (cs'.map (fun s => evalZ φ s.b w)).prod ∧
    (cs.map (fun s => evalZ φ s.a w)).prod = φ c * (cs'.map (fun s => evalZ φ s.a w)).prod

theorem evalZ_prod_toPoly {A : Type} [CommRing A] (φ : K →+* A) (w : A) (polys : List (List K)) :
    (polys.map (fun p => evalZ φ p w)).prod = ((polys.map toPoly).prod).eval₂ φ w := by
  induction polys with
  | nil => simp
  | cons p polys ih =>
    rw [List.map_cons, List.prod_cons, ih, List.map_cons, List.prod_cons, Polynomial.eval₂_mul,
      eval_toPoly]

theorem coe_prod_toPoly (polys : List (List K)) :
    (((polys.map toPoly).prod : Polynomial K) : K⟦X⟧) = (polys.map ps).prod := by
  induction polys with
  | nil => simp
  | cons p polys ih => simp [Polynomial.coe_mul, ih, coe_toPoly]

theorem evalZ_of_prod_eq {A : Type} [CommRing A] (φ : K →+* A) (w : A) (c : K)
    (l l' : List (List K)) (h : (l.map ps).prod = C c * (l'.map ps).prod) :
    (l.map (fun p => evalZ φ p w)).prod = φ c * (l'.map (fun p => evalZ φ p w)).prod := by
  rw [evalZ_prod_toPoly, evalZ_prod_toPoly]
  have : (l.map toPoly).prod = Polynomial.C c * (l'.map toPoly).prod := by
    apply Polynomial.coe_injective
    rw [Polynomial.coe_mul, coe_prod_toPoly, coe_prod_toPoly, h, Polynomial.coe_C]
  rw [this, Polynomial.eval₂_mul, Polynomial.eval₂_C]

/-- What the proof of exactness of `Simplify` needs of a stage: with `ε = 1e-10`, `δ = 1e-5`,
* the quadratic coefficient is above the threshold, or it is exactly zero and the linear one is
  exactly zero or above `δ` (for numerator and denominator);
* a constant numerator is at least one and a constant denominator at most one in magnitude;
* `a0 ≠ 0`. -/
def SimplifyExact (ε δ : K) (s : Stage K) : Prop := GoodStage ε δ s

theorem simplify_spec {ε δ : K} (h0 : 0 ≤ ε) (hδ : ε ≤ δ) (hεδ : ε ≤ δ * δ)
    (cs : List (Stage K)) (hne : cs ≠ []) (hcs : ∀ s ∈ cs, GoodStage ε δ s) :
    ∃ cs', simplify ε cs = some cs' ∧ cs' ≠ [] ∧ (∀ s ∈ cs', GoodStage ε δ s) ∧
      ∃ c : K, c ≠ 0 ∧ numProd cs = C c * numProd cs' ∧ denProd cs = C c * denProd cs' := by
  have hδ0 : 0 ≤ δ := h0.trans hδ
  have notZero : ∀ c : List K, ε < |c.getD 2 0| → isZeroOrder ε c = false := by
    intro c hc
    simp only [isZeroOrder, decide_eq_false_iff_not, not_and, not_le]
    exact fun _ => hc
  obtain ⟨bs, e1, l1, g1, p1⟩ := mergeFirstOrder_spec h0 hδ0 hεδ
    (fun p => isZeroOrder ε p → 1 ≤ |p.getD 0 0|)
    (by intro _; simp)
    (by intro p q c _ _ _ hb _ hz; rw [notZero c hb] at hz; simp at hz)
    cs.length (cs.map (·.b)) (by
      intro p hp; obtain ⟨s, hs, rfl⟩ := List.mem_map.mp hp; exact ⟨(hcs s hs).b, (hcs s hs).gb⟩)
  obtain ⟨as, e2, l2, g2, p2⟩ := mergeFirstOrder_spec h0 hδ0 hεδ
    (fun p => p.getD 0 0 ≠ 0 ∧ (isZeroOrder ε p → |p.getD 0 0| ≤ 1))
    ⟨by simp, by intro _; simp⟩
    (by
      intro p q c hp hq _ hb hc
      refine ⟨by rw [hc]; exact mul_ne_zero hp.1 hq.1, ?_⟩
      intro hz; rw [notZero c hb] at hz; simp at hz)
    cs.length (cs.map (·.a)) (by
      intro p hp; obtain ⟨s, hs, rfl⟩ := List.mem_map.mp hp
      exact ⟨(hcs s hs).a, (hcs s hs).a0, (hcs s hs).ga⟩)
  rw [List.length_map] at l1 l2
  have hz : ∀ s ∈ List.zipWith Stage.mk bs as, GoodStage ε δ s := by
    intro s hs
    obtain ⟨i, hi, rfl⟩ := List.mem_iff_getElem.mp hs
    rw [List.length_zipWith] at hi
    rw [List.getElem_zipWith]
    have hb := g1 bs[i] (List.getElem_mem (by omega))
    have ha := g2 as[i] (List.getElem_mem (by omega))
    exact ⟨hb.1, ha.1, ha.2.1, hb.2, ha.2.2⟩
  have hzne : List.zipWith Stage.mk bs as ≠ [] := by
    intro he
    have := congrArg List.length he
    rw [List.length_zipWith, List.length_nil] at this
    have hpos := List.length_pos_iff.mpr hne
    omega
  have mb : (List.zipWith Stage.mk bs as).map (fun s => ps s.b) = bs.map ps := by
    apply List.ext_getElem
    · simp; omega
    · intro i h1 h2; simp
  have ma : (List.zipWith Stage.mk bs as).map (fun s => ps s.a) = as.map ps := by
    apply List.ext_getElem
    · simp; omega
    · intro i h1 h2; simp
  obtain ⟨g3, n3, c, hc, e3, e4⟩ := mergeZeroOrder_spec hδ cs.length _ hz hzne
  refine ⟨_, by simp [simplify, e1, e2], n3, g3, c, hc, ?_, ?_⟩
  · rw [← e3]
    unfold numProd
    rw [mb, p1, List.map_map]; rfl
  · rw [← e4]
    unfold denProd
    rw [ma, p2, List.map_map]; rfl

/-- **C22, partial.** For stages whose coefficients the thresholds classify exactly
(`SimplifyExact`), `Simplify` is defined and leaves the product transfer function unchanged.
The full claim (all coefficients) is false: see `C22_simplify_violation`. -/
theorem C22_simplify_partial {ε δ : K} (h0 : 0 ≤ ε) (hδ : ε ≤ δ) (hεδ : ε ≤ δ * δ)
    (cs : List (Stage K)) (hne : cs ≠ []) (hcs : ∀ s ∈ cs, SimplifyExact ε δ s) :
    ∃ cs', simplify ε cs = some cs' ∧ cs' ≠ [] ∧ SameTransfer cs cs' := by
  obtain ⟨cs', e, hne', _, c, hc, e1, e2⟩ := simplify_spec h0 hδ hεδ cs hne hcs
  refine ⟨cs', e, hne', ⟨c, hc, ?_⟩⟩
  intro A _ φ w
  have h1 := evalZ_of_prod_eq φ w c (cs.map (·.b)) (cs'.map (·.b)) (by
    simp only [List.map_map]; exact e1)
  have h2 := evalZ_of_prod_eq φ w c (cs.map (·.a)) (cs'.map (·.a)) (by
    simp only [List.map_map]; exact e2)
  simp only [List.map_map] at h1 h2
  exact ⟨h1, h2⟩

/-- **C22, partial.** `AppendBiquad` multiplies the transfer function by that of the new stage. -/
theorem C22_append_partial {ε δ : K} (h0 : 0 ≤ ε) (hδ : ε ≤ δ) (hεδ : ε ≤ δ * δ)
    (cs : List (Stage K)) (s : Stage K) (hcs : ∀ t ∈ cs, SimplifyExact ε δ t)
    (hs : SimplifyExact ε δ s) :
    ∃ cs', appendBiquad ε cs s = some cs' ∧ cs' ≠ [] ∧ SameTransfer (cs ++ [s]) cs' := by
  refine C22_simplify_partial h0 hδ hεδ (cs ++ [s]) (by simp) ?_
  intro t ht
  rcases List.mem_append.mp ht with h | h
  · exact hcs t h
  · rw [List.mem_singleton.mp h]; exact hs

theorem GoodStage.valid {ε δ : K} {s : Stage K} (h : GoodStage ε δ s) : s.Valid :=
  ⟨h.b.len, h.a.len, h.a0⟩

theorem constantCoeff_denProd (cs : List (Stage K)) (h : ∀ s ∈ cs, s.Valid) :
    constantCoeff (denProd cs) ≠ 0 := by
  induction cs with
  | nil => simp [denProd]
  | cons s cs ih =>
    unfold denProd at ih ⊢
    rw [List.map_cons, List.prod_cons, map_mul]
    refine mul_ne_zero ?_ (ih (fun t ht => h t (by simp [ht])))
    rw [← coeff_zero_eq_constantCoeff_apply, coeff_ps]
    exact (h s (by simp)).a0

/-- **C22, partial.** A filter made from the simplified cascade produces, for every input, exactly
the output of a filter made from the original cascade. -/
theorem C22_simplify_output_partial {ε δ : K} (h0 : 0 ≤ ε) (hδ : ε ≤ δ) (hεδ : ε ≤ δ * δ)
    (cs : List (Stage K)) (hne : cs ≠ []) (hcs : ∀ s ∈ cs, SimplifyExact ε δ s) :
    ∃ cs' fs fs', simplify ε cs = some cs' ∧
      Biquad.cascadeInit (cs.map Stage.coeffs) = some fs ∧
      Biquad.cascadeInit (cs'.map Stage.coeffs) = some fs' ∧
      ∀ xs, (Biquad.cascadeBlock fs' xs).2 = (Biquad.cascadeBlock fs xs).2 := by
  obtain ⟨cs', e, hne', hg, c, hc, e1, e2⟩ := simplify_spec h0 hδ hεδ cs hne hcs
  obtain ⟨fs, i1, r1⟩ := cascade_series cs (fun s hs => (hcs s hs).valid)
  obtain ⟨fs', i2, r2⟩ := cascade_series cs' (fun s hs => (hg s hs).valid)
  refine ⟨cs', fs, fs', e, i1, i2, ?_⟩
  intro xs
  obtain ⟨l1, q1⟩ := r1 xs
  obtain ⟨l2, q2⟩ := r2 xs
  have q3 : EqUpTo xs.length (denProd cs * ps (Biquad.cascadeBlock fs' xs).2) (numProd cs * ps xs) := by
    rw [e1, e2]
    exact (EqUpTo.of_eq (mul_assoc _ _ _)).trans ((q2.mul_left (C c)).trans
      (EqUpTo.of_eq (mul_assoc _ _ _).symm))
  have q4 := (q3.trans q1.symm).mul_left (denProd cs)⁻¹
  have hd := constantCoeff_denProd cs (fun s hs => (hcs s hs).valid)
  apply List.ext_getElem (by rw [l1, l2])
  intro n h1 h2
  have := q4 n (by omega)
  rw [← mul_assoc, ← mul_assoc, PowerSeries.inv_mul_cancel _ hd, one_mul, one_mul, coeff_ps, coeff_ps,
    getD_eq_getElem' _ _ h1, getD_eq_getElem' _ _ h2] at this
  exact this

theorem evalStage_eq {L : Type} [Field L] (φ : K →+* L) (s : Stage K) (hv : s.Valid) (z : L)
    (hz : z ≠ 0) : evalStage φ s z = evalZ φ s.b z⁻¹ / evalZ φ s.a z⁻¹ := by
  have key : ∀ p : List K, p.length = 3 →
      (φ (p.getD 0 0) * z + φ (p.getD 1 0)) * z + φ (p.getD 2 0) = z ^ 2 * evalZ φ p z⁻¹ := by
    intro p hp
    unfold evalZ
    rw [hp, Finset.sum_range_succ, Finset.sum_range_succ, Finset.sum_range_one]
    field_simp
  unfold evalStage
  rw [key _ hv.lenB, key _ hv.lenA, mul_div_mul_left _ _ (pow_ne_zero 2 hz)]

theorem evalCascade_eq {L : Type} [Field L] (φ : K →+* L) (z : L) (hz : z ≠ 0) (cs : List (Stage K))
    (hv : ∀ s ∈ cs, s.Valid) : evalCascade φ cs z
      = (cs.map (fun s => evalZ φ s.b z⁻¹)).prod / (cs.map (fun s => evalZ φ s.a z⁻¹)).prod := by
  have key : ∀ (cs : List (Stage K)), (∀ s ∈ cs, s.Valid) → ∀ t : L,
      cs.foldl (fun t s => t * evalStage φ s z) t
      = t * ((cs.map (fun s => evalZ φ s.b z⁻¹)).prod / (cs.map (fun s => evalZ φ s.a z⁻¹)).prod) := by
    intro cs
    induction cs with
    | nil => intro _ t; simp
    | cons s cs ih =>
      intro hv t
      rw [List.foldl_cons, ih (fun u hu => hv u (by simp [hu])), evalStage_eq φ s (hv s (by simp)) z hz]
      simp only [List.map_cons, List.prod_cons]
      rw [mul_assoc, div_mul_div_comm]
  unfold evalCascade
  rw [key cs hv 1, one_mul]

/-- **C22.** `EvalTransferFunction` of a cascade at any `z ≠ 0` is the ratio of the values of the two
polynomials of `AsPolynomialRatio` at `z⁻¹`. -/
theorem C22_eval {L : Type} [Field L] (φ : K →+* L) (z : L) (hz : z ≠ 0) (cs : List (Stage K))
    (hv : ∀ s ∈ cs, s.Valid) (hb : ∀ s ∈ cs, ∃ c ∈ s.b, c ≠ 0) :
    ∃ b a, asPolynomialRatio cs = some (b, a) ∧
      evalCascade φ cs z = evalZ φ b z⁻¹ / evalZ φ a z⁻¹ := by
  obtain ⟨b, a, e, h⟩ := C22_asPolynomialRatio cs (fun s hs => ⟨hb s hs, by
    have hl : 0 < s.a.length := by rw [(hv s hs).lenA]; omega
    exact ⟨s.a[0], List.getElem_mem hl, by rw [← getD_eq_getElem' _ _ hl]; exact (hv s hs).a0⟩⟩)
  obtain ⟨h1, h2⟩ := h φ z⁻¹
  exact ⟨b, a, e, by rw [evalCascade_eq φ z hz cs hv, h1, h2]⟩

/-- **C22, partial.** `EvalTransferFunction` gives the same value before and after `Simplify` at
every `z ≠ 0` (where the denominators do not vanish before, they do not vanish after). -/
theorem C22_simplify_eval_partial {ε δ : K} (h0 : 0 ≤ ε) (hδ : ε ≤ δ) (hεδ : ε ≤ δ * δ)
    (cs : List (Stage K)) (hne : cs ≠ []) (hcs : ∀ s ∈ cs, SimplifyExact ε δ s)
    {L : Type} [Field L] (φ : K →+* L) (z : L) (hz : z ≠ 0) :
    ∃ cs', simplify ε cs = some cs' ∧ evalCascade φ cs' z = evalCascade φ cs z ∧
      ((cs.map (fun s => evalZ φ s.a z⁻¹)).prod ≠ 0 →
        (cs'.map (fun s => evalZ φ s.a z⁻¹)).prod ≠ 0) := by
  obtain ⟨cs', e, _, hg, c, hc, e1, e2⟩ := simplify_spec h0 hδ hεδ cs hne hcs
  have h1 := evalZ_of_prod_eq φ z⁻¹ c (cs.map (·.b)) (cs'.map (·.b)) (by
    simp only [List.map_map]; exact e1)
  have h2 := evalZ_of_prod_eq φ z⁻¹ c (cs.map (·.a)) (cs'.map (·.a)) (by
    simp only [List.map_map]; exact e2)
  simp only [List.map_map] at h1 h2
  have h1' : (cs.map (fun s => evalZ φ s.b z⁻¹)).prod = φ c * (cs'.map (fun s => evalZ φ s.b z⁻¹)).prod := h1
  have h2' : (cs.map (fun s => evalZ φ s.a z⁻¹)).prod = φ c * (cs'.map (fun s => evalZ φ s.a z⁻¹)).prod := h2
  have hc' : φ c ≠ 0 := by simpa using hc
  refine ⟨cs', e, ?_, ?_⟩
  · rw [evalCascade_eq φ z hz cs (fun s hs => (hcs s hs).valid),
      evalCascade_eq φ z hz cs' (fun s hs => (hg s hs).valid), h1', h2', mul_div_mul_left _ _ hc']
  · intro h hzero
    rw [h2', hzero, mul_zero] at h
    exact h rfl

/-- **C22.** `Simplify` ends: no pair of first-order numerators or denominators is left after its
first two loops, and after the third only one stage or no zero-order numerator/denominator pair is
left (so the iteration bounds of the model are never the reason for stopping). -/
theorem C22_simplify_terminates {ε : K} (h0 : 0 ≤ ε) (h1 : ε < 1) (cs : List (Stage K)) :
    (∀ out, mergeFirstOrder ε cs.length (cs.map (·.b)) = some out → findPair ε out = none) ∧
    (∀ out, mergeFirstOrder ε cs.length (cs.map (·.a)) = some out → findPair ε out = none) ∧
    ((mergeZeroOrder ε cs.length cs).length ≤ 1 ∨
      findZeroOrder ε (mergeZeroOrder ε cs.length cs) = none) := by
  refine ⟨fun out h => mergeFirstOrder_done h0 h1 _ _ _ ?_ h,
    fun out h => mergeFirstOrder_done h0 h1 _ _ _ ?_ h, mergeZeroOrder_done _ _ (Nat.le_refl _)⟩
  · exact List.countP_le_length.trans (by simp)
  · exact List.countP_le_length.trans (by simp)

/-! ### Concrete cases -/

/-- A cascade of two first-order stages, a constant stage and a second-order stage. -/
def sampleCascade : List (Stage ℚ) :=
  [⟨[1, 1, 0], [1, -1/2, 0]⟩, ⟨[1, -1, 0], [2, 1/2, 0]⟩, ⟨[3, 0, 0], [1, 0, 1/4]⟩]

/-- Non-vacuity: the hypotheses hold with the thresholds of the code, and `Simplify` does merge. -/
example : (∀ s ∈ sampleCascade, SimplifyExact (1/10^10) (1/10^5) s) ∧
    simplify (1/10^10) sampleCascade
      = some [⟨[1, 0, -1], [2, -1/2, -1/4]⟩, ⟨[3, 0, 0], [1, 0, 1/4]⟩] := by
  refine ⟨?_, by decide +kernel⟩
  intro s hs
  simp only [sampleCascade, List.mem_cons, List.not_mem_nil, or_false] at hs
  rcases hs with rfl | rfl | rfl <;>
    refine ⟨⟨rfl, ?_⟩, ⟨rfl, ?_⟩, ?_, ?_, ?_⟩ <;> norm_num [isZeroOrder, abs_of_pos, abs_of_neg]

/-- A low-pass with a very low cut-off frequency (numerator `4e-11 (1 + z⁻¹)²`) followed by a
first-difference stage. -/
def lowCutoff : List (Stage ℚ) :=
  [⟨[4/10^11, 8/10^11, 4/10^11], [1, -1.9999, 0.99990001]⟩, ⟨[1, -1, 0], [1, 0, 0]⟩]

/-- **C22, finding.** The absolute thresholds `1e-10` make `Simplify` treat small but essential
coefficients as zero: the low-pass numerator `4e-11 (1 + z⁻¹)²` is replaced by the constant `4e-11`,
so the transfer function at `z = 2` changes (no common factor relates the two cascades). -/
theorem C22_simplify_violation :
    (∀ s ∈ lowCutoff, s.Valid) ∧
    ∃ cs', simplify (1/10^10) lowCutoff = some cs' ∧ ¬ SameTransfer lowCutoff cs' ∧
      evalCascade (RingHom.id ℚ) cs' 2 ≠ evalCascade (RingHom.id ℚ) lowCutoff 2 := by
  refine ⟨?_, [⟨[4/10^11, -4/10^11, 0], [1, -1.9999, 0.99990001]⟩], by decide +kernel, ?_,
    by decide +kernel⟩
  · intro s hs
    simp only [lowCutoff, List.mem_cons, List.not_mem_nil, or_false] at hs
    rcases hs with rfl | rfl <;> exact ⟨rfl, rfl, by norm_num⟩
  · rintro ⟨c, hc, h⟩
    obtain ⟨h1, h2⟩ := h (RingHom.id ℚ) (1/2)
    simp only [lowCutoff, List.map_cons, List.map_nil, List.prod_cons, List.prod_nil, evalZ,
      List.length_cons, List.length_nil, Finset.sum_range_succ, Finset.sum_range_zero,
      RingHom.id_apply] at h1 h2
    norm_num at h1 h2
    rw [h2] at h1
    norm_num at h1

end Verif.BiquadCascade
