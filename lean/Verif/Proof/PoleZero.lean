import Verif.Spec.PoleZero
import Verif.Theorems.BiquadCascade
import Mathlib.Analysis.Complex.Norm
import Mathlib.Tactic.LinearCombination

/-!
# Lemmas on poles and zeros
-/

namespace Verif.PoleZero
open Verif.BiquadCascade Verif.LinearFilter.Spec Verif.Series Spec PowerSeries
open scoped ComplexConjugate

/-- Product of `g` over lone and paired roots. -/
noncomputable def rootProd (g : ℂ → ℂ) (lone : List ℝ) (paired : List ℂ) : ℂ :=
  (lone.map fun r : ℝ => g r).prod * (paired.map fun p => g p * g (conj p)).prod

theorem rootProd_eq (g : ℂ → ℂ) (lone : List ℝ) (paired : List ℂ) :
    ((lone.map (fun p : ℝ => (p : ℂ)) ++ paired.flatMap fun p => [p, conj p]).map g).prod
      = rootProd g lone paired := by
  rw [List.map_append, List.prod_append, List.map_map, rootProd]
  congr 1
  induction paired with
  | nil => simp
  | cons p l ih => simp [ih, mul_assoc]

theorem evalZ_three (a b c : ℝ) (w : ℂ) : evalZ Complex.ofRealHom [a, b, c] w = a + b * w + c * w ^ 2 := by
  simp [evalZ, Finset.sum_range_succ]

theorem getNext_prod (ps : List ℂ) (lone : List ℝ) (w : ℂ) :
    evalZ Complex.ofRealHom (getNext ps lone).1 w *
      rootProd (fun r => 1 - r * w) (getNext ps lone).2.2 (getNext ps lone).2.1
      = rootProd (fun r => 1 - r * w) lone ps := by
  unfold rootProd
  rcases ps with _ | ⟨p, ps⟩
  · rcases lone with _ | ⟨r1, _ | ⟨r2, lone⟩⟩
    · simp [getNext, evalZ_three]
    · simp [getNext, evalZ_three, coefficientsLone]; ring
    · simp [getNext, evalZ_three, coefficientsLone]; ring
  · have h1 : ((p + conj p).re : ℂ) = p + conj p := by
      rw [Complex.add_conj]; norm_cast
    have h2 : ((p * conj p).re : ℂ) = p * conj p := by
      rw [Complex.mul_conj]; norm_cast
    simp only [getNext, coefficientsPaired, evalZ_three, List.map_cons, List.prod_cons]
    rw [Complex.ofReal_neg, h1, h2]
    push_cast
    ring

/-- Roots that the thresholds classify exactly. -/
def Exact (δ : ℝ) (lone : List ℝ) (paired : List ℂ) : Prop :=
  (∀ r ∈ lone, r = 0 ∨ δ < |r|) ∧ ∀ p ∈ paired, p = 0 ∨ δ < ‖p‖

theorem exact_of_roots {δ : ℝ} {lone : List ℝ} {paired : List ℂ}
    (h : ∀ r ∈ lone.map (fun p : ℝ => (p : ℂ)) ++ paired.flatMap fun p => [p, conj p], r = 0 ∨ δ < ‖r‖) :
    Exact δ lone paired := by
  refine ⟨?_, ?_⟩
  · intro r hr
    have := h (r : ℂ) (List.mem_append_left _ (List.mem_map_of_mem hr))
    rw [Complex.norm_real, Real.norm_eq_abs] at this
    simpa using this
  · intro p hp
    exact h p (List.mem_append_right _ (List.mem_flatMap.2 ⟨p, hp, by simp⟩))

theorem separated_const {ε δ : ℝ} : Separated ε δ ([1, 0, 0] : List ℝ) := ⟨rfl, Or.inr ⟨rfl, Or.inl rfl⟩⟩

theorem separated_lone {ε δ : ℝ} (hδ0 : 0 ≤ δ) (hεδ : ε ≤ δ * δ) {r1 r2 : ℝ} (h1 : r1 = 0 ∨ δ < |r1|)
    (h2 : r2 = 0 ∨ δ < |r2|) : Separated ε δ (coefficientsLone r1 r2) := by
  refine ⟨rfl, ?_⟩
  simp only [coefficientsLone, List.getD_cons_succ, List.getD_cons_zero]
  rcases h1 with rfl | h1
  · rcases h2 with rfl | h2
    · right; simp
    · right; exact ⟨by simp, Or.inr (by simpa using h2)⟩
  · rcases h2 with rfl | h2
    · right; exact ⟨by simp, Or.inr (by simpa using h1)⟩
    · left; rw [abs_mul]; exact lt_of_le_of_lt hεδ (mul_lt_mul'' h1 h2 hδ0 hδ0)

theorem separated_paired {ε δ : ℝ} (hδ0 : 0 ≤ δ) (hεδ : ε ≤ δ * δ) {p : ℂ} (h : p = 0 ∨ δ < ‖p‖) :
    Separated ε δ (coefficientsPaired p (conj p)) := by
  refine ⟨rfl, ?_⟩
  simp only [coefficientsPaired, List.getD_cons_succ, List.getD_cons_zero]
  rcases h with rfl | h
  · right; simp
  · left
    rw [Complex.mul_conj, Complex.ofReal_re, Complex.normSq_eq_norm_sq, abs_of_nonneg (sq_nonneg _), pow_two]
    exact lt_of_le_of_lt hεδ (mul_lt_mul'' h h hδ0 hδ0)

theorem getNext_good {ε δ : ℝ} (hδ0 : 0 ≤ δ) (hεδ : ε ≤ δ * δ) {ps : List ℂ} {lone : List ℝ}
    (h : Exact δ lone ps) : Separated ε δ (getNext ps lone).1 ∧ (getNext ps lone).1.getD 0 0 = 1 ∧
      Exact δ (getNext ps lone).2.2 (getNext ps lone).2.1 := by
  rcases ps with _ | ⟨p, ps⟩
  · rcases lone with _ | ⟨r1, _ | ⟨r2, lone⟩⟩
    · exact ⟨separated_const, rfl, h⟩
    · exact ⟨separated_lone hδ0 hεδ (h.1 r1 (by simp)) (Or.inl rfl), rfl, ⟨by simp [getNext], by simp [getNext]⟩⟩
    · exact ⟨separated_lone hδ0 hεδ (h.1 r1 (by simp)) (h.1 r2 (by simp)), rfl,
        ⟨fun r hr => h.1 r (by simp [getNext] at hr; simp [hr]), by simp [getNext]⟩⟩
  · exact ⟨separated_paired hδ0 hεδ (h.2 p (by simp)), rfl,
      ⟨h.1, fun q hq => h.2 q (List.mem_cons_of_mem _ hq)⟩⟩

theorem getNext_length (ps : List ℂ) (lone : List ℝ) :
    (getNext ps lone).2.1.length + (getNext ps lone).2.2.length ≤ ps.length + lone.length ∧
    (0 < ps.length + lone.length →
      (getNext ps lone).2.1.length + (getNext ps lone).2.2.length < ps.length + lone.length) := by
  rcases ps with _ | ⟨p, ps⟩
  · rcases lone with _ | ⟨r1, _ | ⟨r2, lone⟩⟩ <;> simp [getNext]
    omega
  · simp [getNext]

theorem good_of_next {ε δ : ℝ} {b a : List ℝ} (hb : Separated ε δ b) (ha : Separated ε δ a)
    (b0 : b.getD 0 0 = 1) (a0 : a.getD 0 0 = 1) : GoodStage ε δ ⟨b, a⟩ :=
  ⟨hb, ha, by rw [a0]; exact one_ne_zero, by intro _; rw [b0]; simp, by intro _; rw [a0]; simp⟩

theorem numProd_append (cs cs' : List (Stage ℝ)) : numProd (cs ++ cs') = numProd cs * numProd cs' := by
  simp [numProd]

theorem denProd_append (cs cs' : List (Stage ℝ)) : denProd (cs ++ cs') = denProd cs * denProd cs' := by
  simp [denProd]

/-- Value of the numerator of a cascade. -/
noncomputable def numAt (cs : List (Stage ℝ)) (w : ℂ) : ℂ := (cs.map fun s => evalZ Complex.ofRealHom s.b w).prod

/-- Value of the denominator of a cascade. -/
noncomputable def denAt (cs : List (Stage ℝ)) (w : ℂ) : ℂ := (cs.map fun s => evalZ Complex.ofRealHom s.a w).prod

theorem numAt_of {cs cs' : List (Stage ℝ)} {c : ℝ} (h : numProd cs = C c * numProd cs') (w : ℂ) :
    numAt cs w = c * numAt cs' w := by
  have := evalZ_of_prod_eq Complex.ofRealHom w c (cs.map (·.b)) (cs'.map (·.b)) (by
    simp only [List.map_map]; exact h)
  simp only [List.map_map] at this
  exact this

theorem denAt_of {cs cs' : List (Stage ℝ)} {c : ℝ} (h : denProd cs = C c * denProd cs') (w : ℂ) :
    denAt cs w = c * denAt cs' w := by
  have := evalZ_of_prod_eq Complex.ofRealHom w c (cs.map (·.a)) (cs'.map (·.a)) (by
    simp only [List.map_map]; exact h)
  simp only [List.map_map] at this
  exact this

theorem append_spec {ε δ : ℝ} (h0 : 0 ≤ ε) (hδ : ε ≤ δ) (hεδ : ε ≤ δ * δ) (cs : List (Stage ℝ)) (s : Stage ℝ)
    (hcs : ∀ t ∈ cs, GoodStage ε δ t) (hs : GoodStage ε δ s) :
    ∃ cs', appendBiquad ε cs s = some cs' ∧ cs' ≠ [] ∧ (∀ t ∈ cs', GoodStage ε δ t) ∧ ∃ c : ℝ, c ≠ 0 ∧
      ∀ w, numAt cs w * evalZ Complex.ofRealHom s.b w = c * numAt cs' w ∧
        denAt cs w * evalZ Complex.ofRealHom s.a w = c * denAt cs' w := by
  obtain ⟨cs', e, hne, hg, c, hc, e1, e2⟩ := simplify_spec h0 hδ hεδ (cs ++ [s]) (by simp) (by
    intro t ht
    rcases List.mem_append.1 ht with h | h
    · exact hcs t h
    · rw [List.mem_singleton.1 h]; exact hs)
  refine ⟨cs', e, hne, hg, c, hc, fun w => ?_⟩
  rw [← numAt_of e1, ← denAt_of e2]
  simp [numAt, denAt]

theorem coefficientsLoop_spec {ε δ : ℝ} (h0 : 0 ≤ ε) (hδ : ε ≤ δ) (hεδ : ε ≤ δ * δ) :
    ∀ (fuel : ℕ) (pz : List ℂ) (lz : List ℝ) (pp : List ℂ) (lp : List ℝ) (cs : List (Stage ℝ)),
    Exact δ lz pz → Exact δ lp pp → cs ≠ [] → (∀ s ∈ cs, GoodStage ε δ s) →
    pz.length + lz.length + pp.length + lp.length < fuel →
    ∃ cs', coefficientsLoop ε fuel pz lz pp lp cs = some cs' ∧ cs' ≠ [] ∧ (∀ s ∈ cs', GoodStage ε δ s) ∧
      ∃ c : ℝ, c ≠ 0 ∧ ∀ w,
        numAt cs w * rootProd (fun r => 1 - r * w) lz pz = c * numAt cs' w ∧
        denAt cs w * rootProd (fun r => 1 - r * w) lp pp = c * denAt cs' w
  | 0, _, _, _, _, _, _, _, _, _, h => by omega
  | fuel + 1, pz, lz, pp, lp, cs, hz, hp, hne, hcs, hf => by
    rw [coefficientsLoop]
    have hδ0 : 0 ≤ δ := h0.trans hδ
    split_ifs with hlen
    · have h1 : pz = [] := List.length_eq_zero_iff.1 (by omega)
      have h2 : lz = [] := List.length_eq_zero_iff.1 (by omega)
      have h3 : pp = [] := List.length_eq_zero_iff.1 (by omega)
      have h4 : lp = [] := List.length_eq_zero_iff.1 (by omega)
      subst h1 h2 h3 h4
      exact ⟨cs, rfl, hne, hcs, 1, one_ne_zero, fun w => by simp [rootProd]⟩
    · obtain ⟨b1, b2, b3⟩ := getNext_good (ε := ε) hδ0 hεδ hz
      obtain ⟨a1, a2, a3⟩ := getNext_good (ε := ε) hδ0 hεδ hp
      obtain ⟨cs1, e1, n1, g1, c1, hc1, p1⟩ := append_spec h0 hδ hεδ cs ⟨_, _⟩ hcs (good_of_next b1 a1 b2 a2)
      obtain ⟨l1, l1'⟩ := getNext_length pz lz
      obtain ⟨l2, l2'⟩ := getNext_length pp lp
      obtain ⟨cs2, e2, n2, g2, c2, hc2, p2⟩ := coefficientsLoop_spec h0 hδ hεδ fuel (getNext pz lz).2.1
        (getNext pz lz).2.2 (getNext pp lp).2.1 (getNext pp lp).2.2 cs1 b3 a3 n1 g1 (by omega)
      refine ⟨cs2, ?_, n2, g2, c1 * c2, mul_ne_zero hc1 hc2, fun w => ?_⟩
      · simp only [e1]; exact e2
      · obtain ⟨u1, u2⟩ := p1 w
        obtain ⟨v1, v2⟩ := p2 w
        rw [← getNext_prod pz lz, ← getNext_prod pp lp]
        push_cast
        refine ⟨?_, ?_⟩
        · linear_combination (rootProd (fun r => 1 - r * w) (getNext pz lz).2.2 (getNext pz lz).2.1) * u1 + c1 * v1
        · linear_combination (rootProd (fun r => 1 - r * w) (getNext pp lp).2.2 (getNext pp lp).2.1) * u2 + c1 * v2

theorem identity_good {ε δ : ℝ} : ∀ s ∈ identityCascade, GoodStage ε δ s := by
  intro s hs
  rw [List.mem_singleton.1 hs]
  exact good_of_next separated_const separated_const rfl rfl

theorem numAt_identity (w : ℂ) : numAt identityCascade w = 1 := by
  simp [numAt, identityCascade, evalZ_three]

theorem denAt_identity (w : ℂ) : denAt identityCascade w = 1 := by
  simp [denAt, identityCascade, evalZ_three]

theorem adjustGain_valid (g : ℝ) (cs : List (Stage ℝ)) (h : ∀ s ∈ cs, s.Valid) :
    ∀ s ∈ adjustGain g cs, s.Valid := by
  cases cs with
  | nil => simp [adjustGain]
  | cons s rest =>
    intro t ht
    rcases List.mem_cons.1 ht with rfl | ht
    · have := h s (by simp)
      exact ⟨by simpa using this.lenB, this.lenA, this.a0⟩
    · exact h t (by simp [ht])

/-- What `GetCoefficients` returns before the gain is applied. -/
theorem getCoefficients_core {ε δ : ℝ} (h0 : 0 ≤ ε) (hδ : ε ≤ δ) (hεδ : ε ≤ δ * δ) (f : PZ)
    (hr : RootsAbove δ f) (hne : zeros f ≠ [] ∨ poles f ≠ []) :
    ∃ cs, f.getCoefficients ε = some (adjustGain f.gain cs) ∧ cs ≠ [] ∧ (∀ s ∈ cs, GoodStage ε δ s) ∧
      ∃ c : ℝ, c ≠ 0 ∧ ∀ w, ((zeros f).map (fun r => 1 - r * w)).prod = c * numAt cs w ∧
        ((poles f).map (fun r => 1 - r * w)).prod = c * denAt cs w := by
  have hz : Exact δ f.loneZeros f.pairedZeros := exact_of_roots fun r h => hr r (Or.inl h)
  have hp : Exact δ f.lonePoles f.pairedPoles := exact_of_roots fun r h => hr r (Or.inr h)
  obtain ⟨cs, e, n, g, c, hc, h⟩ := coefficientsLoop_spec h0 hδ hεδ (f.pairedZeros.length + f.loneZeros.length +
    f.pairedPoles.length + f.lonePoles.length + 1) f.pairedZeros f.loneZeros f.pairedPoles f.lonePoles
    identityCascade hz hp (by simp [identityCascade]) identity_good (by omega)
  refine ⟨cs, ?_, n, g, c, hc, fun w => ?_⟩
  · unfold PZ.getCoefficients
    rw [if_neg, e]
    rintro ⟨h1, h2, h3, h4⟩
    rcases hne with h | h
    · exact h (by simp [zeros, h1, h2])
    · exact h (by simp [poles, h3, h4])
  · obtain ⟨u1, u2⟩ := h w
    rw [numAt_identity, one_mul] at u1
    rw [denAt_identity, one_mul] at u2
    exact ⟨(rootProd_eq _ _ _).trans u1, (rootProd_eq _ _ _).trans u2⟩

theorem evalCascade_numDen (cs : List (Stage ℝ)) (hv : ∀ s ∈ cs, s.Valid) (z : ℂ) (hz : z ≠ 0) :
    evalCascade Complex.ofRealHom cs z = numAt cs z⁻¹ / denAt cs z⁻¹ :=
  evalCascade_eq _ z hz cs hv

theorem getCoefficients_eval {ε δ : ℝ} (h0 : 0 ≤ ε) (hδ : ε ≤ δ) (hεδ : ε ≤ δ * δ) (f : PZ)
    (hr : RootsAbove δ f) (hne : zeros f ≠ [] ∨ poles f ≠ []) :
    ∃ cs, f.getCoefficients ε = some cs ∧ (∀ s ∈ cs, s.Valid) ∧
      ∀ z : ℂ, z ≠ 0 → evalCascade Complex.ofRealHom cs z = digitalSystem f z := by
  obtain ⟨cs, e, n, g, c, hc, h⟩ := getCoefficients_core h0 hδ hεδ f hr hne
  obtain ⟨a1, a2⟩ := adjustGain_spec f.gain cs n
  have hv := adjustGain_valid f.gain cs (fun s hs => (g s hs).valid)
  refine ⟨_, e, hv, fun z hz => ?_⟩
  rw [evalCascade_numDen _ hv z hz, numAt_of a1, denAt_of (cs' := cs) (c := 1) (by rw [a2]; simp)]
  unfold digitalSystem
  obtain ⟨u1, u2⟩ := h z⁻¹
  simp only [div_eq_mul_inv z⁻¹, div_eq_mul_inv _ z]
  rw [u1, u2]
  have hc' : (c : ℂ) ≠ 0 := by exact_mod_cast hc
  rw [Complex.ofReal_one, one_mul, mul_left_comm, mul_div_mul_left _ _ hc']

end Verif.PoleZero
