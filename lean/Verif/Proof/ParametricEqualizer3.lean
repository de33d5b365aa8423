import Verif.Proof.ParametricEqualizer2

/-! # An equalizer whose gains are all cleared leaves the signal unchanged -/

namespace Verif.ParametricEqualizer
open Verif.BiquadCascade Verif.FilterDesign Verif.BiquadAnalysis Verif.AuditoryFilterbank Spec PowerSeries Verif.Series

/-- Numerator and denominator of the stage are the same. -/
def Flat (s : Stage ℝ) : Prop := s.b = s.a ∧ s.a.length = 3 ∧ s.a.getD 0 0 ≠ 0

def GoodPoly (p : List ℝ) : Prop := p.length = 3 ∧ p.getD 0 0 ≠ 0

theorem GoodPoly.ps_ne {p : List ℝ} (h : GoodPoly p) : ps p ≠ 0 := by
  intro h0
  apply h.2
  rw [← coeff_ps, h0, map_zero]

theorem mem_set {α : Type} {l : List α} {i : ℕ} {a x : α} (h : x ∈ l.set i a) : x ∈ l ∨ x = a :=
  List.mem_or_eq_of_mem_set h

theorem mergeFirstOrder_good {ε : ℝ} : ∀ (n : ℕ) (l : List (List ℝ)), (∀ p ∈ l, GoodPoly p) →
    ∃ l', mergeFirstOrder ε n l = some l' ∧ l'.length = l.length ∧ ∀ p ∈ l', GoodPoly p
  | 0, l, h => ⟨l, rfl, rfl, h⟩
  | n + 1, l, h => by
    rw [mergeFirstOrder]
    cases hf : findPair ε l with
    | none => exact ⟨l, rfl, rfl, h⟩
    | some ij =>
      obtain ⟨i, j⟩ := ij
      obtain ⟨-, p, q, hp, hq, -, -⟩ := findPair_some hf
      have gp : l.getD i [] = p := by rw [List.getD_eq_getElem?_getD, hp]; rfl
      have gq : l.getD j [] = q := by rw [List.getD_eq_getElem?_getD, hq]; rfl
      have hp' := h p (List.mem_of_getElem? hp)
      have hq' := h q (List.mem_of_getElem? hq)
      obtain ⟨r, e1, e2, -⟩ := convolve_some p q hp'.ps_ne hq'.ps_ne
      dsimp only
      rw [gp, gq, e1]
      simp only [Option.bind_eq_bind, Option.bind_some]
      obtain ⟨l', g1, g2, g3⟩ := mergeFirstOrder_good n ((l.set i (resize3 r)).set j [1, 0, 0]) (by
        intro x hx
        rcases mem_set hx with hx | rfl
        · rcases mem_set hx with hx | rfl
          · exact h x hx
          · refine ⟨rfl, ?_⟩
            show r.getD 0 0 ≠ 0
            rw [← coeff_ps, e2, coeff_zero_eq_constantCoeff_apply, map_mul, ← coeff_zero_eq_constantCoeff_apply,
              ← coeff_zero_eq_constantCoeff_apply, coeff_ps, coeff_ps]
            exact mul_ne_zero hp'.2 hq'.2
        · exact ⟨rfl, by simp⟩)
      exact ⟨l', g1, by rw [g2]; simp, g3⟩

theorem findIdx?_congr {α : Type} {q r : α → Bool} : ∀ {l : List α}, (∀ x ∈ l, q x = r x) → l.findIdx? q = l.findIdx? r
  | [], _ => rfl
  | a :: l, h => by
    rw [List.findIdx?_cons, List.findIdx?_cons, h a (by simp), findIdx?_congr fun x hx => h x (by simp [hx])]

theorem mergeZeroOrder_flat {ε : ℝ} : ∀ (n : ℕ) (l : List (Stage ℝ)), l ≠ [] → (∀ s ∈ l, Flat s) →
    mergeZeroOrder ε n l ≠ [] ∧ ∀ s ∈ mergeZeroOrder ε n l, Flat s
  | 0, l, hne, h => ⟨hne, h⟩
  | n + 1, l, hne, h => by
    rw [mergeZeroOrder]
    split_ifs with hl
    · cases hf : findZeroOrder ε l with
      | none => exact ⟨hne, h⟩
      | some ij =>
        obtain ⟨i, j⟩ := ij
        dsimp only
        have hij : i = j ∧ i < l.length := by
          unfold findZeroOrder at hf
          rw [findIdx?_congr (q := fun s : Stage ℝ => isZeroOrder ε s.b) (r := fun s : Stage ℝ => isZeroOrder ε s.a)
            (by intro s hs; rw [(h s hs).1])] at hf
          cases ha : l.findIdx? (fun s => isZeroOrder ε s.a) with
          | none => rw [ha] at hf; simp at hf
          | some k =>
            rw [ha] at hf
            dsimp only at hf
            simp only [Option.some.injEq, Prod.mk.injEq] at hf
            refine ⟨hf.1.symm.trans hf.2, ?_⟩
            rw [List.findIdx?_eq_some_iff_getElem] at ha
            rw [← hf.1]
            exact ha.1
        obtain ⟨rfl, hi⟩ := hij
        have hd : dropZeroOrder l i i = l.eraseIdx i := by
          unfold dropZeroOrder
          have hm : Flat (l.getD i ⟨[], []⟩) := by
            rw [List.getD_eq_getElem _ _ hi]
            exact h _ (List.getElem_mem hi)
          simp only [ne_eq, not_true_eq_false, if_false]
          rw [hm.1, div_self hm.2.2, if_neg (by simp)]
        rw [hd]
        apply mergeZeroOrder_flat n
        · intro he
          have := congrArg List.length he
          rw [List.length_eraseIdx_of_lt hi, List.length_nil] at this
          omega
        · intro s hs
          exact h s (List.mem_of_mem_eraseIdx hs)
    · exact ⟨hne, h⟩

theorem zipWith_same : ∀ {l : List (List ℝ)}, (∀ p ∈ l, GoodPoly p) → ∀ s ∈ List.zipWith Stage.mk l l, Flat s
  | [], _, s, hs => by simp at hs
  | p :: l, h, s, hs => by
    simp only [List.zipWith_cons_cons, List.mem_cons] at hs
    rcases hs with rfl | hs
    · exact ⟨rfl, h p (by simp)⟩
    · exact zipWith_same (fun q hq => h q (by simp [hq])) s hs

theorem simplify_flat {ε : ℝ} {l : List (Stage ℝ)} (hne : l ≠ []) (h : ∀ s ∈ l, Flat s) :
    ∃ l', simplify ε l = some l' ∧ l' ≠ [] ∧ ∀ s ∈ l', Flat s := by
  have hab : l.map (·.b) = l.map (·.a) := List.map_congr_left fun s hs => (h s hs).1
  obtain ⟨q, e1, e2, e3⟩ := mergeFirstOrder_good (ε := ε) l.length (l.map (·.a)) (by
    intro p hp
    obtain ⟨s, hs, rfl⟩ := List.mem_map.1 hp
    exact (h s hs).2)
  refine ⟨mergeZeroOrder ε l.length (List.zipWith Stage.mk q q), ?_, ?_⟩
  · unfold simplify
    rw [hab, e1]
    rfl
  · refine mergeZeroOrder_flat _ _ ?_ (zipWith_same e3)
    intro he
    have := congrArg List.length he
    rw [List.length_zipWith, min_self, e2, List.length_map, List.length_nil] at this
    exact hne (List.length_eq_zero_iff.1 this)

theorem flat_identity : Flat identityStage := ⟨rfl, rfl, by simp [identityStage]⟩

theorem design_flat {rate : ℝ} {s : Band} (h : BandOk rate s) (hk : HasGain s) (hg : s.gain = 0) :
    ∃ c, design rate s = some c ∧ Flat c := by
  obtain ⟨c, e, k⟩ := design_known h
  refine ⟨c, e, ?_, k.valid.lenA, k.valid.a0⟩
  obtain ⟨kind, f, Q, g⟩ := s
  dsimp only at hg
  subst hg
  obtain ⟨h0, h1, hQ⟩ := h
  dsimp only at h0 h1 hQ
  have hf : dbToLinear 0 = 1 := factor_zero
  rcases hk with hk | hk | hk <;> dsimp only at hk <;> subst hk
  · unfold design lowShelf at e
    dsimp only at e
    rw [hf, if_pos ⟨⟨h1, h0, hQ⟩, one_pos⟩] at e
    rw [← Option.some.inj e]
    simp
  · have e' : parametricPeakSymmetric rate f Q (factor 0) = some c := e
    obtain ⟨c', d1, d2⟩ := peak_core (g := 0) h0 h1 hQ
    rw [d1] at e'
    rw [Option.some.inj e', factor_zero, if_pos le_rfl, if_pos le_rfl] at d2
    unfold bilinearTransform at d2
    rw [if_pos ⟨rfl, rfl, by linarith, h0.le, h1⟩] at d2
    rw [← Option.some.inj d2]
    rfl
  · unfold design highShelf at e
    dsimp only at e
    rw [hf, if_pos ⟨⟨h1, h0, hQ⟩, one_pos⟩] at e
    rw [← Option.some.inj e]
    simp

theorem loop_flat {rate : ℝ} : ∀ (ss : List Band) (os : List Bool) (cs : List (Stage ℝ)), (∀ s ∈ cs, Flat s) →
    (∀ s ∈ (ss.zip os).filterMap (fun x => if x.2 = true then some x.1 else none),
      BandOk rate s ∧ HasGain s ∧ s.gain = 0) →
    ∃ cs', coefficientLoop rate ss os cs = .ok cs' ∧ (∀ s ∈ cs', Flat s) ∧ (cs ≠ [] ∨ ss.zip os ≠ [] → cs' ≠ [])
  | [], os, cs, h, _ => by
    refine ⟨cs, by cases os <;> rfl, h, ?_⟩
    rintro (h | h)
    · exact h
    · simp at h
  | s :: ss, [], cs, h, _ => by
    refine ⟨cs, rfl, h, ?_⟩
    rintro (h | h)
    · exact h
    · simp at h
  | s :: ss, on :: os, cs, h, hb => by
    rw [coefficientLoop]
    obtain ⟨c, hc, hcf⟩ : ∃ c, stageFor rate s on = .ok c ∧ Flat c := by
      unfold stageFor
      cases on with
      | false => exact ⟨identityStage, by rw [if_neg (by simp)], flat_identity⟩
      | true =>
        obtain ⟨b1, b2, b3⟩ := hb s (by simp)
        obtain ⟨c, e1, e2⟩ := design_flat b1 b2 b3
        exact ⟨c, by rw [if_pos rfl, e1], e2⟩
    rw [hc]
    dsimp only
    obtain ⟨cs', e1, e2, e3⟩ := simplify_flat (ε := threshold) (l := cs ++ [c]) (by simp) (by
      intro t ht
      rcases List.mem_append.1 ht with ht | ht
      · exact h t ht
      · rw [List.mem_singleton.1 ht]; exact hcf)
    rw [show appendBiquad threshold cs c = some cs' from e1]
    dsimp only
    obtain ⟨cs'', g1, g2, g3⟩ := loop_flat ss os cs' e3 (by
      intro t ht
      apply hb t
      rw [List.zip_cons_cons, List.filterMap_cons]
      cases on with
      | false => simpa using ht
      | true =>
        simp only [if_true]
        exact List.mem_cons_of_mem _ ht)
    exact ⟨cs'', g1, g2, fun _ => g3 (Or.inl e2)⟩

theorem clearLoop_bands : ∀ (ss : List Band) (os : List Bool),
    ((clearLoop ss os).1.zip (clearLoop ss os).2).filterMap (fun x => if x.2 = true then some x.1 else none) =
    ((ss.zip os).filterMap fun x => if x.2 = true ∧ x.1.kind ≠ .lowpass ∧ x.1.kind ≠ .highpass then
      some { x.1 with gain := 0 } else none)
  | [], os => by cases os <;> rfl
  | s :: ss, [] => rfl
  | s :: ss, on :: os => by
    rw [clearLoop]
    dsimp only
    rw [List.zip_cons_cons, List.zip_cons_cons, List.filterMap_cons, List.filterMap_cons]
    dsimp only
    rw [clearLoop_bands ss os]
    by_cases h1 : s.kind = .lowpass
    · simp [h1]
    · by_cases h2 : s.kind = .highpass
      · simp [h2]
      · by_cases h3 : on = true <;> simp [h1, h2, h3]

theorem clear_bands (p : Params) : enabledBands p.clearAllGains =
    ((p.stages.zip p.enabled).filterMap fun x => if x.2 = true ∧ x.1.kind ≠ .lowpass ∧ x.1.kind ≠ .highpass then
      some { x.1 with gain := 0 } else none) := clearLoop_bands p.stages p.enabled

theorem numProd_flat {cs : List (Stage ℝ)} (h : ∀ s ∈ cs, Flat s) : numProd cs = denProd cs := by
  unfold numProd denProd
  congr 1
  exact List.map_congr_left fun s hs => by rw [(h s hs).1]

/-- A cascade of flat stages does nothing. -/
theorem flat_output {cs : List (Stage ℝ)} (h : ∀ s ∈ cs, Flat s) :
    ∃ fs, Biquad.cascadeInit (cs.map Stage.coeffs) = some fs ∧ ∀ xs : List ℝ, (Biquad.cascadeBlock fs xs).2 = xs := by
  have hv : ∀ s ∈ cs, s.Valid := fun s hs => ⟨by rw [(h s hs).1]; exact (h s hs).2.1, (h s hs).2.1, (h s hs).2.2⟩
  obtain ⟨fs, e, hf⟩ := cascade_series cs hv
  refine ⟨fs, e, fun xs => ?_⟩
  obtain ⟨l1, q1⟩ := hf xs
  rw [numProd_flat h] at q1
  have q4 := q1.mul_left (denProd cs)⁻¹
  have hd := constantCoeff_denProd cs hv
  apply List.ext_getElem l1
  intro n h1 h2
  have := q4 n (by omega)
  rw [← mul_assoc, ← mul_assoc, PowerSeries.inv_mul_cancel _ hd, one_mul, one_mul, coeff_ps, coeff_ps,
    getD_eq_getElem' _ _ h1, getD_eq_getElem' _ _ h2] at this
  exact this

theorem adjustGain_one (cs : List (Stage ℝ)) : adjustGain 1 cs = cs := by
  cases cs with
  | nil => rfl
  | cons s cs => simp [adjustGain]

end Verif.ParametricEqualizer
