import Verif.Proof.Butterworth2

/-!
# Cascades of filters with as many zeros as poles

`GetCoefficients` for filters with at most one lone pole, where neither the paired poles nor the zeros are close to 0:
`Simplify` leaves the stages alone.
-/

namespace Verif.PoleZero
open Verif.BiquadCascade Verif.FilterDesign Verif.LinearFilter.Spec Spec
open scoped ComplexConjugate

theorem evalZ_paired (p w : ℂ) :
    evalZ Complex.ofRealHom (coefficientsPaired p (conj p)) w = (1 - p * w) * (1 - conj p * w) := by
  have h1 : ((p + conj p).re : ℂ) = p + conj p := by rw [Complex.add_conj]; norm_cast
  have h2 : ((p * conj p).re : ℂ) = p * conj p := by rw [Complex.mul_conj]; norm_cast
  rw [coefficientsPaired, evalZ_three, Complex.ofReal_neg, h1, h2]
  push_cast
  ring

theorem evalZ_lone (r1 r2 : ℝ) (w : ℂ) :
    evalZ Complex.ofRealHom (coefficientsLone r1 r2) w = (1 - r1 * w) * (1 - r2 * w) := by
  rw [coefficientsLone, evalZ_three]; push_cast; ring

/-- The poles of a stage: the roots of its denominator as a polynomial in `z`. -/
def StagePole (s : Stage ℝ) (z : ℂ) : Prop :=
  (s.a.getD 0 0 : ℂ) * z ^ 2 + (s.a.getD 1 0 : ℂ) * z + (s.a.getD 2 0 : ℂ) = 0

theorem stagePole_paired {b : List ℝ} {p z : ℂ} (h : StagePole ⟨b, coefficientsPaired p (conj p)⟩ z) :
    z = p ∨ z = conj p := by
  have h1 : ((p + conj p).re : ℂ) = p + conj p := by rw [Complex.add_conj]; norm_cast
  have h2 : ((p * conj p).re : ℂ) = p * conj p := by rw [Complex.mul_conj]; norm_cast
  simp only [StagePole, coefficientsPaired, List.getD_cons_zero, List.getD_cons_succ] at h
  rw [Complex.ofReal_neg, h1, h2] at h
  have : (z - p) * (z - conj p) = 0 := by
    push_cast at h
    linear_combination h
  rcases mul_eq_zero.1 this with h | h
  · exact Or.inl (sub_eq_zero.1 h)
  · exact Or.inr (sub_eq_zero.1 h)

theorem stagePole_lone {b : List ℝ} {p : ℝ} {z : ℂ} (h : StagePole ⟨b, coefficientsLone p 0⟩ z) :
    z = p ∨ z = 0 := by
  simp only [StagePole, coefficientsLone, List.getD_cons_zero, List.getD_cons_succ] at h
  have : (z - p) * z = 0 := by
    push_cast at h
    linear_combination h
  rcases mul_eq_zero.1 this with h | h
  · exact Or.inl (sub_eq_zero.1 h)
  · exact Or.inr h

theorem rootProd_cons_paired (g : ℂ → ℂ) (lone : List ℝ) (p : ℂ) (ps : List ℂ) :
    rootProd g lone (p :: ps) = g p * g (conj p) * rootProd g lone ps := by
  simp [rootProd]; ring

theorem rootProd_cons_lone (g : ℂ → ℂ) (r : ℝ) (lone : List ℝ) (ps : List ℂ) :
    rootProd g (r :: lone) ps = g r * rootProd g lone ps := by
  simp [rootProd]; ring

theorem numAt_cons (s : Stage ℝ) (L : List (Stage ℝ)) (w : ℂ) :
    numAt (s :: L) w = evalZ Complex.ofRealHom s.b w * numAt L w := by simp [numAt]

theorem denAt_cons (s : Stage ℝ) (L : List (Stage ℝ)) (w : ℂ) :
    denAt (s :: L) w = evalZ Complex.ofRealHom s.a w * denAt L w := by simp [denAt]

theorem second_unit {ε r1 r2 : ℝ} (h1 : ε < 1) (hr1 : |r1| = 1) (hr2 : |r2| = 1) :
    Second ε (coefficientsLone r1 r2) := by
  simp [Second, coefficientsLone, abs_mul, hr1, hr2, h1]

/-- What the loop builds. -/
structure Built (L : List (Stage ℝ)) (pz : List ℂ) (lz : List ℝ) (pp : List ℂ) (lp : List ℝ) : Prop where
  valid : ∀ s ∈ L, s.Valid
  num : ∀ w, numAt L w = rootProd (fun r => 1 - r * w) lz pz
  den : ∀ w, denAt L w = rootProd (fun r => 1 - r * w) lp pp
  len : L.length = pp.length + lp.length
  roots : ∀ s ∈ L, ∀ z, StagePole s z → z = 0 ∨ (∃ p ∈ lp, z = (p : ℂ)) ∨ ∃ p ∈ pp, z = p ∨ z = conj p

theorem loop_balanced {ε : ℝ} (h0 : 0 ≤ ε) (h1 : ε < 1) (lp : List ℝ) (hlp : lp.length ≤ 1) :
    ∀ (pp pz : List ℂ) (lz : List ℝ) (fuel : ℕ) (acc : List (Stage ℝ)),
    2 * pz.length + lz.length = 2 * pp.length + lp.length →
    (∀ p ∈ pp, ε < Complex.normSq p) → (∀ p ∈ pz, ε < Complex.normSq p) → (∀ r ∈ lz, |r| = 1) →
    (∀ t ∈ acc, Second ε t.b ∧ Second ε t.a) → pp.length + lp.length < fuel →
    ∃ L, coefficientsLoop ε fuel pz lz pp lp (orIdentity acc) = some (orIdentity (acc ++ L)) ∧ Built L pz lz pp lp
  | [], pz, lz, fuel, acc, hd, _, _, hlz, ha, hf => by
    obtain ⟨n, rfl⟩ : ∃ n, fuel = n + 1 := ⟨fuel - 1, by omega⟩
    match lp, hlp with
    | [], _ =>
      simp only [List.length_nil] at hd
      obtain rfl : pz = [] := List.length_eq_zero_iff.1 (by omega)
      obtain rfl : lz = [] := List.length_eq_zero_iff.1 (by simpa using hd)
      refine ⟨[], ?_, ⟨by simp, fun w => by simp [numAt, rootProd], fun w => by simp [denAt, rootProd], by simp,
        by simp⟩⟩
      rw [coefficientsLoop]
      simp
    | [p], _ =>
      simp only [List.length_nil, List.length_singleton] at hd hf
      obtain rfl : pz = [] := List.length_eq_zero_iff.1 (by omega)
      obtain ⟨r, rfl⟩ : ∃ r, lz = [r] := List.length_eq_one_iff.1 (by simpa using hd)
      have hr := hlz r (by simp)
      have hz : isZeroOrder ε (coefficientsLone r 0) = false := by
        simp [isZeroOrder, coefficientsLone, hr]
        intro h; linarith
      obtain ⟨m, rfl⟩ : ∃ m, n = m + 1 := ⟨n - 1, by omega⟩
      refine ⟨[⟨coefficientsLone r 0, coefficientsLone p 0⟩], ?_, ⟨?_, fun w => ?_, fun w => ?_, by simp, ?_⟩⟩
      · rw [coefficientsLoop, if_neg (by simp)]
        simp only [getNext]
        rw [append_orIdentity (s := ⟨coefficientsLone r 0, coefficientsLone p 0⟩) h0 ha hz]
        simp only []
        rw [coefficientsLoop]
        simp
      · intro s hs
        rw [List.mem_singleton.1 hs]
        exact ⟨rfl, rfl, by simp [coefficientsLone]⟩
      · simp [numAt, rootProd, evalZ_lone]
      · simp [denAt, rootProd, evalZ_lone]
      · intro s hs z hz'
        rw [List.mem_singleton.1 hs] at hz'
        rcases stagePole_lone hz' with h | h
        · exact Or.inr (Or.inl ⟨p, by simp, h⟩)
        · exact Or.inl h
  | p :: pp, pz, lz, fuel, acc, hd, hp, hpz, hlz, ha, hf => by
    obtain ⟨n, rfl⟩ : ∃ n, fuel = n + 1 := ⟨fuel - 1, by omega⟩
    have hpa := second_paired (hp p (by simp))
    simp only [List.length_cons] at hd hf
    have key : ∃ (b : List ℝ) (pz' : List ℂ) (lz' : List ℝ), getNext pz lz = (b, pz', lz') ∧ Second ε b ∧
        b.length = 3 ∧ (∀ w, evalZ Complex.ofRealHom b w * rootProd (fun r => 1 - r * w) lz' pz'
          = rootProd (fun r => 1 - r * w) lz pz) ∧ 2 * pz'.length + lz'.length = 2 * pp.length + lp.length ∧
        (∀ p ∈ pz', ε < Complex.normSq p) ∧ ∀ r ∈ lz', |r| = 1 := by
      match pz, lz, hd, hpz, hlz with
      | z :: pz', lz, hd, hpz, hlz =>
        refine ⟨_, pz', lz, rfl, second_paired (hpz z (by simp)), rfl, fun w => ?_, ?_,
          fun q hq => hpz q (by simp [hq]), hlz⟩
        · rw [evalZ_paired, rootProd_cons_paired]
        · simp only [List.length_cons] at hd
          omega
      | [], r1 :: r2 :: lz', hd, hpz, hlz =>
        refine ⟨_, [], lz', rfl, second_unit h1 (hlz r1 (by simp)) (hlz r2 (by simp)), rfl, fun w => ?_, ?_,
          by simp, fun r hr => hlz r (by simp [hr])⟩
        · rw [evalZ_lone, rootProd_cons_lone, rootProd_cons_lone]
          ring
        · simp only [List.length_cons] at hd
          omega
      | [], [r1], hd, _, _ => simp at hd; omega
      | [], [], hd, _, _ => simp at hd; omega
    obtain ⟨b, pz', lz', hg, hb, hbl, hbe, hd', hpz', hlz'⟩ := key
    obtain ⟨L, hL, hB⟩ := loop_balanced h0 h1 lp hlp pp pz' lz' n (acc ++ [⟨b, coefficientsPaired p (conj p)⟩]) hd'
      (fun q hq => hp q (by simp [hq])) hpz' hlz' (by
        intro t ht
        rcases List.mem_append.1 ht with ht | ht
        · exact ha t ht
        · rw [List.mem_singleton.1 ht]; exact ⟨hb, hpa⟩) (by omega)
    refine ⟨⟨b, coefficientsPaired p (conj p)⟩ :: L, ?_, ⟨?_, fun w => ?_, fun w => ?_, by simp [hB.len]; omega, ?_⟩⟩
    · rw [coefficientsLoop, if_neg (by simp)]
      simp only [hg]
      simp only [getNext]
      rw [append_orIdentity (s := ⟨b, coefficientsPaired p (conj p)⟩) h0 ha hb.not_zero]
      simp only []
      rw [hL]
      simp
    · intro s hs
      rcases List.mem_cons.1 hs with rfl | hs
      · exact ⟨hbl, rfl, by simp [coefficientsPaired]⟩
      · exact hB.valid s hs
    · rw [numAt_cons, hB.num, hbe]
    · rw [denAt_cons, hB.den, evalZ_paired, rootProd_cons_paired]
    · intro s hs z hz
      rcases List.mem_cons.1 hs with rfl | hs
      · exact Or.inr (Or.inr ⟨p, by simp, stagePole_paired hz⟩)
      · rcases hB.roots s hs z hz with h | h | ⟨q, hq, h⟩
        · exact Or.inl h
        · exact Or.inr (Or.inl h)
        · exact Or.inr (Or.inr ⟨q, by simp [hq], h⟩)

theorem adjustGain_pole (g : ℝ) (cs : List (Stage ℝ)) : ∀ s ∈ adjustGain g cs, ∃ t ∈ cs, s.a = t.a := by
  intro s hs
  cases cs with
  | nil => simp [adjustGain] at hs
  | cons t cs =>
    simp only [adjustGain, List.mem_cons] at hs
    rcases hs with rfl | hs
    · exact ⟨t, by simp, rfl⟩
    · exact ⟨s, by simp [hs], rfl⟩

/-- `GetCoefficients` of a filter with as many zeros as poles. -/
theorem balanced_coefficients {ε : ℝ} (h0 : 0 ≤ ε) (h1 : ε < 1) (f : PZ) (hlp : f.lonePoles.length ≤ 1)
    (hd : f.zerosDegree = f.polesDegree) (hpp : ∀ p ∈ f.pairedPoles, ε < Complex.normSq p)
    (hpz : ∀ p ∈ f.pairedZeros, ε < Complex.normSq p) (hlz : ∀ r ∈ f.loneZeros, |r| = 1)
    (hne : 0 < f.polesDegree) :
    ∃ cs, f.getCoefficients ε = some cs ∧ cs.length = f.pairedPoles.length + f.lonePoles.length ∧
      (∀ z : ℂ, z ≠ 0 → evalCascade Complex.ofRealHom cs z = digitalSystem f z) ∧
      ∀ s ∈ cs, ∀ z, StagePole s z → z = 0 ∨ z ∈ poles f := by
  unfold PZ.zerosDegree PZ.polesDegree at hd
  unfold PZ.polesDegree at hne
  obtain ⟨L, hL, hB⟩ := loop_balanced h0 h1 f.lonePoles hlp f.pairedPoles f.pairedZeros f.loneZeros
    (f.pairedZeros.length + f.loneZeros.length + f.pairedPoles.length + f.lonePoles.length + 1) []
    (by omega) hpp hpz hlz (by simp) (by omega)
  have hLne : L ≠ [] := by
    intro h
    have := hB.len
    rw [h] at this
    simp only [List.length_nil] at this
    omega
  rw [show orIdentity [] = identityCascade from by simp [orIdentity], List.nil_append] at hL
  refine ⟨adjustGain f.gain L, ?_, ?_, fun z hz => ?_, ?_⟩
  · unfold PZ.getCoefficients
    rw [if_neg, hL]
    · simp [orIdentity, hLne]
    · rintro ⟨_, _, h3, h4⟩
      simp [h3, h4] at hne
  · rw [← hB.len]
    cases L with
    | nil => exact absurd rfl hLne
    | cons s L => simp [adjustGain]
  · obtain ⟨a1, a2⟩ := adjustGain_spec f.gain _ hLne
    have hv := adjustGain_valid f.gain _ hB.valid
    rw [evalCascade_numDen _ hv z hz, numAt_of a1, denAt_of (cs' := L) (c := 1) (by rw [a2]; simp), hB.num, hB.den,
      digital_eq]
    simp only [div_eq_mul_inv, Complex.ofReal_one, one_mul]
  · intro s hs z hz
    obtain ⟨t, ht, ha⟩ := adjustGain_pole f.gain L s hs
    have hz' : StagePole t z := by unfold StagePole at hz ⊢; rwa [← ha]
    rcases hB.roots t ht z hz' with h | ⟨p, hp, h⟩ | ⟨p, hp, h⟩
    · exact Or.inl h
    · right
      rw [h]
      exact List.mem_append_left _ (List.mem_map_of_mem hp)
    · right
      apply List.mem_append_right
      rw [List.mem_flatMap]
      exact ⟨p, hp, by rcases h with h | h <;> simp [h]⟩

end Verif.PoleZero
