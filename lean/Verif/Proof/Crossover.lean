import Verif.Proof.Butterworth

/-!
# Lemmas on the coefficients of Butterworth and Linkwitz-Riley designs
-/

namespace Verif.PoleZero
open Verif.BiquadCascade Verif.FilterDesign Verif.LinearFilter.Spec Spec
open scoped ComplexConjugate

/-! ### Cascades that `Simplify` leaves alone -/

theorem findPair_eq_none {ε : ℝ} {l : List (List ℝ)} {q : List ℝ} (h : ∀ p ∈ l, isFirstOrder ε p = false) :
    findPair ε (l ++ [q]) = none := by
  cases hf : findPair ε (l ++ [q]) with
  | none => rfl
  | some ij =>
    obtain ⟨i, j⟩ := ij
    obtain ⟨hij, p, p', hp, hp', h1, h2⟩ := findPair_some hf
    have hj : j < (l ++ [q]).length := (List.getElem?_eq_some_iff.1 hp').1
    have hi : i < l.length := by simp at hj; omega
    rw [List.getElem?_append_left hi] at hp
    have := h p (List.mem_of_getElem? hp)
    rw [h1] at this
    simp at this

theorem mergeFirstOrder_none {ε : ℝ} {l : List (List ℝ)} (h : findPair ε l = none) (n : ℕ) :
    mergeFirstOrder ε n l = some l := by
  cases n with
  | zero => rfl
  | succ n => rw [mergeFirstOrder, h]

theorem zipWith_stage (cs : List (Stage ℝ)) : List.zipWith Stage.mk (cs.map (·.b)) (cs.map (·.a)) = cs := by
  induction cs with
  | nil => rfl
  | cons s cs ih => simp only [List.map_cons, List.zipWith_cons_cons, ih]

/-- A polynomial that the thresholds classify as quadratic. -/
def Second (ε : ℝ) (p : List ℝ) : Prop := ε < |p.getD 2 0|

theorem Second.not_first {ε : ℝ} {p : List ℝ} (h : Second ε p) : isFirstOrder ε p = false := by
  simp only [isFirstOrder, decide_eq_false_iff_not, not_and]
  intro h'
  exact absurd h (not_lt.2 h')

theorem Second.not_zero {ε : ℝ} {p : List ℝ} (h : Second ε p) : isZeroOrder ε p = false := by
  simp only [isZeroOrder, decide_eq_false_iff_not, not_and]
  intro _ h'
  exact absurd h (not_lt.2 h')

theorem append_second {ε : ℝ} {acc : List (Stage ℝ)} {s : Stage ℝ}
    (h : ∀ t ∈ acc, Second ε t.b ∧ Second ε t.a) (hs : isZeroOrder ε s.b = false) :
    appendBiquad ε acc s = some (acc ++ [s]) := by
  unfold appendBiquad simplify
  have f1 : findPair ε ((acc ++ [s]).map (·.b)) = none := by
    rw [List.map_append]
    apply findPair_eq_none
    intro p hp
    obtain ⟨t, ht, rfl⟩ := List.mem_map.1 hp
    exact (h t ht).1.not_first
  have f2 : findPair ε ((acc ++ [s]).map (·.a)) = none := by
    rw [List.map_append]
    apply findPair_eq_none
    intro p hp
    obtain ⟨t, ht, rfl⟩ := List.mem_map.1 hp
    exact (h t ht).2.not_first
  rw [mergeFirstOrder_none f1, mergeFirstOrder_none f2]
  simp only [Option.bind_eq_bind, Option.bind_some]
  rw [zipWith_stage]
  have f3 : findZeroOrder ε (acc ++ [s]) = none := by
    cases hf : findZeroOrder ε (acc ++ [s]) with
    | none => rfl
    | some ij =>
      obtain ⟨sa, sb, _, hb, _, hz⟩ := findZeroOrder_some (ia := ij.1) (ib := ij.2) hf
      rcases List.mem_append.1 (List.mem_of_getElem? hb) with hm | hm
      · rw [(h sb hm).1.not_zero] at hz; simp at hz
      · rw [List.mem_singleton.1 hm, hs] at hz; simp at hz
  have : ∀ n, mergeZeroOrder ε n (acc ++ [s]) = acc ++ [s] := by
    intro n
    cases n with
    | zero => rfl
    | succ n => rw [mergeZeroOrder, f3]; simp
  rw [this]
  rfl

theorem append_identity {ε : ℝ} (h0 : 0 ≤ ε) (s : Stage ℝ) : appendBiquad ε identityCascade s = some [s] := by
  unfold appendBiquad simplify
  have hid : isFirstOrder ε ([1, 0, 0] : List ℝ) = false := by
    simp only [isFirstOrder, decide_eq_false_iff_not, not_and, not_lt]
    intro _; simpa using h0
  have f1 : findPair ε ((identityCascade ++ [s]).map (·.b)) = none := by
    rw [List.map_append]
    apply findPair_eq_none
    intro p hp
    simp [identityCascade] at hp
    rw [hp]; exact hid
  have f2 : findPair ε ((identityCascade ++ [s]).map (·.a)) = none := by
    rw [List.map_append]
    apply findPair_eq_none
    intro p hp
    simp [identityCascade] at hp
    rw [hp]; exact hid
  rw [mergeFirstOrder_none f1, mergeFirstOrder_none f2]
  simp only [Option.bind_eq_bind, Option.bind_some]
  rw [zipWith_stage]
  have hz : isZeroOrder ε ([1, 0, 0] : List ℝ) = true := by
    simp [isZeroOrder, h0]
  have f3 : findZeroOrder ε (identityCascade ++ [s]) = some (0, 0) := by
    unfold findZeroOrder identityCascade
    rw [List.singleton_append]
    have e1 : List.findIdx? (fun s : Stage ℝ => isZeroOrder ε s.a) [⟨[1, 0, 0], [1, 0, 0]⟩, s] = some 0 := by
      rw [List.findIdx?_cons, if_pos hz]
    have e2 : List.findIdx? (fun s : Stage ℝ => isZeroOrder ε s.b) [⟨[1, 0, 0], [1, 0, 0]⟩, s] = some 0 := by
      rw [List.findIdx?_cons, if_pos hz]
    rw [e1, e2]
  show some (mergeZeroOrder ε 2 (identityCascade ++ [s])) = _
  rw [mergeZeroOrder, f3]
  simp [identityCascade, dropZeroOrder, mergeZeroOrder]

/-- The stages of a cascade whose zeros are all `r`: one per pair of poles, and one for a real pole. -/
noncomputable def stageList (r : ℝ) (pp : List ℂ) (lp : List ℝ) : List (Stage ℝ) :=
  (pp.map fun p => ⟨coefficientsLone r r, coefficientsPaired p (conj p)⟩) ++
    lp.map fun p => ⟨coefficientsLone r 0, coefficientsLone p 0⟩

theorem second_lone {ε r : ℝ} (h1 : ε < 1) (hr : r * r = 1) : Second ε (coefficientsLone r r) := by
  simp [Second, coefficientsLone, hr, h1]

theorem second_paired {ε : ℝ} {p : ℂ} (h : ε < Complex.normSq p) : Second ε (coefficientsPaired p (conj p)) := by
  show ε < |(p * conj p).re|
  rw [Complex.mul_conj, Complex.ofReal_re, abs_of_nonneg (Complex.normSq_nonneg _)]
  exact h

/-- The cascade while the loop runs. -/
noncomputable def orIdentity (acc : List (Stage ℝ)) : List (Stage ℝ) := if acc = [] then identityCascade else acc

theorem append_orIdentity {ε : ℝ} (h0 : 0 ≤ ε) {acc : List (Stage ℝ)} {s : Stage ℝ}
    (h : ∀ t ∈ acc, Second ε t.b ∧ Second ε t.a) (hs : isZeroOrder ε s.b = false) :
    appendBiquad ε (orIdentity acc) s = some (orIdentity (acc ++ [s])) := by
  unfold orIdentity
  split_ifs with h1
  · subst h1; simp at *
  · subst h1; rw [append_identity h0]; simp
  · simp at *
  · exact append_second h hs

theorem loop_explicit {ε : ℝ} (h0 : 0 ≤ ε) (h1 : ε < 1) {r : ℝ} (hr : r * r = 1) (lp : List ℝ)
    (hlp : lp.length ≤ 1) : ∀ (pp : List ℂ) (fuel : ℕ) (acc : List (Stage ℝ)),
    (∀ p ∈ pp, ε < Complex.normSq p) → (∀ t ∈ acc, Second ε t.b ∧ Second ε t.a) →
    2 * pp.length + lp.length + pp.length + lp.length < fuel →
    coefficientsLoop ε fuel [] (List.replicate (2 * pp.length + lp.length) r) pp lp (orIdentity acc)
      = some (orIdentity (acc ++ stageList r pp lp))
  | [], fuel, acc, _, ha, hf => by
    obtain ⟨n, rfl⟩ : ∃ n, fuel = n + 1 := ⟨fuel - 1, by omega⟩
    rw [coefficientsLoop]
    match lp, hlp with
    | [], _ => simp [stageList]
    | [p], _ =>
      have hz : isZeroOrder ε (coefficientsLone r 0) = false := by
        have : |r| = 1 := by
          have : |r| * |r| = 1 := by rw [← abs_mul, hr, abs_one]
          nlinarith [abs_nonneg r]
        simp [isZeroOrder, coefficientsLone, this]
        intro h; linarith
      simp only [List.length_nil, List.length_singleton] at hf ⊢
      obtain ⟨m, rfl⟩ : ∃ m, n = m + 1 := ⟨n - 1, by omega⟩
      have hrep : List.replicate (2 * 0 + 1) r = [r] := rfl
      rw [if_neg (by simp), hrep]
      simp only [getNext]
      rw [append_orIdentity (s := ⟨coefficientsLone r 0, coefficientsLone p 0⟩) h0 ha hz]
      simp only []
      rw [coefficientsLoop]
      simp [stageList]
  | p :: pp, fuel, acc, hp, ha, hf => by
    obtain ⟨n, rfl⟩ : ∃ n, fuel = n + 1 := ⟨fuel - 1, by omega⟩
    rw [coefficientsLoop]
    have hb := second_lone h1 hr
    have hpa := second_paired (hp p (by simp))
    rw [if_neg (by simp)]
    have hrep : List.replicate (2 * (p :: pp).length + lp.length) r
        = r :: r :: List.replicate (2 * pp.length + lp.length) r := by
      rw [List.length_cons, show 2 * (pp.length + 1) + lp.length = (2 * pp.length + lp.length) + 1 + 1 by ring,
        List.replicate_succ, List.replicate_succ]
    rw [hrep]
    simp only [getNext]
    rw [append_orIdentity (s := ⟨coefficientsLone r r, coefficientsPaired p (conj p)⟩) h0 ha hb.not_zero]
    simp only []
    simp only [List.length_cons] at hf
    rw [loop_explicit h0 h1 hr lp hlp pp n _ (fun q hq => hp q (by simp [hq])) (by
      intro t ht
      rcases List.mem_append.1 ht with ht | ht
      · exact ha t ht
      · rw [List.mem_singleton.1 ht]; exact ⟨hb, hpa⟩) (by omega)]
    simp [stageList]

theorem numAt_stageList (r : ℝ) (pp : List ℂ) (lp : List ℝ) (w : ℂ) :
    numAt (stageList r pp lp) w = (1 - r * w) ^ (2 * pp.length + lp.length) := by
  have h1 : evalZ Complex.ofRealHom (coefficientsLone r r) w = (1 - r * w) ^ 2 := by
    rw [coefficientsLone, evalZ_three]; push_cast; ring
  have h2 : evalZ Complex.ofRealHom (coefficientsLone r 0) w = 1 - r * w := by
    rw [coefficientsLone, evalZ_three]; push_cast; ring
  unfold numAt stageList
  rw [List.map_append, List.prod_append, List.map_map, List.map_map, pow_add, pow_mul, ← h1]
  congr 1
  · simp [Function.comp_def]
  · simp [Function.comp_def, h2]

theorem denAt_stageList (r : ℝ) (pp : List ℂ) (lp : List ℝ) (w : ℂ) :
    denAt (stageList r pp lp) w = rootProd (fun p => 1 - p * w) lp pp := by
  unfold denAt stageList rootProd
  rw [List.map_append, List.prod_append, List.map_map, List.map_map, mul_comm]
  congr 3
  · funext p
    simp only [Function.comp_apply, coefficientsLone, evalZ_three]
    push_cast; ring
  · funext p
    have h1 : ((p + conj p).re : ℂ) = p + conj p := by
      rw [Complex.add_conj]; norm_cast
    have h2 : ((p * conj p).re : ℂ) = p * conj p := by
      rw [Complex.mul_conj]; norm_cast
    simp only [Function.comp_apply, coefficientsPaired, evalZ_three]
    rw [Complex.ofReal_neg, h1, h2]
    push_cast
    ring

theorem stageList_valid (r : ℝ) (pp : List ℂ) (lp : List ℝ) : ∀ s ∈ stageList r pp lp, s.Valid := by
  intro s hs
  rcases List.mem_append.1 hs with h | h
  · obtain ⟨p, _, rfl⟩ := List.mem_map.1 h
    exact ⟨rfl, rfl, by simp [coefficientsPaired]⟩
  · obtain ⟨p, _, rfl⟩ := List.mem_map.1 h
    exact ⟨rfl, rfl, by simp [coefficientsLone]⟩

/-- `GetCoefficients` for zeros that are all `±1` and at most one real pole. -/
theorem explicit_coefficients {ε : ℝ} (h0 : 0 ≤ ε) (h1 : ε < 1) {r : ℝ} (hr : r * r = 1) (f : PZ)
    (hpz : f.pairedZeros = []) (hlz : f.loneZeros = List.replicate (2 * f.pairedPoles.length + f.lonePoles.length) r)
    (hlp : f.lonePoles.length ≤ 1) (hpp : ∀ p ∈ f.pairedPoles, ε < Complex.normSq p)
    (hne : 0 < f.pairedPoles.length + f.lonePoles.length) :
    f.getCoefficients ε = some (adjustGain f.gain (stageList r f.pairedPoles f.lonePoles)) ∧
    stageList r f.pairedPoles f.lonePoles ≠ [] ∧
    ∀ z : ℂ, z ≠ 0 → evalCascade Complex.ofRealHom (adjustGain f.gain (stageList r f.pairedPoles f.lonePoles)) z
      = digitalSystem f z := by
  have hne' : stageList r f.pairedPoles f.lonePoles ≠ [] := by
    intro h
    have := congrArg List.length h
    simp [stageList] at this
    obtain ⟨a, b⟩ := this
    simp [a, b] at hne
  refine ⟨?_, hne', fun z hz => ?_⟩
  · unfold PZ.getCoefficients
    rw [if_neg]
    · have := loop_explicit h0 h1 hr f.lonePoles hlp f.pairedPoles (f.pairedZeros.length + f.loneZeros.length +
        f.pairedPoles.length + f.lonePoles.length + 1) [] hpp (by simp) (by rw [hlz, hpz]; simp)
      rw [← hlz, ← hpz] at this
      rw [show orIdentity [] = identityCascade from by simp [orIdentity]] at this
      rw [this]
      simp [orIdentity, hne']
    · rintro ⟨_, _, h3, h4⟩
      simp [h3, h4] at hne
  · obtain ⟨a1, a2⟩ := adjustGain_spec f.gain _ hne'
    have hv := adjustGain_valid f.gain _ (stageList_valid r f.pairedPoles f.lonePoles)
    rw [evalCascade_numDen _ hv z hz, numAt_of a1,
      denAt_of (cs' := stageList r f.pairedPoles f.lonePoles) (c := 1) (by rw [a2]; simp),
      numAt_stageList, denAt_stageList, digital_eq, hlz, hpz]
    simp only [rootProd, List.map_replicate, List.prod_replicate, List.map_nil, List.prod_nil, mul_one,
      div_eq_mul_inv, Complex.ofReal_one, one_mul]

/-! ### Butterworth poles after the bilinear transform -/

theorem digital_pole_bound {K w : ℝ} (hK : 0 < K) (hw : 0 ≤ w) {c s : ℝ} (hc : c < 0) (hcs : c ^ 2 + s ^ 2 = 1) :
    (1 + c) / 2 ≤ Complex.normSq (((K : ℂ) + w * (⟨c, s⟩ : ℂ)) / (K - w * (⟨c, s⟩ : ℂ))) := by
  have e1 : Complex.normSq ((K : ℂ) + w * (⟨c, s⟩ : ℂ)) = K ^ 2 + 2 * K * w * c + w ^ 2 := by
    rw [Complex.normSq_apply]
    simp
    linear_combination w ^ 2 * hcs
  have e2 : Complex.normSq ((K : ℂ) - w * (⟨c, s⟩ : ℂ)) = K ^ 2 - 2 * K * w * c + w ^ 2 := by
    rw [Complex.normSq_apply]
    simp
    linear_combination w ^ 2 * hcs
  rw [Complex.normSq_div, e1, e2]
  have hKw : 0 ≤ K * w := mul_nonneg hK.le hw
  have hd : 0 < K ^ 2 - 2 * K * w * c + w ^ 2 := by nlinarith [mul_pos hK hK]
  have hc1 : -1 ≤ c := by nlinarith
  rw [div_le_div_iff₀ two_pos hd]
  nlinarith [mul_nonneg (sq_nonneg (K - w)) (neg_nonneg.2 hc.le), mul_nonneg hKw (mul_nonneg (neg_nonneg.2 hc.le)
    (by linarith : 0 ≤ 1 + c)), mul_nonneg (mul_self_nonneg (K - w)) (by linarith : 0 ≤ 1 + c)]

theorem bw_pole_margin {N i : ℕ} (hi : i < N / 2) (hN : N < 50000) :
    (1 / 10 ^ 10 : ℝ) < (1 + Real.cos (bwAngle N i)) / 2 := by
  obtain ⟨h1, h2⟩ := bwAngle_bounds hi
  have hN0 : (0 : ℝ) < N := by
    have : 0 < N := by omega
    exact_mod_cast this
  have hN1 : (N : ℝ) < 50000 := by exact_mod_cast hN
  obtain ⟨α, hα⟩ : ∃ α, α = Real.pi - bwAngle N i := ⟨_, rfl⟩
  rw [← hα] at h1 h2
  have e : (1 + Real.cos (bwAngle N i)) / 2 = Real.sin (α / 2) ^ 2 := by
    have : bwAngle N i = Real.pi - α := by rw [hα]; ring
    rw [this, Real.cos_pi_sub, Real.sin_sq_eq_half_sub]
    ring_nf
  rw [e]
  have hα0 : 0 < α := lt_of_lt_of_le (div_pos Real.pi_pos (by linarith)) h1
  have hj := Real.mul_le_sin (x := α / 2) (by linarith) (by linarith [Real.pi_pos])
  have hl : 1 / (2 * N) ≤ 2 / Real.pi * (α / 2) := by
    have : 2 / Real.pi * (Real.pi / (2 * N) / 2) = 1 / (2 * N) := by
      field_simp
    rw [← this]
    apply mul_le_mul_of_nonneg_left _ (div_nonneg two_pos.le Real.pi_pos.le)
    linarith
  have h3 : (1 / 10 ^ 5 : ℝ) < 1 / (2 * N) := by
    rw [div_lt_div_iff₀ (by norm_num) (by linarith)]
    linarith
  have h4 : (1 / 10 ^ 5 : ℝ) < Real.sin (α / 2) := by linarith
  nlinarith

end Verif.PoleZero
