import Verif.Proof.PoleZero2

/-!
# Lemmas on the band maps
-/

namespace Verif.PoleZero
open Verif.BiquadCascade Verif.FilterDesign Spec
open scoped ComplexConjugate

theorem csqrt_sq (w : ℂ) : csqrt w * csqrt w = w := by
  unfold csqrt
  by_cases h : w = 0
  · subst h
    rw [Complex.zero_cpow (by norm_num)]; simp
  · rw [← Complex.cpow_add _ _ h]
    norm_num

theorem csqrt_neg {d : ℝ} (hd : 0 ≤ d) : csqrt ((-d : ℝ) : ℂ) = (√d : ℝ) * Complex.I := by
  have hI : ((1 : ℝ) / 2 : ℝ) = 1 / 2 := rfl
  unfold csqrt
  rcases hd.eq_or_lt with rfl | hpos
  · rw [neg_zero, Complex.ofReal_zero, Complex.zero_cpow (by norm_num)]; simp
  · rw [Complex.ofReal_cpow_of_nonpos (by linarith)]
    rw [← Complex.ofReal_neg, neg_neg]
    have h1 : ((d : ℂ) ^ (1 / 2 : ℂ)) = (√d : ℝ) := by
      rw [Real.sqrt_eq_rpow, Complex.ofReal_cpow hd]; norm_num
    rw [h1]
    congr 1
    rw [show (Real.pi : ℂ) * Complex.I * (1 / 2) = (Real.pi : ℂ) / 2 * Complex.I by ring]
    exact Complex.exp_pi_div_two_mul_I

/-- The quadratic whose roots the band maps compute. -/
noncomputable def bandQuad (c2 : ℝ) (x y r : ℂ) : ℂ := x ^ 2 - 2 * r * x * y + c2 * y ^ 2

theorem shift_paired (c2 : ℝ) (x y p : ℂ) :
    let s := csqrt (p * p - (c2 : ℝ))
    (x - (p + s) * y) * (x - (p - s) * y) = bandQuad c2 x y p ∧
    (x - conj (p + s) * y) * (x - conj (p - s) * y) = bandQuad c2 x y (conj p) := by
  intro s
  have h : s * s = p * p - c2 := csqrt_sq _
  have h' : conj s * conj s = conj p * conj p - c2 := by
    rw [← map_mul, h]; simp
  unfold bandQuad
  constructor
  · linear_combination (-y ^ 2) * h
  · rw [map_add, map_sub]; linear_combination (-y ^ 2) * h'

theorem shift_lone (c2 : ℝ) (x y : ℂ) (p : ℝ) (h : p * p ≤ c2) :
    (x - ((p : ℂ) + csqrt ((p * p - c2 : ℝ) : ℂ)) * y) * (x - conj ((p : ℂ) + csqrt ((p * p - c2 : ℝ) : ℂ)) * y)
      = bandQuad c2 x y p := by
  have e : p * p - c2 = -(c2 - p * p) := by ring
  rw [e, csqrt_neg (by linarith)]
  have hs : ((√(c2 - p * p) : ℝ) : ℂ) * (√(c2 - p * p) : ℝ) = (c2 : ℂ) - p * p := by
    rw [← Complex.ofReal_mul, Real.mul_self_sqrt (by linarith)]; push_cast; rfl
  have hI := Complex.I_mul_I
  simp only [map_add, map_mul, Complex.conj_ofReal, Complex.conj_I, bandQuad]
  linear_combination (y ^ 2) * hs - (y ^ 2 * (√(c2 - p * p) : ℝ) ^ 2) * hI

theorem shift_rootProd (c : ℝ) (x y : ℂ) (lone : List ℝ) (paired : List ℂ) (h : ∀ p ∈ lone, p * p ≤ c * c) :
    rootProd (fun r => x - r * y) []
      ((lone.map fun p : ℝ => (p : ℂ) + csqrt ((p * p - c * c : ℝ) : ℂ)) ++
        paired.flatMap fun p => [p + csqrt (p * p - (c * c : ℝ)), p - csqrt (p * p - (c * c : ℝ))])
      = rootProd (bandQuad (c * c) x y) lone paired := by
  unfold rootProd
  rw [List.map_nil, List.prod_nil, one_mul, List.map_append, List.prod_append, List.map_map]
  congr 1
  · congr 1
    apply List.map_congr_left
    intro p hp
    exact shift_lone (c * c) x y p (h p hp)
  · induction paired with
    | nil => simp
    | cons p l ih =>
      obtain ⟨h1, h2⟩ := shift_paired (c * c) x y p
      rw [List.flatMap_cons, List.map_append, List.prod_append, ih, List.map_cons, List.prod_cons]
      congr 1
      simp only [List.map_cons, List.map_nil, List.prod_cons, List.prod_nil, mul_one]
      rw [← h1, ← h2]
      ring

theorem shift_degree (f : PZ) (c : ℝ) : (f.shift c).polesDegree = 2 * f.polesDegree ∧
    (f.shift c).zerosDegree = 2 * f.zerosDegree := by
  have key : ∀ (l : List ℂ) (a b : ℂ → ℂ), (l.flatMap fun p => [a p, b p]).length = 2 * l.length := by
    intro l a b
    induction l with
    | nil => rfl
    | cons p l ih => rw [List.flatMap_cons, List.length_append, ih]; simp; omega
  unfold PZ.shift PZ.polesDegree PZ.zerosDegree
  simp only [List.length_nil, List.length_append, List.length_map, key]
  omega

/-- Every root of a shifted list satisfies its quadratic. -/
theorem shift_mem {c : ℝ} {lone : List ℝ} {paired : List ℂ} {q : ℂ}
    (h : q ∈ (lone.map fun p : ℝ => (p : ℂ) + csqrt ((p * p - c * c : ℝ) : ℂ)) ++
        paired.flatMap fun p => [p + csqrt (p * p - (c * c : ℝ)), p - csqrt (p * p - (c * c : ℝ))]) :
    ∃ r : ℂ, ((∃ p ∈ lone, r = (p : ℝ)) ∨ r ∈ paired) ∧ q ^ 2 - 2 * r * q + (c * c : ℝ) = 0 := by
  rcases List.mem_append.1 h with h | h
  · obtain ⟨p, hp, rfl⟩ := List.mem_map.1 h
    refine ⟨p, Or.inl ⟨p, hp, rfl⟩, ?_⟩
    have := csqrt_sq ((p * p - c * c : ℝ) : ℂ)
    generalize csqrt ((p * p - c * c : ℝ) : ℂ) = s at *
    push_cast at *
    linear_combination this
  · obtain ⟨p, hp, hq⟩ := List.mem_flatMap.1 h
    refine ⟨p, Or.inr hp, ?_⟩
    have := csqrt_sq (p * p - (c * c : ℝ))
    generalize csqrt (p * p - (c * c : ℝ)) = s at *
    simp only [List.mem_cons, List.not_mem_nil, or_false] at hq
    rcases hq with rfl | rfl <;> linear_combination this

/-- The mapped prototype of `BandpassCoefficients`. -/
noncomputable def bandpassAnalog (proto : PZ) (w1 w2 : ℝ) : PZ :=
  let m := proto.mapFrequency fun s => ((w2 - w1 : ℝ) : ℂ) * s / 2
  let degree := m.relativeDegree
  let m := m.shift (√(w2 * w1))
  { m with
    loneZeros := m.loneZeros ++ List.replicate degree.toNat 0
    gain := m.gain * (w2 - w1) ^ degree }

/-- The mapped prototype of `BandstopCoefficients`. -/
noncomputable def bandstopAnalog (proto : PZ) (w1 w2 : ℝ) : PZ :=
  let m := proto.mapFrequency fun s => ((w2 - w1 : ℝ) : ℂ) / s / 2
  let degree := m.relativeDegree
  let m := m.shift (√(w2 * w1))
  { m with
    pairedZeros := m.pairedZeros ++ List.replicate degree.toNat ⟨0, √(w2 * w1)⟩
    gain := ‖proto.eval 0‖ }

theorem bandpassAnalog_degree {f : PZ} (h : 0 ≤ f.relativeDegree) (w1 w2 : ℝ) :
    (bandpassAnalog f w1 w2).relativeDegree = f.relativeDegree := by
  have h1 := mapFrequency_degree f fun s => ((w2 - w1 : ℝ) : ℂ) * s / 2
  obtain ⟨h2, h3⟩ := shift_degree (f.mapFrequency fun s => ((w2 - w1 : ℝ) : ℂ) * s / 2) (√(w2 * w1))
  have h4 : (bandpassAnalog f w1 w2).polesDegree
      = ((f.mapFrequency fun s => ((w2 - w1 : ℝ) : ℂ) * s / 2).shift (√(w2 * w1))).polesDegree := rfl
  have h5 : (bandpassAnalog f w1 w2).zerosDegree
      = ((f.mapFrequency fun s => ((w2 - w1 : ℝ) : ℂ) * s / 2).shift (√(w2 * w1))).zerosDegree +
        (f.mapFrequency fun s => ((w2 - w1 : ℝ) : ℂ) * s / 2).relativeDegree.toNat := by
    simp only [bandpassAnalog, PZ.zerosDegree, List.length_append, List.length_replicate]
    omega
  unfold PZ.relativeDegree at *
  omega

theorem bandstopAnalog_degree {f : PZ} (h : 0 ≤ f.relativeDegree) (w1 w2 : ℝ) :
    (bandstopAnalog f w1 w2).relativeDegree = 0 := by
  have h1 := mapFrequency_degree f fun s => ((w2 - w1 : ℝ) : ℂ) / s / 2
  obtain ⟨h2, h3⟩ := shift_degree (f.mapFrequency fun s => ((w2 - w1 : ℝ) : ℂ) / s / 2) (√(w2 * w1))
  have h4 : (bandstopAnalog f w1 w2).polesDegree
      = ((f.mapFrequency fun s => ((w2 - w1 : ℝ) : ℂ) / s / 2).shift (√(w2 * w1))).polesDegree := rfl
  have h5 : (bandstopAnalog f w1 w2).zerosDegree
      = ((f.mapFrequency fun s => ((w2 - w1 : ℝ) : ℂ) / s / 2).shift (√(w2 * w1))).zerosDegree +
        2 * (f.mapFrequency fun s => ((w2 - w1 : ℝ) : ℂ) / s / 2).relativeDegree.toNat := by
    simp only [bandstopAnalog, PZ.zerosDegree, List.length_append, List.length_replicate]
    omega
  unfold PZ.relativeDegree at *
  omega

theorem bandpassAnalog_hom {f : PZ} (hd : 0 ≤ f.relativeDegree) {w1 w2 : ℝ} (hw : 0 ≤ w2 * w1)
    (hp : ∀ p ∈ f.lonePoles, ((w2 - w1) * p / 2) ^ 2 ≤ w2 * w1)
    (hz : ∀ p ∈ f.loneZeros, ((w2 - w1) * p / 2) ^ 2 ≤ w2 * w1) (x y : ℂ) :
    hom (bandpassAnalog f w1 w2) x y
      = hom f (x ^ 2 + (w2 * w1 : ℝ) * y ^ 2) ((w2 - w1 : ℝ) * x * y) := by
  have hc : ∀ p : ℂ, ((w2 - w1 : ℝ) : ℂ) * conj p / 2 = conj ((w2 - w1 : ℝ) * p / 2) := by
    intro p; rw [map_div₀, map_mul, Complex.conj_ofReal, map_ofNat]
  have hre : ∀ p : ℝ, (((w2 - w1 : ℝ) : ℂ) * p / 2).re = (w2 - w1) * p / 2 := by
    intro p
    rw [← Complex.ofReal_mul, ← Complex.ofReal_ofNat, ← Complex.ofReal_div, Complex.ofReal_re]
  have hsq : √(w2 * w1) * √(w2 * w1) = w2 * w1 := Real.mul_self_sqrt hw
  have key : ∀ (lone : List ℝ) (paired : List ℂ), (∀ p ∈ lone, ((w2 - w1) * p / 2) ^ 2 ≤ w2 * w1) →
      rootProd (bandQuad (√(w2 * w1) * √(w2 * w1)) x y)
        (lone.map fun p : ℝ => (((w2 - w1 : ℝ) : ℂ) * p / 2).re) (paired.map fun s => ((w2 - w1 : ℝ) : ℂ) * s / 2)
      = rootProd (fun r => x ^ 2 + (w2 * w1 : ℝ) * y ^ 2 - r * ((w2 - w1 : ℝ) * x * y)) lone paired := by
    intro lone paired _
    rw [map_rootProd (g := fun s => ((w2 - w1 : ℝ) : ℂ) * s / 2) hc, hsq]
    congr 1
    funext r
    unfold bandQuad
    ring
  have cond : ∀ lone : List ℝ, (∀ p ∈ lone, ((w2 - w1) * p / 2) ^ 2 ≤ w2 * w1) →
      ∀ q ∈ (lone.map fun p : ℝ => (((w2 - w1 : ℝ) : ℂ) * p / 2).re), q * q ≤ √(w2 * w1) * √(w2 * w1) := by
    intro lone h q hq
    obtain ⟨p, hp, rfl⟩ := List.mem_map.1 hq
    rw [hre, hsq, ← pow_two]
    exact h p hp
  have s1 : rootProd (fun r => x - r * y) (bandpassAnalog f w1 w2).loneZeros (bandpassAnalog f w1 w2).pairedZeros
      = rootProd (fun r => x ^ 2 + (w2 * w1 : ℝ) * y ^ 2 - r * ((w2 - w1 : ℝ) * x * y)) f.loneZeros f.pairedZeros
        * x ^ f.relativeDegree.toNat := by
    rw [← key _ _ hz, ← shift_rootProd _ _ _ _ _ (cond _ hz)]
    unfold rootProd
    show (List.map _ ([] ++ List.replicate (f.mapFrequency _).relativeDegree.toNat (0 : ℝ))).prod * _ = _
    rw [mapFrequency_degree, List.nil_append, List.map_replicate, List.prod_replicate]
    simp only [Complex.ofReal_zero, zero_mul, sub_zero, List.map_nil, List.prod_nil, one_mul]
    exact mul_comm _ _
  have s2 : rootProd (fun r => x - r * y) (bandpassAnalog f w1 w2).lonePoles (bandpassAnalog f w1 w2).pairedPoles
      = rootProd (fun r => x ^ 2 + (w2 * w1 : ℝ) * y ^ 2 - r * ((w2 - w1 : ℝ) * x * y)) f.lonePoles f.pairedPoles := by
    rw [← key _ _ hp, ← shift_rootProd _ _ _ _ _ (cond _ hp)]
    rfl
  have hg : (bandpassAnalog f w1 w2).gain = f.gain * (w2 - w1) ^ f.relativeDegree.toNat := by
    show f.gain * (w2 - w1) ^ (f.mapFrequency _).relativeDegree = _
    rw [mapFrequency_degree, ← zpow_natCast, Int.toNat_of_nonneg hd]
  unfold hom
  rw [bandpassAnalog_degree hd, s1, s2, hg, mul_pow (_ * x) y, mul_pow _ x, Complex.ofReal_mul, Complex.ofReal_pow]
  ring

theorem bandpassAnalog_proper {f : PZ} (h : Prototype f) {w1 w2 K : ℝ} (h1 : 0 ≤ w1) (h12 : w1 < w2)
    (hK : 0 < K) : Proper K (bandpassAnalog f w1 w2) := by
  have hsq : √(w2 * w1) * √(w2 * w1) = w2 * w1 := Real.mul_self_sqrt (by nlinarith)
  have key : ∀ r : ℂ, r.re ≤ 0 → (K : ℂ) ^ 2 - 2 * r * K + (√(w2 * w1) * √(w2 * w1) : ℝ) ≠ 0 := by
    intro r hr h0
    have := congrArg Complex.re h0
    rw [hsq] at this
    simp only [Complex.add_re, Complex.sub_re, Complex.ofReal_re, Complex.zero_re, Complex.mul_re,
      Complex.ofReal_im, mul_zero, sub_zero, pow_two, Complex.re_ofNat, Complex.im_ofNat, zero_mul] at this
    nlinarith [mul_pos hK hK]
  have hre : ∀ p : ℂ, p.re ≤ 0 → (((w2 - w1 : ℝ) : ℂ) * p / 2).re ≤ 0 := by
    intro p hp
    rw [show ((w2 - w1 : ℝ) : ℂ) * p / 2 = (((w2 - w1) / 2 : ℝ) : ℂ) * p by push_cast; ring, Complex.re_ofReal_mul]
    exact mul_nonpos_of_nonneg_of_nonpos (by linarith) hp
  refine ⟨mul_nonneg h.gain (zpow_nonneg (by linarith) _), ?_, ?_, ?_, ?_, ?_⟩
  · rw [bandpassAnalog_degree h.degree]; exact h.degree
  · intro p hp
    exact absurd hp (List.not_mem_nil)
  · intro p hp
    rcases List.mem_append.1 hp with hp | hp
    · exact absurd hp (List.not_mem_nil)
    · rw [List.eq_of_mem_replicate hp]; exact hK
  · rintro p hp rfl
    obtain ⟨r, hr, e⟩ := shift_mem hp
    refine key r ?_ e
    rcases hr with ⟨q, hq, rfl⟩ | hq
    · obtain ⟨q', hq', rfl⟩ := List.mem_map.1 hq
      rw [Complex.ofReal_re]
      exact hre _ (by simpa using (h.lonePoles q' hq').le)
    · obtain ⟨q', hq', rfl⟩ := List.mem_map.1 hq
      exact hre _ (h.pairedPoles q' hq').le
  · rintro p hp rfl
    obtain ⟨r, hr, e⟩ := shift_mem hp
    refine key r ?_ e
    rcases hr with ⟨q, hq, rfl⟩ | hq
    · obtain ⟨q', hq', rfl⟩ := List.mem_map.1 hq
      rw [Complex.ofReal_re]
      exact hre _ (by simpa using (h.loneZeros q' hq').le)
    · obtain ⟨q', hq', rfl⟩ := List.mem_map.1 hq
      exact hre _ (h.pairedZeros q' hq').1

theorem bandstopAnalog_hom {f : PZ} (h : Prototype f) {w1 w2 : ℝ} (hw : 0 ≤ w2 * w1)
    (hp : ∀ p ∈ f.lonePoles, ((w2 - w1) / p / 2) ^ 2 ≤ w2 * w1)
    (hz : ∀ p ∈ f.loneZeros, ((w2 - w1) / p / 2) ^ 2 ≤ w2 * w1) (x y : ℂ) :
    hom (bandstopAnalog f w1 w2) x y
      = hom f ((w2 - w1 : ℝ) * x * y) (x ^ 2 + (w2 * w1 : ℝ) * y ^ 2) := by
  have hc : ∀ p : ℂ, ((w2 - w1 : ℝ) : ℂ) / conj p / 2 = conj ((w2 - w1 : ℝ) / p / 2) := by
    intro p; rw [map_div₀, map_div₀, Complex.conj_ofReal, map_ofNat]
  have hre : ∀ p : ℝ, (((w2 - w1 : ℝ) : ℂ) / p / 2).re = (w2 - w1) / p / 2 := by
    intro p
    rw [← Complex.ofReal_div, ← Complex.ofReal_ofNat, ← Complex.ofReal_div, Complex.ofReal_re]
  have hsq : √(w2 * w1) * √(w2 * w1) = w2 * w1 := Real.mul_self_sqrt hw
  obtain ⟨qz, qp, pz, pp, ez, ep, eg⟩ := h.eval_zero
  have key : ∀ (lone : List ℝ) (paired : List ℂ), (∀ p ∈ lone, p < 0) → (∀ p ∈ paired, p ≠ 0) →
      rootProd (fun r => -r) lone paired * rootProd (bandQuad (√(w2 * w1) * √(w2 * w1)) x y)
        (lone.map fun p : ℝ => (((w2 - w1 : ℝ) : ℂ) / p / 2).re) (paired.map fun s => ((w2 - w1 : ℝ) : ℂ) / s / 2)
      = rootProd (fun r => (w2 - w1 : ℝ) * x * y - r * (x ^ 2 + (w2 * w1 : ℝ) * y ^ 2)) lone paired := by
    intro lone paired h1 h2
    rw [map_rootProd (g := fun s => ((w2 - w1 : ℝ) : ℂ) / s / 2) hc, hsq, ← rootProd_mul]
    have key : ∀ r : ℂ, r ≠ 0 → -r * bandQuad (w2 * w1) x y ((w2 - w1 : ℝ) / r / 2)
        = (w2 - w1 : ℝ) * x * y - r * (x ^ 2 + (w2 * w1 : ℝ) * y ^ 2) := by
      intro r hr; unfold bandQuad; field_simp; ring
    apply rootProd_congr
    · intro r hr; exact key r (by exact_mod_cast (h1 r hr).ne)
    · intro p hp
      exact ⟨key p (h2 p hp), key _ (by simpa using h2 p hp)⟩
  have cond : ∀ lone : List ℝ, (∀ p ∈ lone, ((w2 - w1) / p / 2) ^ 2 ≤ w2 * w1) →
      ∀ q ∈ (lone.map fun p : ℝ => (((w2 - w1 : ℝ) : ℂ) / p / 2).re), q * q ≤ √(w2 * w1) * √(w2 * w1) := by
    intro lone h q hq
    obtain ⟨p, hp, rfl⟩ := List.mem_map.1 hq
    rw [hre, hsq, ← pow_two]
    exact h p hp
  have k1 := key f.loneZeros f.pairedZeros h.loneZeros fun p hp => (h.pairedZeros p hp).2
  have k2 := key f.lonePoles f.pairedPoles h.lonePoles fun p hp =>
    (by intro h0; have := h.pairedPoles p hp; rw [h0] at this; simp at this)
  rw [ez] at k1
  rw [ep] at k2
  rw [← shift_rootProd _ _ _ _ _ (cond _ hz)] at k1
  rw [← shift_rootProd _ _ _ _ _ (cond _ hp)] at k2
  have s1 : qz * rootProd (fun r => x - r * y) (bandstopAnalog f w1 w2).loneZeros (bandstopAnalog f w1 w2).pairedZeros
      = rootProd (fun r => (w2 - w1 : ℝ) * x * y - r * (x ^ 2 + (w2 * w1 : ℝ) * y ^ 2)) f.loneZeros f.pairedZeros
        * (x ^ 2 + (w2 * w1 : ℝ) * y ^ 2) ^ f.relativeDegree.toNat := by
    rw [← k1, mul_assoc]
    congr 1
    unfold rootProd
    show (List.map _ ([] : List ℝ)).prod * (List.map _ (_ ++ List.replicate (f.mapFrequency _).relativeDegree.toNat _)).prod = _
    rw [mapFrequency_degree, List.map_append, List.prod_append, List.map_replicate, List.prod_replicate, ← mul_assoc]
    congr 2
    have e1 : (⟨0, √(w2 * w1)⟩ : ℂ) = (√(w2 * w1) : ℝ) * Complex.I := by
      apply Complex.ext <;> simp
    have e2 : ((√(w2 * w1) : ℝ) : ℂ) * (√(w2 * w1) : ℝ) = (w2 * w1 : ℝ) := by
      rw [← Complex.ofReal_mul, hsq]
    rw [e1]
    simp only [map_mul, Complex.conj_ofReal, Complex.conj_I]
    linear_combination (y ^ 2) * e2 - (y ^ 2 * (√(w2 * w1) : ℝ) ^ 2) * Complex.I_mul_I
  have s2 : qp * rootProd (fun r => x - r * y) (bandstopAnalog f w1 w2).lonePoles (bandstopAnalog f w1 w2).pairedPoles
      = rootProd (fun r => (w2 - w1 : ℝ) * x * y - r * (x ^ 2 + (w2 * w1 : ℝ) * y ^ 2)) f.lonePoles f.pairedPoles := by
    rw [← k2]
    rfl
  have hg : ((bandstopAnalog f w1 w2).gain : ℂ) = f.gain * qz / qp := by
    show ((‖f.eval 0‖ : ℝ) : ℂ) = _
    rw [eg]; push_cast; rfl
  unfold hom
  rw [bandstopAnalog_degree h.degree, hg, ← s2, mul_assoc (f.gain : ℂ) _ (_ ^ _), ← s1]
  have hqp : (qp : ℂ) ≠ 0 := by exact_mod_cast pp.ne'
  simp only [Int.toNat_zero, pow_zero, mul_one]
  clear s1 s2 k1 k2
  generalize rootProd (fun r => x - r * y) (bandstopAnalog f w1 w2).lonePoles (bandstopAnalog f w1 w2).pairedPoles = D
  generalize rootProd (fun r => x - r * y) (bandstopAnalog f w1 w2).loneZeros (bandstopAnalog f w1 w2).pairedZeros = N
  by_cases hD : D = 0
  · rw [hD]; simp
  field_simp

theorem bandstopAnalog_proper {f : PZ} (h : Prototype f) {w1 w2 K : ℝ} (h1 : 0 ≤ w1) (h12 : w1 < w2)
    (hK : 0 < K) : Proper K (bandstopAnalog f w1 w2) := by
  have hsq : √(w2 * w1) * √(w2 * w1) = w2 * w1 := Real.mul_self_sqrt (by nlinarith)
  have key : ∀ r : ℂ, r.re ≤ 0 → (K : ℂ) ^ 2 - 2 * r * K + (√(w2 * w1) * √(w2 * w1) : ℝ) ≠ 0 := by
    intro r hr h0
    have := congrArg Complex.re h0
    rw [hsq] at this
    simp only [Complex.add_re, Complex.sub_re, Complex.ofReal_re, Complex.zero_re, Complex.mul_re,
      Complex.ofReal_im, mul_zero, sub_zero, pow_two, Complex.re_ofNat, Complex.im_ofNat, zero_mul] at this
    nlinarith [mul_pos hK hK]
  have hre : ∀ p : ℂ, p.re ≤ 0 → (((w2 - w1 : ℝ) : ℂ) / p / 2).re ≤ 0 := by
    intro p hp
    rw [show ((w2 - w1 : ℝ) : ℂ) / p / 2 = (((w2 - w1) / 2 : ℝ) : ℂ) / p by push_cast; ring]
    exact div_re_nonpos (by linarith) hp
  refine ⟨norm_nonneg _, ?_, ?_, ?_, ?_, ?_⟩
  · rw [bandstopAnalog_degree h.degree]
  · intro p hp
    exact absurd hp (List.not_mem_nil)
  · intro p hp
    exact absurd hp (List.not_mem_nil)
  · rintro p hp rfl
    obtain ⟨r, hr, e⟩ := shift_mem hp
    refine key r ?_ e
    rcases hr with ⟨q, hq, rfl⟩ | hq
    · obtain ⟨q', hq', rfl⟩ := List.mem_map.1 hq
      rw [Complex.ofReal_re]
      exact hre _ (by simpa using (h.lonePoles q' hq').le)
    · obtain ⟨q', hq', rfl⟩ := List.mem_map.1 hq
      exact hre _ (h.pairedPoles q' hq').le
  · intro p hp e0
    rcases List.mem_append.1 hp with hp | hp
    · subst e0
      obtain ⟨r, hr, e⟩ := shift_mem hp
      refine key r ?_ e
      rcases hr with ⟨q, hq, rfl⟩ | hq
      · obtain ⟨q', hq', rfl⟩ := List.mem_map.1 hq
        rw [Complex.ofReal_re]
        exact hre _ (by simpa using (h.loneZeros q' hq').le)
      · obtain ⟨q', hq', rfl⟩ := List.mem_map.1 hq
        exact hre _ (h.pairedZeros q' hq').1
    · rw [List.eq_of_mem_replicate hp] at e0
      have := congrArg Complex.re e0
      simp at this
      linarith

end Verif.PoleZero
