import Verif.Proof.PoleZero
import Verif.Proof.FilterDesign2

/-!
# Lemmas on the bilinear transform of poles and zeros and on the frequency maps
-/

namespace Verif.PoleZero
open Verif.BiquadCascade Verif.FilterDesign Spec
open scoped ComplexConjugate

theorem rootProd_map (g : ℂ → ℂ) (φ : ℂ → ℂ) (φr : ℝ → ℝ) (h1 : ∀ r : ℝ, φ r = φr r)
    (h2 : ∀ p, φ (conj p) = conj (φ p)) (lone : List ℝ) (paired : List ℂ) :
    rootProd g (lone.map φr) (paired.map φ) = rootProd (fun r => g (φ r)) lone paired := by
  unfold rootProd
  rw [List.map_map, List.map_map]
  congr 3
  · funext r; simp [h1]
  · funext p; simp [h2]

theorem rootProd_mul (g h : ℂ → ℂ) (lone : List ℝ) (paired : List ℂ) :
    rootProd (fun r => g r * h r) lone paired = rootProd g lone paired * rootProd h lone paired := by
  unfold rootProd
  rw [List.prod_map_mul]
  have : (fun p => g p * h p * (g (conj p) * h (conj p))) = fun p => (g p * g (conj p)) * (h p * h (conj p)) := by
    funext p; ring
  rw [this, List.prod_map_mul]
  ring

theorem rootProd_const (c : ℂ) (lone : List ℝ) (paired : List ℂ) :
    rootProd (fun _ => c) lone paired = c ^ (lone.length + 2 * paired.length) := by
  unfold rootProd
  simp only [List.map_const', List.prod_replicate]
  rw [pow_add, pow_mul, pow_two]

theorem rootProd_congr {g h : ℂ → ℂ} {lone : List ℝ} {paired : List ℂ} (h1 : ∀ r ∈ lone, g (r : ℂ) = h r)
    (h2 : ∀ p ∈ paired, g p = h p ∧ g (conj p) = h (conj p)) : rootProd g lone paired = rootProd h lone paired := by
  unfold rootProd
  congr 2
  · exact List.map_congr_left h1
  · exact List.map_congr_left fun p hp => by rw [(h2 p hp).1, (h2 p hp).2]

theorem rootProd_ne_zero {g : ℂ → ℂ} {lone : List ℝ} {paired : List ℂ} (h1 : ∀ r ∈ lone, g (r : ℂ) ≠ 0)
    (h2 : ∀ p ∈ paired, g p ≠ 0 ∧ g (conj p) ≠ 0) : rootProd g lone paired ≠ 0 := by
  unfold rootProd
  refine mul_ne_zero ?_ ?_
  · rw [Ne, List.prod_eq_zero_iff]
    intro h
    obtain ⟨r, hr, e⟩ := List.mem_map.1 h
    exact h1 r hr e
  · rw [Ne, List.prod_eq_zero_iff]
    intro h
    obtain ⟨p, hp, e⟩ := List.mem_map.1 h
    exact mul_ne_zero (h2 p hp).1 (h2 p hp).2 e

/-- A product over conjugate pairs and positive real factors is a positive real number. -/
theorem rootProd_pos {g : ℂ → ℂ} {lone : List ℝ} {paired : List ℂ}
    (h1 : ∀ r ∈ lone, ∃ q : ℝ, 0 < q ∧ g (r : ℂ) = q)
    (h2 : ∀ p ∈ paired, g p ≠ 0 ∧ g (conj p) = conj (g p)) :
    ∃ q : ℝ, 0 < q ∧ rootProd g lone paired = q := by
  have a1 : ∃ q : ℝ, 0 < q ∧ (lone.map fun r : ℝ => g r).prod = q := by
    clear h2
    induction lone with
    | nil => exact ⟨1, one_pos, by simp⟩
    | cons r l ih =>
      obtain ⟨q, hq, e⟩ := ih fun r hr => h1 r (List.mem_cons_of_mem _ hr)
      obtain ⟨q', hq', e'⟩ := h1 r (by simp)
      exact ⟨q' * q, mul_pos hq' hq, by rw [List.map_cons, List.prod_cons, e, e']; push_cast; rfl⟩
  have a2 : ∃ q : ℝ, 0 < q ∧ (paired.map fun p => g p * g (conj p)).prod = q := by
    clear h1 a1
    induction paired with
    | nil => exact ⟨1, one_pos, by simp⟩
    | cons p l ih =>
      obtain ⟨q, hq, e⟩ := ih fun r hr => h2 r (List.mem_cons_of_mem _ hr)
      obtain ⟨n, c⟩ := h2 p (by simp)
      refine ⟨Complex.normSq (g p) * q, mul_pos (Complex.normSq_pos.2 n) hq, ?_⟩
      rw [List.map_cons, List.prod_cons, e, c, Complex.mul_conj]; push_cast; rfl
  obtain ⟨q1, p1, e1⟩ := a1
  obtain ⟨q2, p2, e2⟩ := a2
  exact ⟨q1 * q2, mul_pos p1 p2, by rw [rootProd, e1, e2]; push_cast; rfl⟩

theorem rootProd_neg (g : ℂ → ℂ) (lone : List ℝ) (paired : List ℂ) :
    rootProd (fun r => -g r) lone paired = (-1) ^ (lone.length + 2 * paired.length) * rootProd g lone paired := by
  rw [← rootProd_const, ← rootProd_mul]
  congr 1
  funext r; ring

theorem eval_eq (f : PZ) (s : ℂ) : f.eval s
    = f.gain * rootProd (fun r => r - s) f.loneZeros f.pairedZeros /
      rootProd (fun r => r - s) f.lonePoles f.pairedPoles := by
  have d1 : ∀ (l : List ℝ) (r : ℂ), l.foldl (fun (r : ℂ) (p : ℝ) => r / ((p : ℂ) - s)) r
      = r / (l.map fun p : ℝ => (p : ℂ) - s).prod := by
    intro l
    induction l with
    | nil => intro r; simp
    | cons p l ih => intro r; rw [List.foldl_cons, ih, List.map_cons, List.prod_cons, div_div]
  have d2 : ∀ (l : List ℂ) (r : ℂ), l.foldl (fun r p => r / ((p - s) * (conj p - s))) r
      = r / (l.map fun p => (p - s) * (conj p - s)).prod := by
    intro l
    induction l with
    | nil => intro r; simp
    | cons p l ih => intro r; rw [List.foldl_cons, ih, List.map_cons, List.prod_cons, div_div]
  have m1 : ∀ (l : List ℝ) (r : ℂ), l.foldl (fun (r : ℂ) (z : ℝ) => r * ((z : ℂ) - s)) r
      = r * (l.map fun p : ℝ => (p : ℂ) - s).prod := by
    intro l
    induction l with
    | nil => intro r; simp
    | cons p l ih => intro r; rw [List.foldl_cons, ih, List.map_cons, List.prod_cons, mul_assoc]
  have m2 : ∀ (l : List ℂ) (r : ℂ), l.foldl (fun r z => r * ((z - s) * (conj z - s))) r
      = r * (l.map fun p => (p - s) * (conj p - s)).prod := by
    intro l
    induction l with
    | nil => intro r; simp
    | cons p l ih => intro r; rw [List.foldl_cons, ih, List.map_cons, List.prod_cons, mul_assoc]
  unfold PZ.eval rootProd
  simp only []
  rw [d1, d2, m1, m2, div_div, div_mul_eq_mul_div, div_mul_eq_mul_div, mul_assoc]

/-- The system as a function of the ratio `x / y`, without dividing by `y`. -/
noncomputable def hom (f : PZ) (x y : ℂ) : ℂ :=
  f.gain * rootProd (fun r => x - r * y) f.loneZeros f.pairedZeros * y ^ f.relativeDegree.toNat /
    rootProd (fun r => x - r * y) f.lonePoles f.pairedPoles

theorem analog_eq (f : PZ) (s : ℂ) : analogSystem f s
    = f.gain * rootProd (fun r => s - r) f.loneZeros f.pairedZeros /
      rootProd (fun r => s - r) f.lonePoles f.pairedPoles := by
  unfold analogSystem
  rw [zeros, poles, rootProd_eq, rootProd_eq]

theorem digital_eq (f : PZ) (z : ℂ) : digitalSystem f z
    = f.gain * rootProd (fun r => 1 - r / z) f.loneZeros f.pairedZeros /
      rootProd (fun r => 1 - r / z) f.lonePoles f.pairedPoles := by
  unfold digitalSystem
  rw [zeros, poles, rootProd_eq, rootProd_eq]

theorem degree_split {f : PZ} (h : 0 ≤ f.relativeDegree) :
    f.polesDegree = f.zerosDegree + f.relativeDegree.toNat := by
  unfold PZ.relativeDegree at *
  omega

theorem hom_eq_analog (f : PZ) (h : 0 ≤ f.relativeDegree) (x y : ℂ) (hy : y ≠ 0) :
    hom f x y = analogSystem f (x / y) := by
  have key : ∀ lone paired, rootProd (fun r => x - r * y) lone paired
      = y ^ (lone.length + 2 * paired.length) * rootProd (fun r => x / y - r) lone paired := by
    intro lone paired
    rw [← rootProd_const, ← rootProd_mul]
    congr 1
    funext r
    field_simp
  have hd := degree_split h
  unfold PZ.polesDegree PZ.zerosDegree at hd
  rw [hom, analog_eq, key, key, hd]
  have hp := pow_ne_zero (f.loneZeros.length + 2 * f.pairedZeros.length + f.relativeDegree.toNat) hy
  rw [show ∀ a b c d : ℂ, a * (b * c) * d = (b * d) * (a * c) by intros; ring, ← pow_add,
    mul_div_mul_left _ _ hp]

theorem sub_pos_prod {K : ℝ} {lone : List ℝ} {paired : List ℂ} (h1 : ∀ p ∈ lone, p < K)
    (h2 : ∀ p ∈ paired, p ≠ K) : ∃ q : ℝ, 0 < q ∧ rootProd (fun r => (K : ℂ) - r) lone paired = q := by
  apply rootProd_pos
  · intro r hr
    exact ⟨K - r, sub_pos.2 (h1 r hr), by push_cast; rfl⟩
  · intro p hp
    exact ⟨sub_ne_zero.2 (h2 p hp).symm, by simp⟩

theorem map_prod {K : ℝ} {z : ℂ} (hz : z ≠ 0) {lone : List ℝ} {paired : List ℂ} (h1 : ∀ p ∈ lone, p < K)
    (h2 : ∀ p ∈ paired, p ≠ K) :
    rootProd (fun r => 1 - r / z) (lone.map fun p => (K + p) / (K - p)) (paired.map fun p => ((K : ℂ) + p) / (K - p)) *
      (z ^ (lone.length + 2 * paired.length) * rootProd (fun r => (K : ℂ) - r) lone paired)
      = rootProd (fun r => K * (z - 1) - r * (z + 1)) lone paired := by
  rw [rootProd_map (fun r => 1 - r / z) (fun p => ((K : ℂ) + p) / (K - p)) (fun p => (K + p) / (K - p))
    (by intro r; push_cast; rfl) (by intro p; simp), ← rootProd_const, ← rootProd_mul, ← rootProd_mul]
  have key : ∀ r : ℂ, r ≠ K → (1 - (K + r) / (K - r) / z) * (z * (K - r)) = K * (z - 1) - r * (z + 1) := by
    intro r hr
    have : (K : ℂ) - r ≠ 0 := sub_ne_zero.2 hr.symm
    field_simp
    ring
  apply rootProd_congr
  · intro r hr
    exact key r (by exact_mod_cast (h1 r hr).ne)
  · intro p hp
    refine ⟨key p (h2 p hp), key _ ?_⟩
    intro h
    apply h2 p hp
    have := congrArg conj h
    simpa using this

/-- The bilinear transform of poles and zeros. -/
theorem bilinear_hom {K : ℝ} {f : PZ} (h : Proper K f) (z : ℂ) (hz : z ≠ 0) :
    digitalSystem (f.bilinear K) z = hom f (K * (z - 1)) (z + 1) := by
  obtain ⟨qz, pz, ez⟩ := sub_pos_prod h.loneZeros h.pairedZeros
  obtain ⟨qp, pp, ep⟩ := sub_pos_prod h.lonePoles h.pairedPoles
  have mz := map_prod hz h.loneZeros h.pairedZeros
  have mp := map_prod hz h.lonePoles h.pairedPoles
  have hd := degree_split h.degree
  unfold PZ.polesDegree PZ.zerosDegree at hd
  rw [ez] at mz
  rw [ep, hd] at mp
  have hgain : ((f.bilinear K).gain : ℂ) * qp = f.gain * qz := by
    have : (f.bilinear K).gain = f.gain * qz / qp := by
      show 1 * ‖f.eval K‖ = _
      rw [eval_eq]
      have neg : ∀ lone paired, rootProd (fun r => r - (K : ℂ)) lone paired
          = (-1) ^ (lone.length + 2 * paired.length) * rootProd (fun r => (K : ℂ) - r) lone paired := by
        intro lone paired
        rw [← rootProd_neg]
        congr 1; funext r; ring
      rw [neg, neg, ez, ep]
      simp only [norm_div, norm_mul, norm_pow, norm_neg, norm_one, one_pow, one_mul, Complex.norm_real,
        Real.norm_eq_abs, abs_of_nonneg h.gain, abs_of_pos pz, abs_of_pos pp]
    rw [this]
    push_cast
    have : (qp : ℂ) ≠ 0 := by exact_mod_cast pp.ne'
    field_simp
  rw [digital_eq, hom]
  have hsplit : rootProd (fun r => 1 - r / z) (f.bilinear K).loneZeros (f.bilinear K).pairedZeros
      = rootProd (fun r => 1 - r / z) (f.loneZeros.map fun p => (K + p) / (K - p))
          (f.pairedZeros.map fun p => ((K : ℂ) + p) / (K - p)) * (1 + 1 / z) ^ f.relativeDegree.toNat := by
    unfold rootProd PZ.bilinear
    rw [List.map_append, List.prod_append, List.map_replicate, List.prod_replicate]
    have : (1 : ℂ) - ((-1 : ℝ) : ℂ) / z = 1 + 1 / z := by push_cast; ring
    dsimp only
    rw [this]
    ring
  rw [hsplit, ← mz, ← mp]
  show ((f.bilinear K).gain : ℂ) * _ / rootProd (fun r => 1 - r / z) (f.lonePoles.map fun p => (K + p) / (K - p))
      (f.pairedPoles.map fun p => ((K : ℂ) + p) / (K - p)) = _
  generalize rootProd (fun r => 1 - r / z) (f.lonePoles.map fun p => (K + p) / (K - p))
      (f.pairedPoles.map fun p => ((K : ℂ) + p) / (K - p)) = D
  generalize rootProd (fun r => 1 - r / z) (f.loneZeros.map fun p => (K + p) / (K - p))
      (f.pairedZeros.map fun p => ((K : ℂ) + p) / (K - p)) = N
  have hqp : (qp : ℂ) ≠ 0 := by exact_mod_cast pp.ne'
  have h1z : (1 : ℂ) + 1 / z = (z + 1) / z := by field_simp
  rw [h1z, div_pow, pow_add]
  by_cases hD : D = 0
  · subst hD; simp
  have hg : ((f.bilinear K).gain : ℂ) = f.gain * qz / qp := by
    rw [← hgain]; field_simp
  rw [hg]
  field_simp
  ring

/-! ### Frequency maps -/

theorem map_lone {g : ℂ → ℂ} (h : ∀ p, g (conj p) = conj (g p)) (r : ℝ) : g (r : ℂ) = ((g r).re : ℝ) := by
  have := h r
  rw [Complex.conj_ofReal] at this
  exact (Complex.conj_eq_iff_re.1 this.symm).symm

theorem map_rootProd {g : ℂ → ℂ} (h : ∀ p, g (conj p) = conj (g p)) (φ : ℂ → ℂ) (lone : List ℝ) (paired : List ℂ) :
    rootProd φ (lone.map fun p : ℝ => (g p).re) (paired.map g) = rootProd (fun r => φ (g r)) lone paired :=
  rootProd_map φ g (fun p : ℝ => (g p).re) (map_lone h) h lone paired

theorem mapFrequency_degree (f : PZ) (g : ℂ → ℂ) : (f.mapFrequency g).relativeDegree = f.relativeDegree := by
  simp [PZ.relativeDegree, PZ.polesDegree, PZ.zerosDegree, PZ.mapFrequency]

/-- The mapped prototype of `LowpassCoefficients`. -/
noncomputable def lowpassAnalog (proto : PZ) (w : ℝ) : PZ :=
  let m := proto.mapFrequency fun s => (w : ℂ) * s
  { m with gain := m.gain * w ^ proto.relativeDegree }

theorem lowpassAnalog_degree (f : PZ) (w : ℝ) : (lowpassAnalog f w).relativeDegree = f.relativeDegree :=
  mapFrequency_degree f _

theorem lowpassAnalog_hom {f : PZ} (hd : 0 ≤ f.relativeDegree) (w : ℝ) (x y : ℂ) :
    hom (lowpassAnalog f w) x y = hom f x (w * y) := by
  have hc : ∀ p : ℂ, (w : ℂ) * conj p = conj (w * p) := by intro p; simp
  unfold hom
  rw [lowpassAnalog_degree]
  show ((f.gain * w ^ f.relativeDegree : ℝ) : ℂ) *
      rootProd _ (f.loneZeros.map fun p : ℝ => ((w : ℂ) * p).re) (f.pairedZeros.map fun s => (w : ℂ) * s) * _ /
      rootProd _ (f.lonePoles.map fun p : ℝ => ((w : ℂ) * p).re) (f.pairedPoles.map fun s => (w : ℂ) * s) = _
  rw [map_rootProd hc, map_rootProd hc]
  have e : ∀ lone paired, rootProd (fun r => x - w * r * y) lone paired
      = rootProd (fun r => x - r * (w * y)) lone paired := by
    intro lone paired
    congr 1; funext r; ring
  rw [e, e, mul_pow]
  have hz : w ^ f.relativeDegree = w ^ f.relativeDegree.toNat := by
    rw [← zpow_natCast, Int.toNat_of_nonneg hd]
  rw [hz]
  push_cast
  ring

theorem Spec.Prototype.neg_prod {lone : List ℝ} {paired : List ℂ} (h1 : ∀ p ∈ lone, p < 0)
    (h2 : ∀ p ∈ paired, p ≠ 0) : ∃ q : ℝ, 0 < q ∧ rootProd (fun r => -r) lone paired = q := by
  apply rootProd_pos
  · intro r hr
    exact ⟨-r, by linarith [h1 r hr], by push_cast; rfl⟩
  · intro p hp
    exact ⟨neg_ne_zero.2 (h2 p hp), by simp⟩

theorem ne_of_re {p : ℂ} {K : ℝ} (hp : p.re < K) : p ≠ K := by
  intro h; rw [h] at hp; simp at hp

theorem lowpassAnalog_proper {f : PZ} (h : Prototype f) {w K : ℝ} (hw : 0 ≤ w) (hK : 0 < K) :
    Proper K (lowpassAnalog f w) where
  gain := mul_nonneg h.gain (zpow_nonneg hw _)
  degree := by rw [lowpassAnalog_degree]; exact h.degree
  lonePoles := by
    intro p hp
    obtain ⟨q, hq, rfl⟩ := List.mem_map.1 hp
    have := h.lonePoles q hq
    simp only [Complex.mul_re, Complex.ofReal_re, Complex.ofReal_im, mul_zero, sub_zero]
    nlinarith
  loneZeros := by
    intro p hp
    obtain ⟨q, hq, rfl⟩ := List.mem_map.1 hp
    have := h.loneZeros q hq
    simp only [Complex.mul_re, Complex.ofReal_re, Complex.ofReal_im, mul_zero, sub_zero]
    nlinarith
  pairedPoles := by
    intro p hp
    obtain ⟨q, hq, rfl⟩ := List.mem_map.1 hp
    have := h.pairedPoles q hq
    apply ne_of_re
    simp only [Complex.mul_re, Complex.ofReal_re, Complex.ofReal_im, zero_mul, sub_zero]
    nlinarith
  pairedZeros := by
    intro p hp
    obtain ⟨q, hq, rfl⟩ := List.mem_map.1 hp
    have := (h.pairedZeros q hq).1
    apply ne_of_re
    simp only [Complex.mul_re, Complex.ofReal_re, Complex.ofReal_im, zero_mul, sub_zero]
    nlinarith

/-- The mapped prototype of `HighpassCoefficients`. -/
noncomputable def highpassAnalog (proto : PZ) (w : ℝ) : PZ :=
  let m := proto.mapFrequency fun s => (w : ℂ) / s
  { m with
    loneZeros := m.loneZeros ++ List.replicate m.relativeDegree.toNat 0
    gain := ‖proto.eval 0‖ }

theorem Spec.Prototype.eval_zero {f : PZ} (h : Prototype f) :
    ∃ qz qp : ℝ, 0 < qz ∧ 0 < qp ∧ rootProd (fun r => -r) f.loneZeros f.pairedZeros = qz ∧
      rootProd (fun r => -r) f.lonePoles f.pairedPoles = qp ∧ ‖f.eval 0‖ = f.gain * qz / qp := by
  obtain ⟨qz, pz, ez⟩ := Prototype.neg_prod h.loneZeros fun p hp => (h.pairedZeros p hp).2
  obtain ⟨qp, pp, ep⟩ := Prototype.neg_prod h.lonePoles fun p hp =>
    (by intro h0; have := h.pairedPoles p hp; rw [h0] at this; simp at this)
  refine ⟨qz, qp, pz, pp, ez, ep, ?_⟩
  rw [eval_eq]
  have neg : ∀ lone paired, rootProd (fun r => r - (0 : ℂ)) lone paired
      = (-1) ^ (lone.length + 2 * paired.length) * rootProd (fun r => -r) lone paired := by
    intro lone paired
    rw [← rootProd_neg]
    congr 1; funext r; ring
  rw [neg, neg, ez, ep]
  simp only [norm_div, norm_mul, norm_pow, norm_neg, norm_one, one_pow, one_mul, Complex.norm_real,
    Real.norm_eq_abs, abs_of_nonneg h.gain, abs_of_pos pz, abs_of_pos pp]

theorem highpassAnalog_degree {f : PZ} (h : 0 ≤ f.relativeDegree) (w : ℝ) :
    (highpassAnalog f w).relativeDegree = 0 := by
  have := mapFrequency_degree f fun s => (w : ℂ) / s
  unfold highpassAnalog
  simp only [PZ.relativeDegree, PZ.polesDegree, PZ.zerosDegree, List.length_append, List.length_replicate] at *
  omega

theorem highpassAnalog_hom {f : PZ} (h : Prototype f) (w : ℝ) (x y : ℂ) :
    hom (highpassAnalog f w) x y = hom f (w * y) x := by
  have hc : ∀ p : ℂ, (w : ℂ) / conj p = conj (w / p) := by intro p; simp
  obtain ⟨qz, qp, pz, pp, ez, ep, eg⟩ := h.eval_zero
  unfold hom
  rw [highpassAnalog_degree h.degree]
  have e : ∀ (lone : List ℝ) (paired : List ℂ), (∀ p ∈ lone, p < 0) → (∀ p ∈ paired, p ≠ 0) →
      rootProd (fun r => -r) lone paired * rootProd (fun r => x - w / r * y) lone paired
      = rootProd (fun r => w * y - r * x) lone paired := by
    intro lone paired h1 h2
    rw [← rootProd_mul]
    have key : ∀ r : ℂ, r ≠ 0 → -r * (x - w / r * y) = w * y - r * x := by
      intro r hr; field_simp; ring
    apply rootProd_congr
    · intro r hr; exact key r (by exact_mod_cast (h1 r hr).ne)
    · intro p hp
      exact ⟨key p (h2 p hp), key _ (by simpa using h2 p hp)⟩
  have e1 := e f.loneZeros f.pairedZeros h.loneZeros fun p hp => (h.pairedZeros p hp).2
  have e2 := e f.lonePoles f.pairedPoles h.lonePoles fun p hp =>
    (by intro h0; have := h.pairedPoles p hp; rw [h0] at this; simp at this)
  rw [← e1, ← e2, ez, ep]
  have s1 : rootProd (fun r => x - r * y) (highpassAnalog f w).loneZeros (highpassAnalog f w).pairedZeros
      = rootProd (fun r => x - w / r * y) f.loneZeros f.pairedZeros * x ^ f.relativeDegree.toNat := by
    show rootProd (fun r => x - r * y) ((f.loneZeros.map fun p : ℝ => ((w : ℂ) / p).re) ++ List.replicate
        (f.mapFrequency fun s => (w : ℂ) / s).relativeDegree.toNat 0) (f.pairedZeros.map fun s => (w : ℂ) / s) = _
    rw [mapFrequency_degree, ← map_rootProd hc (fun r => x - r * y)]
    unfold rootProd
    rw [List.map_append, List.prod_append, List.map_replicate, List.prod_replicate]
    simp only [Complex.ofReal_zero, zero_mul, sub_zero]
    ring
  have s2 : rootProd (fun r => x - r * y) (highpassAnalog f w).lonePoles (highpassAnalog f w).pairedPoles
      = rootProd (fun r => x - w / r * y) f.lonePoles f.pairedPoles :=
    map_rootProd hc (fun r => x - r * y) f.lonePoles f.pairedPoles
  rw [s1, s2]
  have : ((highpassAnalog f w).gain : ℂ) = f.gain * qz / qp := by
    show ((‖f.eval 0‖ : ℝ) : ℂ) = _
    rw [eg]; push_cast; rfl
  rw [this]
  have hqp : (qp : ℂ) ≠ 0 := by exact_mod_cast pp.ne'
  simp only [Int.toNat_zero, pow_zero, mul_one]
  by_cases hD : rootProd (fun r => x - w / r * y) f.lonePoles f.pairedPoles = 0
  · rw [hD]; simp
  field_simp

theorem div_re_nonpos {p : ℂ} {w : ℝ} (hw : 0 ≤ w) (hp : p.re ≤ 0) : ((w : ℂ) / p).re ≤ 0 := by
  rw [Complex.div_re]
  simp only [Complex.ofReal_re, Complex.ofReal_im, zero_mul, zero_div, add_zero]
  exact div_nonpos_of_nonpos_of_nonneg (mul_nonpos_of_nonneg_of_nonpos hw hp) (Complex.normSq_nonneg p)

theorem highpassAnalog_proper {f : PZ} (h : Prototype f) {w K : ℝ} (hw : 0 ≤ w) (hK : 0 < K) :
    Proper K (highpassAnalog f w) where
  gain := norm_nonneg _
  degree := by rw [highpassAnalog_degree h.degree]
  lonePoles := by
    intro p hp
    obtain ⟨q, hq, rfl⟩ := List.mem_map.1 hp
    exact lt_of_le_of_lt (div_re_nonpos hw (by simpa using (h.lonePoles q hq).le)) hK
  loneZeros := by
    intro p hp
    rcases List.mem_append.1 hp with hp | hp
    · obtain ⟨q, hq, rfl⟩ := List.mem_map.1 hp
      exact lt_of_le_of_lt (div_re_nonpos hw (by simpa using (h.loneZeros q hq).le)) hK
    · rw [List.eq_of_mem_replicate hp]; exact hK
  pairedPoles := by
    intro p hp
    obtain ⟨q, hq, rfl⟩ := List.mem_map.1 hp
    exact ne_of_re (lt_of_le_of_lt (div_re_nonpos hw (h.pairedPoles q hq).le) hK)
  pairedZeros := by
    intro p hp
    obtain ⟨q, hq, rfl⟩ := List.mem_map.1 hp
    exact ne_of_re (lt_of_le_of_lt (div_re_nonpos hw (h.pairedZeros q hq).1) hK)

end Verif.PoleZero
