import Verif.Model.PortableButterworth
import Verif.Proof.IirDesign7
import Verif.Theorems.PortableComplex

/-!
# Lemmas: second-order Butterworth designs
-/

namespace Verif.PortableButterworth
open Verif.PortableComplex Verif.IirDesign Verif.IirDesign.Spec
open scoped ComplexConjugate

theorem left_ne {K : ℝ} (hK : 0 < K) {s : ℂ} (hs : s.re < 0) : (K : ℂ) - s ≠ 0 := by
  intro h
  have := congrArg Complex.re h
  simp at this
  linarith

theorem bt_val {K : ℝ} (hK : 0 < K) {s : CD} (hs : s.real < 0) : (bilinearTransform K s).val = bl K s.val := by
  have hne : (K : ℂ) - s.val ≠ 0 := left_ne hK hs
  have hd : (K - s.real) * (K - s.real) + s.imag * s.imag ≠ 0 := by
    have : 0 < K - s.real := by linarith
    have h1 := mul_pos this this
    nlinarith [mul_self_nonneg s.imag]
  rw [bl, eq_div_iff hne]
  apply Complex.ext
  · simp only [CD.val, bilinearTransform, Complex.mul_re, Complex.sub_re, Complex.sub_im, Complex.ofReal_re,
      Complex.ofReal_im, Complex.add_re]
    rw [div_mul_eq_mul_div, div_mul_eq_mul_div, ← sub_div, div_eq_iff hd]
    ring
  · simp only [CD.val, bilinearTransform, Complex.mul_im, Complex.sub_re, Complex.sub_im, Complex.ofReal_re,
      Complex.ofReal_im, Complex.add_im]
    rw [div_mul_eq_mul_div, div_mul_eq_mul_div, ← add_div, div_eq_iff hd]
    ring

theorem abs2_mul_conj (z : CD) : ((abs2 z : ℝ) : ℂ) = z.val * conj z.val := by
  rw [Complex.mul_conj, Complex.normSq_apply]
  rfl

theorem quad_factor (p : CD) (z : ℂ) :
    z ^ 2 + ((-2 * p.real : ℝ) : ℂ) * z + ((abs2 p : ℝ) : ℂ) = (z - p.val) * (z - conj p.val) := by
  have h : ((-2 * p.real : ℝ) : ℂ) = -(p.val + conj p.val) := by
    rw [Complex.add_conj]; push_cast; simp [CD.val]
  rw [h, abs2_mul_conj]; ring

theorem stable_section {K : ℝ} (hK : 0 < K) {s : CD} (hs : s.real < 0) (z : ℂ)
    (h : z ^ 2 + ((-2 * (bilinearTransform K s).real : ℝ) : ℂ) * z + ((abs2 (bilinearTransform K s) : ℝ) : ℂ) = 0) :
    ‖z‖ < 1 := by
  rw [quad_factor] at h
  have hb : ‖(bilinearTransform K s).val‖ < 1 := by
    rw [bt_val hK hs]; exact bl_disc hK hs
  rcases mul_eq_zero.1 h with h | h
  · rwa [sub_eq_zero.1 h]
  · rw [sub_eq_zero.1 h, Complex.norm_conj]; exact hb

/-- The denominator of a section at the point that corresponds to `σ`. -/
theorem den_eq {K : ℝ} (hK : 0 < K) {s : CD} (hs : s.real < 0) {z σ : ℂ} (hz : z ≠ 0) (hσ : (K : ℂ) - σ ≠ 0)
    (e : z = bl K σ) :
    1 + ((-2 * (bilinearTransform K s).real : ℝ) : ℂ) * z⁻¹ + ((abs2 (bilinearTransform K s) : ℝ) : ℂ) * z⁻¹ ^ 2
      = (2 * K) ^ 2 * ((σ - s.val) * (σ - conj s.val)) / ((K - σ) ^ 2 * (((K : ℂ) - s.val) * (K - conj s.val))) * z⁻¹ ^ 2 := by
  have hne : (K : ℂ) - s.val ≠ 0 := left_ne hK hs
  have hne' : (K : ℂ) - conj s.val ≠ 0 := left_ne hK (by rw [Complex.conj_re]; exact hs)
  have h1 := quad_factor (bilinearTransform K s) z
  rw [bt_val hK hs, bl_conj] at h1
  have h2 : 1 + ((-2 * (bilinearTransform K s).real : ℝ) : ℂ) * z⁻¹ + ((abs2 (bilinearTransform K s) : ℝ) : ℂ) * z⁻¹ ^ 2
      = (z ^ 2 + ((-2 * (bilinearTransform K s).real : ℝ) : ℂ) * z + ((abs2 (bilinearTransform K s) : ℝ) : ℂ)) * z⁻¹ ^ 2 := by
    field_simp
  rw [h2, h1]
  congr 1
  rw [e, bl, bl, bl]
  field_simp
  ring

/-- The point of the unit circle with angle `θ`. -/
theorem point {θ K : ℝ} (hK : 0 < K) (hθ : |θ| < Real.pi) :
    Complex.exp (θ * Complex.I) ≠ 0 ∧ (K : ℂ) - ((K * Real.tan (θ / 2) : ℝ) : ℂ) * Complex.I ≠ 0 ∧
    Complex.exp (θ * Complex.I) = bl K (((K * Real.tan (θ / 2) : ℝ) : ℂ) * Complex.I) := by
  obtain ⟨h0, h1, h2⟩ := circle hθ K
  have hK' : (K : ℂ) ≠ 0 := by exact_mod_cast hK.ne'
  have h3 : Complex.exp (θ * Complex.I) + 1 ≠ 0 := fun h => h1 (eq_neg_of_add_eq_zero_left h)
  have h4 : (K : ℂ) - ((K * Real.tan (θ / 2) : ℝ) : ℂ) * Complex.I ≠ 0 := by
    rw [← h2]
    intro h
    have : (K : ℂ) * 2 = 0 := by
      field_simp at h
      linear_combination h
    exact mul_ne_zero hK' two_ne_zero this
  refine ⟨h0, h4, ?_⟩
  rw [bl, eq_div_iff h4, ← h2]
  field_simp
  ring

theorem sqrt2 : (√2 : ℝ) * √2 = 2 ∧ (0 : ℝ) < √2 := ⟨Real.mul_self_sqrt (by norm_num), Real.sqrt_pos.2 (by norm_num)⟩

/-- The Butterworth pole pair with cutoff `w`. -/
theorem pair_eq {w : ℝ} (σ : ℂ) :
    (σ - (CD.val ⟨-(1 / √2) * w, 1 / √2 * w⟩)) * (σ - conj (CD.val ⟨-(1 / √2) * w, 1 / √2 * w⟩))
      = σ ^ 2 + √2 * w * σ + w ^ 2 := by
  rw [← quad_factor]
  obtain ⟨h, h0⟩ := sqrt2
  have e1 : -2 * (-(1 / √2) * w) = √2 * w := by
    field_simp
    linear_combination w * h.symm
  have e2 : abs2 ⟨-(1 / √2) * w, 1 / √2 * w⟩ = w ^ 2 := by
    unfold abs2
    field_simp
    linear_combination w ^ 2 * h.symm
  dsimp only
  rw [e1, e2]
  push_cast
  ring

theorem quartic (w Ω : ℝ) : ‖((Ω : ℂ) * Complex.I) ^ 2 + √2 * w * (Ω * Complex.I) + w ^ 2‖ ^ 2 = w ^ 4 + Ω ^ 4 := by
  obtain ⟨h, -⟩ := sqrt2
  have e : ((Ω : ℂ) * Complex.I) ^ 2 + √2 * w * (Ω * Complex.I) + w ^ 2
      = ⟨w ^ 2 - Ω ^ 2, √2 * w * Ω⟩ := by
    apply Complex.ext
    · simp [pow_two]; ring
    · simp [pow_two]
  rw [e, ← Complex.normSq_eq_norm_sq, Complex.normSq_apply]
  dsimp only
  linear_combination w ^ 2 * Ω ^ 2 * h

/-- A section with a double zero at Nyquist and unit gain at DC. -/
theorem low_section {K : ℝ} (hK : 0 < K) {s : CD} (hs : s.real < 0) {θ : ℝ} (hθ : |θ| < Real.pi) {g : ℝ}
    (hg : g = 0.25 * abs2 ⟨(bilinearTransform K s).real - 1, (bilinearTransform K s).imag⟩) :
    response [⟨g, 2 * g, g, -2 * (bilinearTransform K s).real, abs2 (bilinearTransform K s)⟩] θ
      = (s.val * conj s.val) / ((((K * Real.tan (θ / 2) : ℝ) : ℂ) * Complex.I - s.val)
          * (((K * Real.tan (θ / 2) : ℝ) : ℂ) * Complex.I - conj s.val)) := by
  obtain ⟨z0, zσ, ze⟩ := point hK hθ
  have hK' : (K : ℂ) ≠ 0 := by exact_mod_cast hK.ne'
  have hd := den_eq hK hs z0 zσ ze
  have hbt := bt_val hK hs
  have hne : (K : ℂ) - s.val ≠ 0 := left_ne hK hs
  have hne' : (K : ℂ) - conj s.val ≠ 0 := left_ne hK (by rw [Complex.conj_re]; exact hs)
  have hg : (g : ℂ) = (s.val * conj s.val) / (((K : ℂ) - s.val) * ((K : ℂ) - conj s.val)) := by
    rw [hg, Complex.ofReal_mul, abs2_mul_conj]
    have : CD.val ⟨(bilinearTransform K s).real - 1, (bilinearTransform K s).imag⟩ = bl K s.val - 1 := by
      rw [← hbt]; apply Complex.ext <;> simp [CD.val]
    rw [this, map_sub, map_one, bl_conj, bl, bl]
    field_simp
    push_cast
    ring
  unfold response transfer
  rw [List.map_singleton, List.prod_singleton]
  dsimp only
  rw [hd]
  generalize ((K * Real.tan (θ / 2) : ℝ) : ℂ) * Complex.I = σ at *
  have hnum : (g : ℂ) + ((2 * g : ℝ) : ℂ) * (Complex.exp (θ * Complex.I))⁻¹ + g * (Complex.exp (θ * Complex.I))⁻¹ ^ 2
      = g * ((2 * (K : ℂ)) / ((K : ℂ) - σ)) ^ 2 * (Complex.exp (θ * Complex.I))⁻¹ ^ 2 := by
    have : Complex.exp (θ * Complex.I) + 1 = 2 * (K : ℂ) / ((K : ℂ) - σ) := by
      rw [ze, bl]; field_simp; ring
    rw [← this]
    push_cast
    field_simp
    ring
  rw [hnum, hg]
  field_simp

/-- A section with a double zero at DC and unit gain at Nyquist. -/
theorem high_section {K : ℝ} (hK : 0 < K) {s : CD} (hs : s.real < 0) {θ : ℝ} (hθ : |θ| < Real.pi) {g : ℝ}
    (hg : g = -0.25 * (1 + 2 * (bilinearTransform K s).real + abs2 (bilinearTransform K s))) :
    response [⟨-g, 2 * g, -g, -2 * (bilinearTransform K s).real, abs2 (bilinearTransform K s)⟩] θ
      = (((K * Real.tan (θ / 2) : ℝ) : ℂ) * Complex.I) ^ 2 / ((((K * Real.tan (θ / 2) : ℝ) : ℂ) * Complex.I - s.val)
          * (((K * Real.tan (θ / 2) : ℝ) : ℂ) * Complex.I - conj s.val)) := by
  obtain ⟨z0, zσ, ze⟩ := point hK hθ
  have hK' : (K : ℂ) ≠ 0 := by exact_mod_cast hK.ne'
  have hd := den_eq hK hs z0 zσ ze
  have hbt := bt_val hK hs
  have hne : (K : ℂ) - s.val ≠ 0 := left_ne hK hs
  have hne' : (K : ℂ) - conj s.val ≠ 0 := left_ne hK (by rw [Complex.conj_re]; exact hs)
  have hg : (g : ℂ) = -(K ^ 2 / (((K : ℂ) - s.val) * ((K : ℂ) - conj s.val))) := by
    have h1 := quad_factor (bilinearTransform K s) (-1)
    rw [hbt, bl_conj, bl, bl] at h1
    have h2 : ((1 + 2 * (bilinearTransform K s).real + abs2 (bilinearTransform K s) : ℝ) : ℂ)
        = (-1) ^ 2 + ((-2 * (bilinearTransform K s).real : ℝ) : ℂ) * -1 + ((abs2 (bilinearTransform K s) : ℝ) : ℂ) := by
      push_cast; ring
    rw [hg, Complex.ofReal_mul, h2, h1]
    field_simp
    push_cast
    ring
  unfold response transfer
  rw [List.map_singleton, List.prod_singleton]
  dsimp only
  rw [hd]
  generalize ((K * Real.tan (θ / 2) : ℝ) : ℂ) * Complex.I = σ at *
  have hnum : ((-g : ℝ) : ℂ) + ((2 * g : ℝ) : ℂ) * (Complex.exp (θ * Complex.I))⁻¹
      + ((-g : ℝ) : ℂ) * (Complex.exp (θ * Complex.I))⁻¹ ^ 2
      = -g * ((2 * σ) / ((K : ℂ) - σ)) ^ 2 * (Complex.exp (θ * Complex.I))⁻¹ ^ 2 := by
    have : Complex.exp (θ * Complex.I) - 1 = 2 * σ / ((K : ℂ) - σ) := by
      rw [ze, bl]; field_simp; ring
    rw [← this]
    push_cast
    field_simp
    ring
  rw [hnum, hg]
  field_simp

/-- Two sections with double zeros at DC and at Nyquist. -/
theorem band_section {K : ℝ} (hK : 0 < K) {s t : CD} (hs : s.real < 0) (ht : t.real < 0) {θ : ℝ} (hθ : |θ| < Real.pi)
    {g b : ℝ} (hg : g = b * K * (b * K) / abs2 ⟨s.real - K, s.imag⟩ / abs2 ⟨t.real - K, t.imag⟩) :
    response [⟨g, -2 * g, g, -2 * (bilinearTransform K s).real, abs2 (bilinearTransform K s)⟩,
        ⟨1, 2, 1, -2 * (bilinearTransform K t).real, abs2 (bilinearTransform K t)⟩] θ
      = b ^ 2 * (((K * Real.tan (θ / 2) : ℝ) : ℂ) * Complex.I) ^ 2
        / (((((K * Real.tan (θ / 2) : ℝ) : ℂ) * Complex.I - s.val) * (((K * Real.tan (θ / 2) : ℝ) : ℂ) * Complex.I - t.val))
          * ((((K * Real.tan (θ / 2) : ℝ) : ℂ) * Complex.I - conj s.val)
            * (((K * Real.tan (θ / 2) : ℝ) : ℂ) * Complex.I - conj t.val))) := by
  obtain ⟨z0, zσ, ze⟩ := point hK hθ
  have hK' : (K : ℂ) ≠ 0 := by exact_mod_cast hK.ne'
  have hds := den_eq hK hs z0 zσ ze
  have hdt := den_eq hK ht z0 zσ ze
  have hs1 : (K : ℂ) - s.val ≠ 0 := left_ne hK hs
  have hs2 : (K : ℂ) - conj s.val ≠ 0 := left_ne hK (by rw [Complex.conj_re]; exact hs)
  have ht1 : (K : ℂ) - t.val ≠ 0 := left_ne hK ht
  have ht2 : (K : ℂ) - conj t.val ≠ 0 := left_ne hK (by rw [Complex.conj_re]; exact ht)
  have hab : ∀ u : CD, ((abs2 ⟨u.real - K, u.imag⟩ : ℝ) : ℂ) = ((K : ℂ) - u.val) * ((K : ℂ) - conj u.val) := by
    intro u
    rw [abs2_mul_conj]
    have : CD.val ⟨u.real - K, u.imag⟩ = u.val - K := by apply Complex.ext <;> simp [CD.val]
    rw [this, map_sub, Complex.conj_ofReal]
    ring
  have hg : (g : ℂ) = b ^ 2 * K ^ 2 / ((((K : ℂ) - s.val) * ((K : ℂ) - conj s.val)) * (((K : ℂ) - t.val) * ((K : ℂ) - conj t.val))) := by
    rw [hg, Complex.ofReal_div, Complex.ofReal_div, hab, hab]
    push_cast
    field_simp
  unfold response transfer
  simp only [List.map_cons, List.map_nil, List.prod_cons, List.prod_nil, mul_one]
  rw [hds, hdt]
  generalize ((K * Real.tan (θ / 2) : ℝ) : ℂ) * Complex.I = σ at *
  have hnum : (g : ℂ) + ((-2 * g : ℝ) : ℂ) * (Complex.exp (θ * Complex.I))⁻¹ + g * (Complex.exp (θ * Complex.I))⁻¹ ^ 2
      = g * ((2 * σ) / ((K : ℂ) - σ)) ^ 2 * (Complex.exp (θ * Complex.I))⁻¹ ^ 2 := by
    have : Complex.exp (θ * Complex.I) - 1 = 2 * σ / ((K : ℂ) - σ) := by
      rw [ze, bl]; field_simp; ring
    rw [← this]
    push_cast
    field_simp
    ring
  have hnum2 : ((1 : ℝ) : ℂ) + ((2 : ℝ) : ℂ) * (Complex.exp (θ * Complex.I))⁻¹
      + ((1 : ℝ) : ℂ) * (Complex.exp (θ * Complex.I))⁻¹ ^ 2
      = ((2 * (K : ℂ)) / ((K : ℂ) - σ)) ^ 2 * (Complex.exp (θ * Complex.I))⁻¹ ^ 2 := by
    have : Complex.exp (θ * Complex.I) + 1 = 2 * (K : ℂ) / ((K : ℂ) - σ) := by
      rw [ze, bl]; field_simp; ring
    rw [← this]
    push_cast
    field_simp
    ring
  rw [hnum, hnum2, hg]
  field_simp

theorem pole_left {w c : ℝ} (hw : 0 < w) (hc : 0 < c) : (⟨-(c / √2) * w, c / √2 * w⟩ : CD).real < 0 := by
  have : 0 < c / √2 * w := by have := sqrt2.2; positivity
  show -(c / √2) * w < 0
  linarith

/-- The shifted poles of the bandpass are the roots of `s² - q b s + l h`. -/
theorem shifted {b c : ℝ} (hb : 0 < b) (hc : 0 < c) {p : CD} {q : ℂ} (hp : p.val = q * b / 2) (hq : q.re < 0) :
    (add p (sqrt (sub (square p) ⟨c, 0⟩))).real < 0 ∧ (sub p (sqrt (sub (square p) ⟨c, 0⟩))).real < 0 ∧
    ∀ σ : ℂ, (σ - (add p (sqrt (sub (square p) ⟨c, 0⟩))).val) * (σ - (sub p (sqrt (sub (square p) ⟨c, 0⟩))).val)
      = σ ^ 2 - q * b * σ + c := by
  have hsq := (C49_sqrt (sub (square p) ⟨c, 0⟩)).1
  have hcv : CD.val ⟨c, 0⟩ = (c : ℂ) := rfl
  rw [(C49_ring (square p) ⟨c, 0⟩ 0).2.2.2.1, (C49_ring p p 0).2.2.2.2.2.2.1, hcv] at hsq
  have key : ∀ σ : ℂ, (σ - (add p (sqrt (sub (square p) ⟨c, 0⟩))).val) * (σ - (sub p (sqrt (sub (square p) ⟨c, 0⟩))).val)
      = σ ^ 2 - q * b * σ + c := by
    intro σ
    rw [(C49_ring p (sqrt (sub (square p) ⟨c, 0⟩)) 0).2.2.1, (C49_ring p (sqrt (sub (square p) ⟨c, 0⟩)) 0).2.2.2.1]
    linear_combination -hsq - 2 * σ * hp
  refine ⟨?_, ?_, key⟩
  · exact ((quad_left hb hc (by rw [← key, sub_self, zero_mul])).1).2 hq
  · exact ((quad_left (p := (sub p (sqrt (sub (square p) ⟨c, 0⟩))).val) hb hc (by rw [← key, sub_self, mul_zero])).1).2 hq

end Verif.PortableButterworth
