import Verif.Spec.IirElliptic
import Verif.Proof.EllipticResponse3
import Verif.Proof.IirDesign6
import Verif.Proof.IirDesign9

/-!
# The elliptic prototype of the portable library
-/

namespace Verif.IirElliptic
open Verif.PortableComplex Verif.IirDesign Verif.IirDesign.Spec Verif.Elliptic Verif.Elliptic.Spec Spec
open Verif.EllipticDesign (node modK degreeKp_eq node_bounds proto v0)
open Verif.EllipticDesign.Spec (elliptic)
open scoped ComplexConjugate

variable {k : ℝ} {N : ℕ}

/-! ### The functions on `ComplexDouble` -/

theorem sin_val' (z : CD) : (PortableComplex.sin z).val = Complex.sin z.val := (sin_parts z.real z.imag).symm

theorem cos_val' (z : CD) : (PortableComplex.cos z).val = Complex.cos z.val := (cos_parts z.real z.imag).symm

theorem am_val (u : CD) (m : ℝ) : (exact.am u m).val = casin (Sn u.val m) := rfl

theorem sn_val (u : CD) (m : ℝ) : (jacobiSN exact u m).val = Sn u.val m := by
  rw [jacobiSN, sin_val', am_val, (casin_sin _).1]

theorem sqC_unique {z s : ℂ} (h : s ^ 2 = z) (hs : 0 < s.re) : sqC z = s := by
  rcases sq_eq_sq_iff_eq_or_eq_neg.1 ((prims_c.sq_sq z).trans h.symm) with e | e
  · exact e
  · have h1 := prims_c.sq_re z
    rw [e, Complex.neg_re] at h1
    linarith

theorem cd_val {m : ℝ} (h : Par m) {u V : ℝ} (h0 : 0 < u) (h1 : u < K m) (hV : |V| < K (1 - m)) :
    (jacobiCD exact ⟨u, -V⟩ m).val = Sn (vert (K m - u) V) m := by
  have hV' : |-V| < K (1 - m) := by rwa [abs_neg]
  have hu : |u| < K m := by rwa [abs_of_pos h0]
  have e : (⟨u, -V⟩ : CD).val = vert u (-V) := rfl
  have e2 : (PortableComplex.sub ⟨1, 0⟩ (PortableComplex.mulReal (PortableComplex.square
      (PortableComplex.sin (exact.am ⟨u, -V⟩ m))) m)).val = 1 - m * Sn (vert u (-V)) m ^ 2 := by
    have : ∀ z : CD, (PortableComplex.sub ⟨1, 0⟩ (PortableComplex.mulReal (PortableComplex.square z) m)).val =
        1 - m * z.val ^ 2 := by
      intro z
      apply Complex.ext
      · simp [PortableComplex.sub, PortableComplex.mulReal, PortableComplex.square, CD.val, pow_two]; ring
      · simp [PortableComplex.sub, PortableComplex.mulReal, PortableComplex.square, CD.val, pow_two]; ring
    rw [this, sin_val', am_val, (casin_sin _).1, e]
  rw [jacobiCD, Verif.Elliptic.div_val, cos_val', am_val, (casin_sin _).2, e, Verif.Elliptic.sqrt_val, e2,
    csqrt_unique (Cn_sq h hV') (Cn_re_pos h hu hV'), sqC_unique (Dn_sq h hV') (Dn_re_pos h hV'), Cd_eq h h0 h1 hV]

theorem cd_real {m : ℝ} (h : Par m) {u : ℝ} (h0 : 0 < u) (h1 : u < K m) :
    (jacobiCD exact ⟨u, 0⟩ m).real = sn (K m - u) m := by
  have := cd_val h h0 h1 (V := 0) (by rw [abs_zero]; exact K_pos h.compl)
  rw [neg_zero, Sn_vert_zero h] at this
  have := congrArg Complex.re this
  rwa [Complex.ofReal_re] at this

theorem exact_K {m : ℝ} (h : Par m) : exact.K m = some (K m) := if_pos ⟨h.1.le, h.2⟩

theorem asin_imag (x : ℝ) : (PortableComplex.asin ⟨0, x⟩).val = (Real.arsinh x : ℂ) * Complex.I := by
  have hS : S (⟨0, x⟩ : ℂ) := by
    have : (1 - (⟨0, x⟩ : ℂ) ^ 2) = ((1 + x ^ 2 : ℝ) : ℂ) := by
      apply Complex.ext
      · simp [pow_two]
      · simp [pow_two]
    show 1 - (⟨0, x⟩ : ℂ) ^ 2 ∈ Complex.slitPlane
    rw [this]
    exact Complex.ofReal_mem_slitPlane.2 (by positivity)
  rw [Verif.Elliptic.asin_val]
  exact (prims_c.as_eq hS).trans (casin_imag x)

theorem exact_inverse {m : ℝ} (h : Par m) (x : ℝ) :
    (inverseJacobiSN exact ⟨0, x⟩ m).imag = F (Real.arctan x) (1 - m) := by
  show (Fc (PortableComplex.asin ⟨0, x⟩).val m).im = _
  rw [asin_imag, Fc_imag h, Real.sinh_arsinh]
  simp

theorem degree_eq {k1 : ℝ} (h : Mod k1) (hN : 1 ≤ N) : degreeKp exact N k1 (K (k1 ^ 2)) = modulus k1 N := by
  rw [← degreeKp_eq h hN, degreeKp, EllipticDesign.degreeKp]
  have : ∀ i : ℕ, (jacobiSN exact ⟨(2 * i + 1) * K (k1 ^ 2) / N, 0⟩ (k1 * k1)).real =
      (EllipticDesign.jacobiSN EllipticDesign.Spec.exact (node (K (k1 ^ 2)) N i) (k1 ^ 2)).re := by
    intro i
    have e := sn_val ⟨(2 * i + 1) * K (k1 ^ 2) / N, 0⟩ (k1 * k1)
    have e2 := congrArg Complex.re e
    rw [EllipticDesign.exact_sn, ← pow_two]
    rw [← pow_two] at e2
    exact e2
  simp only [this]

theorem epsilon_same (r : ℝ) : IirDesign.epsilon r = EllipticDesign.epsilon r := by
  rw [IirDesign.epsilon, EllipticDesign.epsilon, Real.rpow_def_of_pos (by norm_num)]
  congr 3
  ring

theorem prototype_eq (hN : 1 ≤ N) (h30 : N ≤ 30) {rp rs : ℝ} (hp : 0 < rp) (hps : rp < rs) (mem : Zpk) :
    prototype exact N rp rs mem =
      .ok (assemble exact N (EllipticDesign.epsilon rp) (modK N rp rs) (K (modK N rp rs ^ 2)) (v0 N rp rs) mem) := by
  have hk1 := EllipticDesign.selectivity hp hps
  have hk := EllipticDesign.modK_mod hN hp hps
  have hkp := modulus_mod hk1.compl hN
  have e1 : √(1 - EllipticDesign.epsilon rp / EllipticDesign.epsilon rs * (EllipticDesign.epsilon rp / EllipticDesign.epsilon rs)) =
      comp (EllipticDesign.epsilon rp / EllipticDesign.epsilon rs) := by
    rw [comp, pow_two]
  have e3 : √(1 - modulus (comp (EllipticDesign.epsilon rp / EllipticDesign.epsilon rs)) N *
      modulus (comp (EllipticDesign.epsilon rp / EllipticDesign.epsilon rs)) N) = modK N rp rs := by
    rw [← pow_two]; rfl
  unfold prototype
  rw [if_neg (by omega)]
  simp only [Int.toNat_natCast]
  rw [if_neg (by unfold maxDegree; omega), if_neg (by push Not; exact ⟨hp, hp.trans hps⟩)]
  rw [epsilon_same, epsilon_same, e1, ← pow_two, ← pow_two, exact_K hk1.par, exact_K hk1.compl.par,
    if_neg (not_lt.2 hk1.par.2.le)]
  simp only []
  rw [degree_eq hk1.compl hN, if_neg (by rw [← pow_two]; exact not_lt.2 hkp.par.2.le), e3, ← pow_two, exact_K hk.par]
  simp only []
  rw [exact_inverse hk1.par]
  rfl

end Verif.IirElliptic
