import Verif.Proof.IirElliptic

/-!
# The elliptic prototype of the portable library: its roots are those of the C++ prototype
-/

namespace Verif.IirElliptic
open Verif.PortableComplex Verif.IirDesign Verif.IirDesign.Spec Verif.Elliptic Verif.Elliptic.Spec Spec
open Verif.EllipticDesign (node modK degreeKp_eq node_bounds proto v0)
open Verif.EllipticDesign.Spec (elliptic)
open scoped ComplexConjugate

variable {k : ℝ} {N : ℕ}

theorem pairs_length (n : ℕ) (root : ℕ → CD) : (pairs n root).length = 2 * (n / 2) := by
  unfold pairs
  rw [List.length_flatMap]
  simp
  ring

theorem pairs_val {n : ℕ} {root : ℕ → CD} {p : ℕ → ℂ} (h : ∀ i < n / 2, (root i).val = p i) :
    (pairs n root).map CD.val = (List.range (n / 2)).flatMap fun i => [conj (p i), p i] := by
  unfold pairs
  rw [List.map_flatMap]
  apply List.flatMap_congr
  intro i hi
  rw [← h i (List.mem_range.1 hi)]
  rfl

theorem pairs_perm (n : ℕ) (p : ℕ → ℂ) : ((List.range n).flatMap fun i => [conj (p i), p i]).Perm
    (((List.range n).map p).flatMap fun z => [z, conj z]) := by
  rw [List.flatMap_map]
  apply List.Perm.flatMap_left
  intro i _
  exact List.Perm.swap _ _ _

theorem pairs_closed (n : ℕ) (p : ℕ → ℂ) : (((List.range n).flatMap fun i => [conj (p i), p i]).map conj).Perm
    ((List.range n).flatMap fun i => [conj (p i), p i]) := by
  rw [List.map_flatMap]
  apply List.Perm.flatMap_left
  intro i _
  simp only [List.map_cons, List.map_nil, Complex.conj_conj]
  exact List.Perm.swap _ _ _

theorem pairs_mem {n : ℕ} {p : ℕ → ℂ} {z : ℂ} (h : z ∈ (List.range n).flatMap fun i => [conj (p i), p i]) :
    ∃ i < n, z = conj (p i) ∨ z = p i := by
  obtain ⟨i, hi, h⟩ := List.mem_flatMap.1 h
  refine ⟨i, List.mem_range.1 hi, ?_⟩
  simpa using h

/-- The zeros and poles. -/
theorem assemble_shape (h : Mod k) (hN : 1 ≤ N) {ε v : ℝ} (h0 : 0 < v * K (k ^ 2))
    (hV : v * K (k ^ 2) < K (1 - k ^ 2)) (mem : Zpk) :
    zeros (assemble exact N ε k (K (k ^ 2)) v mem) =
      (List.range (N / 2)).flatMap (fun i => [conj (⟨0, 1 / (k * zero k N (N - 1 - i))⟩ : ℂ), ⟨0, 1 / (k * zero k N (N - 1 - i))⟩]) ∧
    poles (assemble exact N ε k (K (k ^ 2)) v mem) =
      (if N % 2 = 1 then [(((Complex.I * rootW k N (v * K (k ^ 2)) (N / 2)).re : ℝ) : ℂ)] else []) ++
      (List.range (N / 2)).flatMap (fun i => [conj (Complex.I * rootW k N (v * K (k ^ 2)) (N - 1 - i)),
        Complex.I * rootW k N (v * K (k ^ 2)) (N - 1 - i)]) := by
  have hVa : |v * K (k ^ 2)| < K (1 - k ^ 2) := by rwa [abs_of_pos h0]
  have hz : ∀ i < N / 2, (zeroAt exact N k (K (k ^ 2)) i).val = (⟨0, 1 / (k * zero k N (N - 1 - i))⟩ : ℂ) := by
    intro i hi
    obtain ⟨a, b, c⟩ := node_bounds h hi
    have e : (jacobiCD exact ⟨(2 * i + 1) * K (k ^ 2) / N, 0⟩ (k * k)).real = zero k N (N - 1 - i) := by
      have := cd_real h.par a b
      rw [c] at this
      rw [← pow_two]
      exact this
    rw [zeroAt, e]
    rfl
  have hp : ∀ i < N / 2, (poleAt exact N k (K (k ^ 2)) v i).val = Complex.I * rootW k N (v * K (k ^ 2)) (N - 1 - i) := by
    intro i hi
    obtain ⟨a, b, c⟩ := node_bounds h hi
    have e : (jacobiCD exact ⟨(2 * i + 1) * K (k ^ 2) / N, -v * K (k ^ 2)⟩ (k * k)).val = rootW k N (v * K (k ^ 2)) (N - 1 - i) := by
      have := cd_val h.par a b hVa
      rw [c] at this
      rw [← pow_two, neg_mul]
      exact this
    have e2 : ∀ z : CD, (PortableComplex.mul ⟨0, 1⟩ z).val = Complex.I * z.val := by
      intro z
      apply Complex.ext
      · simp [PortableComplex.mul, CD.val]
      · simp [PortableComplex.mul, CD.val]
    rw [poleAt, e2, e]
  constructor
  · show entries (writeList mem.zeros (pairs N (zeroAt exact N k (K (k ^ 2))))) (N - N % 2) = _
    rw [entries_writeList _ (by rw [pairs_length]; omega), pairs_val hz]
  · show entries (writeList mem.poles ((if N % 2 = 1 then [(⟨-(jacobiSN exact ⟨0, v * K (k ^ 2)⟩ (k * k)).imag, 0⟩ : CD)] else [])
      ++ pairs N (poleAt exact N k (K (k ^ 2)) v))) N = _
    rw [entries_writeList, List.map_append, pairs_val hp]
    · congr 1
      split_ifs with ho
      · have e := congrArg Complex.im (sn_val ⟨0, v * K (k ^ 2)⟩ (k * k))
        have hza : zarg k N (N / 2) = 0 := by
          have : ((N / 2 : ℕ) : ℝ) = (N - 1) / 2 := by
            have : N = 2 * (N / 2) + 1 := by omega
            have := congrArg (fun n : ℕ => (n : ℝ)) this
            push_cast at this
            linarith
          rw [zarg, this]
          ring
        have e2 : (Complex.I * rootW k N (v * K (k ^ 2)) (N / 2)).re = -(jacobiSN exact ⟨0, v * K (k ^ 2)⟩ (k * k)).imag := by
          rw [rootW, hza, Complex.I_mul_re, pow_two, neg_inj]
          rw [← pow_two k] at e ⊢
          exact e.symm
        rw [e2]
        rfl
      · rfl
    · rw [List.length_append, pairs_length]
      split_ifs with ho
      · simp; omega
      · simp; omega

/-- The prototype has the response of the elliptic filter. -/
theorem elliptic_proto (hN : 1 ≤ N) (h30 : N ≤ 30) {rp rs : ℝ} (hp : 0 < rp) (hps : rp < rs) (mem : Zpk) :
    ∃ f, prototype exact N rp rs mem = .ok f ∧ Proto f N (elliptic N (modK N rp rs) (EllipticDesign.epsilon rp)) ∧
      f.numZeros = N - N % 2 ∧
      (zeros f).Perm (PoleZero.Spec.zeros (proto N rp rs)) ∧ (poles f).Perm (PoleZero.Spec.poles (proto N rp rs)) := by
  have hk := EllipticDesign.modK_mod hN hp hps
  obtain ⟨f1, f2, f3, f4⟩ := EllipticDesign.v0_facts hN hp hps
  obtain ⟨s1, s2, s3, s4, g, g0, g1, g2⟩ := EllipticDesign.assemble_shape (ε := EllipticDesign.epsilon rp) hk hN f1 f2
  obtain ⟨hz, hpo⟩ := assemble_shape (ε := EllipticDesign.epsilon rp) hk hN f1 f2 mem
  have hpr := EllipticDesign.proto_prototype hN hp hps
  have hpow := EllipticDesign.proto_power hN hp hps
  have permz : (zeros (assemble exact N (EllipticDesign.epsilon rp) (modK N rp rs) (K (modK N rp rs ^ 2)) (v0 N rp rs) mem)).Perm
      (PoleZero.Spec.zeros (proto N rp rs)) := by
    unfold proto PoleZero.Spec.zeros
    rw [hz, s1, s2]
    exact pairs_perm _ _
  have permp : (poles (assemble exact N (EllipticDesign.epsilon rp) (modK N rp rs) (K (modK N rp rs ^ 2)) (v0 N rp rs) mem)).Perm
      (PoleZero.Spec.poles (proto N rp rs)) := by
    unfold proto PoleZero.Spec.poles
    rw [hpo, s3, s4]
    apply List.Perm.append _ (pairs_perm _ _)
    split_ifs
    · exact List.Perm.refl _
    · exact List.Perm.refl _
  have hleft : ∀ r ∈ poles (assemble exact N (EllipticDesign.epsilon rp) (modK N rp rs) (K (modK N rp rs ^ 2)) (v0 N rp rs) mem),
      r.re < 0 := by
    intro r hr
    have him : ∀ j < N, (Complex.I * rootW (modK N rp rs) N (v0 N rp rs * K (modK N rp rs ^ 2)) j).re < 0 := by
      intro j hj
      have := rootW_im_pos hk hN f1 f2 hj
      simpa using this
    rw [hpo] at hr
    rcases List.mem_append.1 hr with hr | hr
    · split_ifs at hr
      · rw [List.mem_singleton.1 hr, Complex.ofReal_re]
        exact him _ (by omega)
      · simp at hr
    · obtain ⟨i, hi, h | h⟩ := pairs_mem hr
      · rw [h, Complex.conj_re]; exact him _ (by omega)
      · rw [h]; exact him _ (by omega)
  have himag : ∀ r ∈ zeros (assemble exact N (EllipticDesign.epsilon rp) (modK N rp rs) (K (modK N rp rs ^ 2)) (v0 N rp rs) mem),
      r.re = 0 ∧ r ≠ 0 := by
    intro r hr
    rw [hz] at hr
    obtain ⟨i, hi, h⟩ := pairs_mem hr
    have hz0 := EllipticDesign.zero_upper hk hN hi
    have hne : 1 / (modK N rp rs * zero (modK N rp rs) N (N - 1 - i)) ≠ 0 := by
      have := mul_pos hk.1 hz0
      positivity
    have hne2 : (⟨0, 1 / (modK N rp rs * zero (modK N rp rs) N (N - 1 - i))⟩ : ℂ) ≠ 0 := by
      intro h0
      exact hne (congrArg Complex.im h0)
    rcases h with h | h
    · rw [h]
      exact ⟨by rw [Complex.conj_re], (map_ne_zero _).2 hne2⟩
    · rw [h]
      exact ⟨rfl, hne2⟩
  refine ⟨_, prototype_eq hN h30 hp hps mem, ⟨⟨?_, ?_⟩, rfl, Nat.sub_le _ _, himag, hleft, ?_⟩, rfl, permz, permp⟩
  · rw [hz]; exact pairs_closed _ _
  · rw [hpo, List.map_append]
    apply List.Perm.append _ (pairs_closed _ _)
    split_ifs
    · rw [List.map_singleton, Complex.conj_ofReal]
    · exact List.Perm.refl _
  · intro w
    rw [← hpow w, power_eq, PoleZero.power_eq]
    have en : ∀ {L M : List ℂ} (_ : L.Perm M) (w : ℝ), nrm L w = nrm M w := by
      intro L M h w
      unfold nrm
      rw [ps_perm h]
    rw [en permz, en permp]
    congr 2
    unfold proto
    rw [g1]
    have hne : ∀ p ∈ poles (assemble exact N (EllipticDesign.epsilon rp) (modK N rp rs) (K (modK N rp rs ^ 2)) (v0 N rp rs) mem),
        p ≠ 0 := by
      intro p hp h0
      have := hleft p hp
      rw [h0] at this
      simp at this
    obtain ⟨z, hzp, hzz, hz1, hzg⟩ : ∃ z : Zpk,
        poles z = poles (assemble exact N (EllipticDesign.epsilon rp) (modK N rp rs) (K (modK N rp rs ^ 2)) (v0 N rp rs) mem) ∧
        zeros z = zeros (assemble exact N (EllipticDesign.epsilon rp) (modK N rp rs) (K (modK N rp rs ^ 2)) (v0 N rp rs) mem) ∧
        z.gain = 1 ∧
        (assemble exact N (EllipticDesign.epsilon rp) (modK N rp rs) (K (modK N rp rs ^ 2)) (v0 N rp rs) mem).gain =
          if N % 2 = 0 then unitDc z / √(1 + EllipticDesign.epsilon rp * EllipticDesign.epsilon rp) else unitDc z := by
      refine ⟨{ assemble exact N (EllipticDesign.epsilon rp) (modK N rp rs) (K (modK N rp rs ^ 2)) (v0 N rp rs) mem with
        gain := 1 }, rfl, rfl, rfl, rfl⟩
    have hg := gain_sq (f := z) (by rw [hzp]; exact hne) hz1
    rw [hzp, hzz, en permz, en permp] at hg
    have hg2 : unitDc z ^ 2 = g ^ 2 := by
      rw [hg, g2]
      rfl
    rw [hzg, ← pow_two]
    split_ifs
    · rw [div_pow, div_pow, hg2]
    · exact hg2

end Verif.IirElliptic
