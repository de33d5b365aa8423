import Verif.Proof.IirDesign4
import Verif.Proof.Chebyshev

/-!
# The Butterworth and Chebyshev prototypes
-/

namespace Verif.IirDesign
open Verif.PortableComplex Spec
open scoped ComplexConjugate
open Verif.PoleZero (chebAngle prod_angles cheb_norm pow_add_pow_pairs)

theorem entries_writeList (a : ℕ → CD) {l : List CD} {n : ℕ} (h : l.length = n) :
    entries (writeList a l) n = l.map CD.val := by
  rw [entries_eq, map_getD a h]

theorem rootPairs_length (n : ℕ) (root : ℝ → CD) : (rootPairs n root).length = 2 * (n / 2) := by
  unfold rootPairs
  rw [List.length_flatMap]
  simp
  ring

/-- A lone real root for odd orders, and the pairs. -/
noncomputable def full (n : ℕ) (root : ℝ → CD) : List CD := (if n % 2 = 0 then [] else [root 0]) ++ rootPairs n root

theorem full_length (n : ℕ) (root : ℝ → CD) : (full n root).length = n := by
  unfold full
  rw [List.length_append, rootPairs_length]
  split_ifs with h
  · simp; omega
  · simp; omega

theorem theta_bounds {n k : ℕ} (hk : k < n / 2) : Real.pi / (2 * n) ≤ theta n (k + 1) ∧
    theta n (k + 1) ≤ Real.pi / 2 - Real.pi / (2 * n) := by
  have hn : (0 : ℝ) < n := by
    have : 0 < n := by omega
    exact_mod_cast this
  have hpi := Real.pi_pos
  unfold theta
  have key : ∀ t : ℝ, 1 / 2 ≤ t → t ≤ (n - 1) / 2 → Real.pi / (2 * n) ≤ Real.pi / n * t ∧
      Real.pi / n * t ≤ Real.pi / 2 - Real.pi / (2 * n) := by
    intro t h1 h2
    have e1 : Real.pi / (2 * n) = Real.pi / n * (1 / 2) := by field_simp
    have e2 : Real.pi / 2 - Real.pi / (2 * n) = Real.pi / n * ((n - 1) / 2) := by field_simp
    have h3 : 0 ≤ Real.pi / n := by positivity
    rw [e2, e1]
    exact ⟨mul_le_mul_of_nonneg_left h1 h3, mul_le_mul_of_nonneg_left h2 h3⟩
  apply key
  · split_ifs
    · push_cast
      linarith [(Nat.cast_nonneg k : (0 : ℝ) ≤ k)]
    · push_cast
      linarith [(Nat.cast_nonneg k : (0 : ℝ) ≤ k)]
  · split_ifs with h
    · have : 2 * (k + 1) ≤ n := by omega
      have h' : (2 : ℝ) * (k + 1) ≤ n := by exact_mod_cast this
      push_cast
      linarith
    · have : 2 * (k + 1) + 1 ≤ n := by omega
      have h' : (2 : ℝ) * (k + 1) + 1 ≤ n := by exact_mod_cast this
      push_cast
      linarith

/-- The angles that occur. -/
theorem full_mem {n : ℕ} {root : ℝ → CD} (hc : ∀ t, PortableComplex.conj (root t) = root (-t)) {z : CD}
    (hz : z ∈ full n root) : ∃ t, z = root t ∧ |t| < Real.pi / 2 ∧ (t = 0 ∨ Real.pi / (2 * n) ≤ |t|) ∧
      |t| ≤ Real.pi / 2 - Real.pi / (2 * n) := by
  have hpi := Real.pi_pos
  unfold full at hz
  rw [List.mem_append] at hz
  rcases hz with hz | hz
  · split_ifs at hz with h
    · simp at hz
    · have hn : (1 : ℝ) ≤ n := by
        have : 1 ≤ n := by omega
        exact_mod_cast this
      refine ⟨0, List.mem_singleton.1 hz, by simp [hpi], Or.inl rfl, ?_⟩
      rw [abs_zero, sub_nonneg]
      apply div_le_div_of_nonneg_left hpi.le two_pos
      linarith
  · unfold rootPairs at hz
    rw [List.mem_flatMap] at hz
    obtain ⟨k, hk, hz⟩ := hz
    have hk := List.mem_range.1 hk
    obtain ⟨b1, b2⟩ := theta_bounds hk
    have hn : (0 : ℝ) < n := by
      have : 0 < n := by omega
      exact_mod_cast this
    have hpos : 0 < Real.pi / (2 * n) := by positivity
    have habs : |theta n (k + 1)| = theta n (k + 1) := abs_of_nonneg (by linarith)
    rcases List.mem_cons.1 hz with rfl | hz
    · exact ⟨-theta n (k + 1), hc _, by rw [abs_neg, habs]; linarith, Or.inr (by rw [abs_neg, habs]; exact b1),
        by rw [abs_neg, habs]; exact b2⟩
    · exact ⟨theta n (k + 1), List.mem_singleton.1 hz, by rw [habs]; linarith, Or.inr (by rw [habs]; exact b1),
        by rw [habs]; exact b2⟩

theorem rootPairs_ps (n : ℕ) (root : ℝ → CD) (s : ℂ) : ps ((rootPairs n root).map CD.val) s =
    ∏ k ∈ Finset.range (n / 2), ((s - conj (root (theta n (k + 1))).val) * (s - (root (theta n (k + 1))).val)) := by
  unfold rootPairs
  generalize n / 2 = m
  induction m with
  | zero => simp
  | succ m ih =>
    rw [List.range_succ, List.flatMap_append, List.map_append, ps_append, ih, Finset.prod_range_succ]
    simp only [List.flatMap_cons, List.flatMap_nil, List.append_nil, List.map_cons, List.map_nil, ps_cons, ps_nil,
      mul_one]
    rfl

theorem full_ps {n : ℕ} (hn : 0 < n) {root : ℝ → CD} (hc : ∀ t, PortableComplex.conj (root t) = root (-t)) (s : ℂ) :
    ps ((full n root).map CD.val) s = ∏ j ∈ Finset.range n, (s - (root (chebAngle n j)).val) := by
  rw [prod_angles n hn (fun t => s - (root t).val)]
  unfold full
  rw [List.map_append, ps_append, rootPairs_ps]
  congr 1
  · rcases Nat.mod_two_eq_zero_or_one n with h | h
    · simp [h]
    · simp [h]
  · apply Finset.prod_congr rfl
    intro k _
    have e : theta n (k + 1) = Real.pi / n * ((k : ℝ) + 1 - (if n % 2 = 0 then 1 else 0) * (1 / 2)) := by
      unfold theta
      push_cast
      rfl
    rw [← e, ← hc]
    rfl

theorem rootPairs_conj (n : ℕ) (root : ℝ → CD) :
    (((rootPairs n root).map CD.val).map conj).Perm ((rootPairs n root).map CD.val) := by
  unfold rootPairs
  generalize n / 2 = m
  induction m with
  | zero => exact List.Perm.refl _
  | succ m ih =>
    rw [List.range_succ, List.flatMap_append, List.map_append, List.map_append]
    refine ih.append ?_
    simp only [List.flatMap_cons, List.flatMap_nil, List.append_nil, List.map_cons, List.map_nil]
    have : ∀ r : CD, (PortableComplex.conj r).val = conj r.val := fun r => rfl
    rw [this, Complex.conj_conj]
    exact List.Perm.swap _ _ _

theorem full_conj {n : ℕ} {root : ℝ → CD} (h0 : (root 0).imag = 0) :
    (((full n root).map CD.val).map conj).Perm ((full n root).map CD.val) := by
  unfold full
  rw [List.map_append, List.map_append]
  refine List.Perm.append ?_ (rootPairs_conj n root)
  split_ifs
  · exact List.Perm.refl _
  · have : conj (root 0).val = (root 0).val := Complex.conj_eq_iff_im.2 h0
    simp [this]

/-! ### What the designs need of a prototype -/

/-- A stable lowpass prototype of order `n` with the power response `H`. -/
structure Proto (f : Zpk) (n : ℕ) (H : ℝ → ℝ) : Prop where
  real : RealFilter f
  count : f.numPoles = n
  proper : f.numZeros ≤ n
  zeros_im : ∀ r ∈ zeros f, r.re = 0 ∧ r ≠ 0
  poles_left : ∀ r ∈ poles f, r.re < 0
  power : ∀ w : ℝ, ‖system f (w * Complex.I)‖ ^ 2 = H w

theorem unitDc_eq {f : Zpk} (h : ∀ p ∈ poles f, p ≠ 0) : unitDc f = 1 / ‖system f 0‖ := by
  unfold unitDc
  have h1 := zpkEval_val f ⟨0, 0⟩ (by simpa [val_real] using h)
  have h2 : PortableComplex.abs (zpkEval f ⟨0, 0⟩) = ‖(zpkEval f ⟨0, 0⟩).val‖ := abs_eq _
  rw [h2, h1, val_real, Complex.ofReal_zero]

/-- Power of the product over the roots. -/
noncomputable def nrm (L : List ℂ) (w : ℝ) : ℝ := ‖ps L (w * Complex.I)‖ ^ 2

theorem power_eq (f : Zpk) (w : ℝ) :
    ‖system f (w * Complex.I)‖ ^ 2 = f.gain ^ 2 * nrm (zeros f) w / nrm (poles f) w := by
  rw [system_eq, norm_div, norm_mul, div_pow, mul_pow, Complex.norm_real, Real.norm_eq_abs, sq_abs]
  rfl

theorem gain_sq {f : Zpk} (h : ∀ p ∈ poles f, p ≠ 0) (h1 : f.gain = 1) :
    unitDc f ^ 2 = nrm (poles f) 0 / nrm (zeros f) 0 := by
  have h2 := power_eq f 0
  rw [Complex.ofReal_zero, zero_mul, h1, one_pow, one_mul] at h2
  rw [unitDc_eq h, div_pow, one_pow, h2, one_div_div]

/-! ### Butterworth -/

noncomputable def bwRoot (t : ℝ) : CD := ⟨-Real.cos t, Real.sin t⟩

theorem bwRoot_conj (t : ℝ) : PortableComplex.conj (bwRoot t) = bwRoot (-t) := by
  simp [bwRoot, PortableComplex.conj]

theorem bw_nrm {n : ℕ} (hn : 0 < n) (w : ℝ) : nrm ((full n bwRoot).map CD.val) w = 1 + w ^ (2 * n) := by
  have hn' : (n : ℝ) ≠ 0 := by exact_mod_cast hn.ne'
  unfold nrm
  rw [full_ps hn bwRoot_conj, norm_prod, ← Finset.prod_pow]
  have h := pow_add_pow_pairs (2 * n) (by omega) (w : ℂ) (-1)
  rw [if_neg (by omega), mul_one, show 2 * n / 2 = n by omega] at h
  have e : ((1 + w ^ (2 * n) : ℝ) : ℂ) = ((∏ j ∈ Finset.range n, ‖(w : ℂ) * Complex.I - (bwRoot (chebAngle n j)).val‖ ^ 2 : ℝ) : ℂ) := by
    push_cast
    rw [add_comm]
    have h1 : ((-1 : ℂ)) ^ (2 * n) = 1 := by rw [pow_mul]; simp
    rw [h1] at h
    rw [h]
    apply Finset.prod_congr rfl
    intro j _
    have ha : Real.sin (chebAngle n j) = -Real.cos (Real.pi * (2 * j + 1) / ((2 * n : ℕ) : ℝ)) := by
      have : chebAngle n j = Real.pi * (2 * j + 1) / ((2 * n : ℕ) : ℝ) - Real.pi / 2 := by
        unfold chebAngle
        push_cast
        field_simp
      rw [this, Real.sin_sub_pi_div_two]
    have hb : ‖(w : ℂ) * Complex.I - (bwRoot (chebAngle n j)).val‖ ^ 2
        = w ^ 2 + 2 * w * Real.cos (Real.pi * (2 * j + 1) / ((2 * n : ℕ) : ℝ)) + 1 := by
      rw [← Complex.normSq_eq_norm_sq, Complex.normSq_apply]
      simp only [Complex.sub_re, Complex.sub_im, Complex.mul_re, Complex.mul_im, Complex.ofReal_re, Complex.ofReal_im,
        Complex.I_re, Complex.I_im, CD.val, bwRoot]
      rw [ha]
      have h2 := Real.cos_sq_add_sin_sq (chebAngle n j)
      rw [ha] at h2
      linear_combination h2
    have hb' := congrArg (fun x : ℝ => (x : ℂ)) hb
    push_cast at hb'
    rw [hb']
    push_cast
    ring
  exact_mod_cast e.symm

theorem cos_pos_of {t : ℝ} (h : |t| < Real.pi / 2) : 0 < Real.cos t := by
  have := abs_lt.1 h
  exact Real.cos_pos_of_mem_Ioo ⟨by linarith, by linarith⟩

theorem butterworth_proto (n : ℕ) (h1 : 1 ≤ n) (h2 : n ≤ 30) (mem : Zpk) :
    ∃ f, butterworthPrototype n mem = .ok f ∧ Proto f n (butterworth n) ∧
      zeros f = [] ∧ poles f = (full n bwRoot).map CD.val := by
  unfold butterworthPrototype
  rw [if_neg (by omega)]
  dsimp only
  rw [Int.toNat_natCast, if_neg (by unfold maxDegree; omega)]
  have hlist : (if n % 2 = 0 then ([] : List CD) else [⟨-1, 0⟩]) ++ rootPairs n (fun t => ⟨-Real.cos t, Real.sin t⟩)
      = full n bwRoot := by
    unfold full
    congr 1
    simp [bwRoot]
  rw [hlist]
  show ∃ f, Except.ok { (⟨mem.zeros, writeList mem.poles (full n bwRoot), 0, n, 1⟩ : Zpk) with
    gain := unitDc (⟨mem.zeros, writeList mem.poles (full n bwRoot), 0, n, 1⟩ : Zpk) } = Except.ok f ∧ _
  obtain ⟨z, hz⟩ : ∃ z : Zpk, z = ⟨mem.zeros, writeList mem.poles (full n bwRoot), 0, n, 1⟩ := ⟨_, rfl⟩
  rw [← hz]
  have hpz : poles z = (full n bwRoot).map CD.val := by
    rw [hz]
    exact entries_writeList _ (full_length _ _)
  have hzz : zeros z = [] := by rw [hz]; rfl
  have hleft : ∀ r ∈ poles z, r.re < 0 := by
    intro r hr
    rw [hpz] at hr
    obtain ⟨c, hc, rfl⟩ := List.mem_map.1 hr
    obtain ⟨t, rfl, ht, -⟩ := full_mem bwRoot_conj hc
    show -Real.cos t < 0
    linarith [cos_pos_of ht]
  have hne : ∀ p ∈ poles z, p ≠ 0 := by
    intro p hp h0
    have := hleft p hp
    rw [h0] at this
    simp at this
  refine ⟨_, rfl, ⟨⟨?_, ?_⟩, by rw [hz], by rw [hz]; simp, ?_, hleft, ?_⟩, hzz, hpz⟩
  · show ((zeros z).map conj).Perm (zeros z)
    rw [hzz]; exact List.Perm.refl _
  · show ((poles z).map conj).Perm (poles z)
    rw [hpz]; exact full_conj (by simp [bwRoot])
  · intro r hr
    have hr : r ∈ zeros z := hr
    rw [hzz] at hr
    simp at hr
  · intro w
    rw [power_eq]
    show unitDc z ^ 2 * nrm (zeros z) w / nrm (poles z) w = _
    rw [gain_sq hne (by rw [hz]), hzz, hpz, bw_nrm h1, bw_nrm h1]
    have : (0 : ℝ) ^ (2 * n) = 0 := zero_pow (by omega)
    rw [this, butterworth]
    simp [nrm]

end Verif.IirDesign
