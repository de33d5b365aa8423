import Verif.Proof.IirDesign6
import Verif.Proof.PoleZero6

/-!
# The Chebyshev prototypes of the C++ designs
-/

namespace Verif.PoleZero
open Verif.IirDesign (ps nrm theta full rootPairs c1Root c2Root c2Zero ps_append ps_cons ps_nil)
open Verif.PortableComplex (CD)
open Polynomial.Chebyshev (T)
open Verif.BiquadCascade Verif.FilterDesign Verif.LinearFilter.Spec Spec
open scoped ComplexConjugate

theorem indices_pos (N : ℕ) :
    (chebyshevIndices N).filter (0 < ·) = (List.range (N / 2)).map fun j => N - 1 - 2 * j := by
  unfold chebyshevIndices
  rcases Nat.even_or_odd' N with ⟨m, rfl | rfl⟩
  · have e1 : (2 * m + 1) / 2 = m := by omega
    have e2 : 2 * m / 2 = m := by omega
    rw [e1, e2, List.filter_eq_self.2]
    intro a ha
    obtain ⟨j, hj, rfl⟩ := List.mem_map.1 ha
    have := List.mem_range.1 hj
    simp
    omega
  · have e1 : (2 * m + 1 + 1) / 2 = m + 1 := by omega
    have e2 : (2 * m + 1) / 2 = m := by omega
    rw [e1, e2, List.range_succ, List.map_append, List.filter_append, List.filter_eq_self.2]
    · simp
    · intro a ha
      obtain ⟨j, hj, rfl⟩ := List.mem_map.1 ha
      have := List.mem_range.1 hj
      simp
      omega

theorem indices_zero {N : ℕ} : (chebyshevIndices N).filter (· = 0) = if N % 2 = 0 then [] else [0] := by
  unfold chebyshevIndices
  rcases Nat.even_or_odd' N with ⟨m, rfl | rfl⟩
  · have e1 : (2 * m + 1) / 2 = m := by omega
    rw [e1, if_pos (by omega), List.filter_eq_nil_iff]
    intro a ha
    obtain ⟨j, hj, rfl⟩ := List.mem_map.1 ha
    have := List.mem_range.1 hj
    simp
    omega
  · have e1 : (2 * m + 1 + 1) / 2 = m + 1 := by omega
    rw [e1, if_neg (by omega), List.range_succ, List.map_append, List.filter_append, List.filter_eq_nil_iff.2]
    · simp
    · intro a ha
      obtain ⟨j, hj, rfl⟩ := List.mem_map.1 ha
      have := List.mem_range.1 hj
      simp
      omega

/-- The angle of the index in the loop. -/
noncomputable def angle (N i : ℕ) : ℝ := Real.pi * i / (2 * N)

theorem angle_theta {N j : ℕ} (hj : j < N / 2) : angle N (N - 1 - 2 * j) = theta N (N / 2 - 1 - j + 1) := by
  have hN : (N : ℝ) ≠ 0 := by
    have : N ≠ 0 := by omega
    exact_mod_cast this
  unfold angle theta
  have e : N / 2 - 1 - j + 1 = N / 2 - j := by omega
  rw [e, Nat.cast_sub (by omega)]
  rcases Nat.even_or_odd' N with ⟨m, rfl | rfl⟩
  · have e2 : 2 * m / 2 = m := by omega
    rw [if_pos (by omega), e2, Nat.cast_sub (by omega), Nat.cast_sub (by omega)]
    push_cast at hN ⊢
    field_simp
    ring
  · have e2 : (2 * m + 1) / 2 = m := by omega
    rw [if_neg (by omega), e2, Nat.cast_sub (by omega), Nat.cast_sub (by omega)]
    push_cast at hN ⊢
    field_simp
    ring

theorem ps_pairs (m : ℕ) (g : ℕ → ℂ) (s : ℂ) : ps (((List.range m).map g).flatMap fun p => [p, conj p]) s
    = ∏ j ∈ Finset.range m, ((s - conj (g j)) * (s - g j)) := by
  induction m with
  | zero => simp
  | succ m ih =>
    rw [List.range_succ, List.map_append, List.flatMap_append, ps_append, ih, Finset.prod_range_succ]
    simp only [List.map_cons, List.map_nil, List.flatMap_cons, List.flatMap_nil, List.append_nil, ps_cons, ps_nil, mul_one]
    ring

/-- The pairs of the loop have the roots of `rootPairs`. -/
theorem ps_rootPairs {N : ℕ} {root : ℝ → CD} {g : ℕ → ℂ}
    (hg : ∀ i, g i = (root (angle N i)).val ∨ g i = conj (root (angle N i)).val) (s : ℂ) :
    ps ((((chebyshevIndices N).filter (0 < ·)).map g).flatMap fun p => [p, conj p]) s
      = ps ((rootPairs N root).map CD.val) s := by
  rw [indices_pos, List.map_map, ps_pairs, Verif.IirDesign.rootPairs_ps,
    ← Finset.prod_range_reflect (fun k => (s - conj (root (theta N (k + 1))).val) * (s - (root (theta N (k + 1))).val))]
  apply Finset.prod_congr rfl
  intro j hj
  rw [Function.comp_apply, ← angle_theta (Finset.mem_range.1 hj)]
  rcases hg (N - 1 - 2 * j) with e | e
  · rw [e]
  · rw [e, Complex.conj_conj, mul_comm]

theorem angle_zero (N : ℕ) : angle N 0 = 0 := by simp [angle]

theorem ps_full {N : ℕ} {root : ℝ → CD} (h0 : (root 0).imag = 0) {g : ℕ → ℂ}
    (hg : ∀ i, g i = (root (angle N i)).val ∨ g i = conj (root (angle N i)).val) (s : ℂ) :
    ps ((((chebyshevIndices N).filter (· = 0)).map fun i => (g i).re).map (fun p : ℝ => (p : ℂ)) ++
      (((chebyshevIndices N).filter (0 < ·)).map g).flatMap fun p => [p, conj p]) s
      = ps ((full N root).map CD.val) s := by
  rw [ps_append, ps_rootPairs hg, full, List.map_append, ps_append, indices_zero]
  congr 1
  split_ifs with h
  · rfl
  · have e : ((g 0).re : ℂ) = (root 0).val := by
      have h1 := hg 0
      rw [angle_zero] at h1
      have hr : conj (root 0).val = (root 0).val := Complex.conj_eq_iff_im.2 h0
      rw [hr, or_self] at h1
      rw [h1]
      exact Complex.conj_eq_iff_re.1 hr
    simp [e]

theorem analog_ps (f : PZ) (s : ℂ) : analogSystem f s = f.gain * ps (zeros f) s / ps (poles f) s := rfl

theorem power_eq (f : PZ) (w : ℝ) :
    ‖analogSystem f (w * Complex.I)‖ ^ 2 = f.gain ^ 2 * nrm (zeros f) w / nrm (poles f) w := by
  rw [analog_ps, norm_div, norm_mul, div_pow, mul_pow, Complex.norm_real, Real.norm_eq_abs, sq_abs]
  rfl

theorem norm_eval_zero (f : PZ) : ‖f.eval 0‖ = ‖analogSystem f 0‖ := by
  have neg : ∀ lone paired, rootProd (fun r => r - (0 : ℂ)) lone paired
      = (-1) ^ (lone.length + 2 * paired.length) * rootProd (fun r => 0 - r) lone paired := by
    intro lone paired
    rw [← rootProd_neg]
    congr 1; funext r; ring
  rw [eval_eq, analog_eq, neg, neg]
  simp only [norm_div, norm_mul, norm_pow, norm_neg, norm_one, one_pow, one_mul]

theorem normalize_gain_sq {f : PZ} (h1 : f.gain = 1) :
    f.normalizeGain.gain ^ 2 = nrm (poles f) 0 / nrm (zeros f) 0 := by
  have h2 := power_eq f 0
  rw [Complex.ofReal_zero, zero_mul, h1, one_pow, one_mul] at h2
  show (1 / ‖f.eval 0‖) ^ 2 = _
  rw [norm_eval_zero, div_pow, one_pow, h2, one_div_div]

theorem angle_bounds {N i : ℕ} (hi : i ∈ (chebyshevIndices N).filter (0 < ·)) :
    0 < N ∧ Real.pi / (2 * N) ≤ angle N i ∧ angle N i < Real.pi / 2 := by
  rw [indices_pos] at hi
  obtain ⟨j, hj, rfl⟩ := List.mem_map.1 hi
  have hj := List.mem_range.1 hj
  rw [angle_theta hj]
  obtain ⟨b1, b2⟩ := Verif.IirDesign.theta_bounds (n := N) (k := N / 2 - 1 - j) (by omega)
  have hN : 0 < N := by omega
  have hN' : (0 : ℝ) < N := by exact_mod_cast hN
  have := Real.pi_pos
  have : 0 < Real.pi / (2 * N) := by positivity
  exact ⟨hN, b1, by linarith⟩

theorem margin_sinh {N : ℕ} (hN : 0 < N) (h45 : N ≤ 45000) {μ t : ℝ} (hμ : 0 < μ) (h1 : Real.pi / (2 * N) ≤ t)
    (h2 : t < Real.pi / 2) : Margin (-Complex.sinh (μ + t * Complex.I)) := by
  have hpi := Real.pi_pos
  have hN' : (0 : ℝ) < N := by exact_mod_cast hN
  have hx : 0 < Real.pi / (2 * N) := by positivity
  have hs : Complex.sinh (μ + t * Complex.I) = ⟨Real.sinh μ * Real.cos t, Real.cosh μ * Real.sin t⟩ := by
    rw [← Verif.IirDesign.sinh_val]
    rfl
  have hsh := Real.sinh_pos_iff.2 hμ
  have hcos : 0 < Real.cos t := Real.cos_pos_of_mem_Ioo ⟨by linarith, h2⟩
  unfold Margin
  rw [norm_neg, Complex.neg_re, neg_div]
  have hn : Real.sinh μ ≤ ‖Complex.sinh (μ + t * Complex.I)‖ := by
    rw [Complex.norm_def]
    apply Real.le_sqrt_of_sq_le
    rw [hs, Complex.normSq_mk]
    have h1 := Real.cos_sq_add_sin_sq t
    have h2 := Real.cosh_sq μ
    have e : Real.sinh μ * Real.cos t * (Real.sinh μ * Real.cos t) + Real.cosh μ * Real.sin t * (Real.cosh μ * Real.sin t)
        = Real.sinh μ ^ 2 * (Real.cos t ^ 2 + Real.sin t ^ 2) + Real.sin t ^ 2 := by
      linear_combination Real.sin t ^ 2 * h2
    rw [e, h1]
    nlinarith [sq_nonneg (Real.sin t)]
  have hre : (Complex.sinh (μ + t * Complex.I)).re = Real.sinh μ * Real.cos t := by rw [hs]
  have hq : (Complex.sinh (μ + t * Complex.I)).re / ‖Complex.sinh (μ + t * Complex.I)‖ ≤ Real.cos t := by
    rw [hre, div_le_iff₀ (hsh.trans_le hn), mul_comm]
    exact mul_le_mul_of_nonneg_left hn hcos.le
  have hc1 : Real.cos t ≤ Real.cos (Real.pi / (2 * N)) := Real.cos_le_cos_of_nonneg_of_le_pi hx.le (by linarith) h1
  have hN1 : (1 : ℝ) ≤ N := by exact_mod_cast hN
  have hc2 := Real.cos_le_one_sub_mul_cos_sq (x := Real.pi / (2 * N)) (by
    rw [abs_of_pos hx, div_le_iff₀ (by positivity)]
    nlinarith)
  have e : 2 / Real.pi ^ 2 * (Real.pi / (2 * N)) ^ 2 = 1 / (2 * (N : ℝ) ^ 2) := by field_simp
  rw [e] at hc2
  have hN45 : (N : ℝ) ≤ 45000 := by exact_mod_cast h45
  have h3 : (N : ℝ) ^ 2 ≤ 45000 ^ 2 := pow_le_pow_left₀ hN'.le hN45 2
  have h4 : 1 / (2 * (45000 : ℝ) ^ 2) ≤ 1 / (2 * (N : ℝ) ^ 2) := by
    apply one_div_le_one_div_of_le (by positivity)
    linarith
  have h5 : (24 / 10 ^ 11 : ℝ) < 1 / (2 * (45000 : ℝ) ^ 2) := by norm_num
  linarith

/-! ### Type 1 -/

theorem sinh_mk (μ t : ℝ) : Complex.sinh ⟨μ, t⟩ = Complex.sinh (μ + t * Complex.I) := by
  congr 1
  apply Complex.ext <;> simp

theorem chebyshev1Epsilon_pos {r : ℝ} (hr : 0 < r) : 0 < chebyshev1Epsilon r ∧
    chebyshev1Epsilon r ^ 2 = (10 : ℝ) ^ (r / 10) - 1 := by
  have h : 0 < (10 : ℝ) ^ (r / 10) - 1 := by
    have := Real.one_lt_rpow (x := (10 : ℝ)) (z := r / 10) (by norm_num) (by positivity)
    linarith
  exact ⟨Real.sqrt_pos.2 h, Real.sq_sqrt h.le⟩

theorem chebyshevMu_eq {N : ℕ} (hN : 0 < N) {e : ℝ} (he : 0 < e) :
    Real.sinh (N * chebyshevMu e N) = 1 / e ∧ 0 < chebyshevMu e N := by
  have hN' : (0 : ℝ) < N := by exact_mod_cast hN
  unfold chebyshevMu
  refine ⟨?_, div_pos (Real.arsinh_pos_iff.2 (by positivity)) hN'⟩
  rw [mul_div_cancel₀ _ hN'.ne', Real.sinh_arsinh]

theorem chebyshev1_eq (N : ℕ) (r : ℝ) : ∃ f : PZ, f = { PZ.empty with
      pairedPoles := ((chebyshevIndices N).filter (0 < ·)).map fun i : ℕ =>
        -Complex.sinh ⟨chebyshevMu (chebyshev1Epsilon r) N, -(Real.pi * i / (2 * N))⟩
      lonePoles := ((chebyshevIndices N).filter (· = 0)).map fun i : ℕ =>
        (-Complex.sinh ⟨chebyshevMu (chebyshev1Epsilon r) N, -(Real.pi * i / (2 * N))⟩).re } ∧
    chebyshev1 N r = if N % 2 = 0 then
      { f.normalizeGain with gain := f.normalizeGain.gain / √(1 + chebyshev1Epsilon r ^ 2) } else f.normalizeGain :=
  ⟨_, rfl, rfl⟩

theorem chebyshev1_shape (N : ℕ) (r : ℝ) :
    (chebyshev1 N r).pairedPoles = ((chebyshevIndices N).filter (0 < ·)).map (fun i : ℕ =>
        -Complex.sinh ⟨chebyshevMu (chebyshev1Epsilon r) N, -(Real.pi * i / (2 * N))⟩) ∧
    (chebyshev1 N r).lonePoles = ((chebyshevIndices N).filter (· = 0)).map (fun i : ℕ =>
        (-Complex.sinh ⟨chebyshevMu (chebyshev1Epsilon r) N, -(Real.pi * i / (2 * N))⟩).re) ∧
    (chebyshev1 N r).pairedZeros = [] ∧ (chebyshev1 N r).loneZeros = [] := by
  obtain ⟨f, hf, e⟩ := chebyshev1_eq N r
  rw [e]
  split_ifs
  · refine ⟨?_, ?_, ?_, ?_⟩
    · show f.pairedPoles = _
      rw [hf]
    · show f.lonePoles = _
      rw [hf]
    · show f.pairedZeros = _
      rw [hf]; rfl
    · show f.loneZeros = _
      rw [hf]; rfl
  · refine ⟨?_, ?_, ?_, ?_⟩
    · show f.pairedPoles = _
      rw [hf]
    · show f.lonePoles = _
      rw [hf]
    · show f.pairedZeros = _
      rw [hf]; rfl
    · show f.loneZeros = _
      rw [hf]; rfl

theorem c1_pole (μ : ℝ) (N i : ℕ) : -Complex.sinh ⟨μ, -(Real.pi * i / (2 * N))⟩ = (c1Root μ (angle N i)).val ∨
    -Complex.sinh ⟨μ, -(Real.pi * i / (2 * N))⟩ = conj (c1Root μ (angle N i)).val := by
  right
  have e : conj ((μ : ℂ) + (angle N i : ℝ) * Complex.I) = (μ : ℂ) + ((-(Real.pi * i / (2 * N)) : ℝ) : ℂ) * Complex.I := by
    rw [map_add, map_mul, Complex.conj_ofReal, Complex.conj_ofReal, Complex.conj_I, angle]
    push_cast
    ring
  rw [Verif.IirDesign.c1Root_val, sinh_mk, map_neg, ← Complex.sinh_conj, e]

theorem c1_ps (N : ℕ) (r : ℝ) (s : ℂ) : ps (poles (chebyshev1 N r)) s
    = ps ((full N (c1Root (chebyshevMu (chebyshev1Epsilon r) N))).map CD.val) s := by
  obtain ⟨h1, h2, -, -⟩ := chebyshev1_shape N r
  unfold poles
  rw [h1, h2]
  exact ps_full (by simp [c1Root, PortableComplex.neg, PortableComplex.sinh]) (c1_pole _ N) s

theorem chebyshev1_poles_left {N : ℕ} {r : ℝ} (hN : 0 < N) (hr : 0 < r) :
    (∀ p ∈ (chebyshev1 N r).lonePoles, p < 0) ∧ ∀ p ∈ (chebyshev1 N r).pairedPoles, p.re < 0 := by
  obtain ⟨h1, h2, -, -⟩ := chebyshev1_shape N r
  have hμ := (chebyshevMu_eq hN (chebyshev1Epsilon_pos hr).1).2
  have hpi := Real.pi_pos
  constructor
  · intro p hp
    rw [h2, indices_zero] at hp
    split_ifs at hp
    · simp at hp
    · simp only [List.map_cons, List.map_nil, List.mem_singleton] at hp
      rw [hp, sinh_mk, Complex.neg_re, neg_lt_zero]
      apply Verif.IirDesign.sinh_left hμ
      simp [hpi]
  · intro p hp
    rw [h1] at hp
    obtain ⟨i, hi, rfl⟩ := List.mem_map.1 hp
    obtain ⟨-, b1, b2⟩ := angle_bounds hi
    rw [sinh_mk, Complex.neg_re, neg_lt_zero]
    apply Verif.IirDesign.sinh_left hμ
    have hN' : (0 : ℝ) < N := by exact_mod_cast hN
    have : 0 < Real.pi / (2 * N) := by positivity
    rw [abs_neg]
    rw [show Real.pi * i / (2 * N) = angle N i from rfl, abs_of_pos (by linarith)]
    exact b2

theorem chebyshev1_gain (N : ℕ) (r : ℝ) (hN : 0 < N) (hr : 0 < r) : 0 < (chebyshev1 N r).gain ∧
    (chebyshev1 N r).gain ^ 2 = (if N % 2 = 0 then 1 / (1 + chebyshev1Epsilon r ^ 2) else 1) * nrm (poles (chebyshev1 N r)) 0 := by
  obtain ⟨f, hf, e⟩ := chebyshev1_eq N r
  obtain ⟨hl, hp⟩ := chebyshev1_poles_left hN hr
  have hpf : poles (chebyshev1 N r) = poles f := by
    rw [e]; split_ifs <;> rfl
  have hg := normalize_gain_sq (f := f) (by rw [hf]; rfl)
  have hz : zeros f = [] := by rw [hf]; rfl
  have hnil : nrm ([] : List ℂ) 0 = 1 := by simp [nrm]
  rw [hz, hnil, div_one] at hg
  have hpos : 0 < nrm (poles f) 0 := by
    unfold nrm
    apply pow_pos
    rw [norm_pos_iff, Complex.ofReal_zero, zero_mul]
    rw [← hpf]
    apply Verif.IirDesign.ps_ne.2
    intro q hq h0
    unfold poles at hq
    rcases List.mem_append.1 hq with hq | hq
    · obtain ⟨p, hp', rfl⟩ := List.mem_map.1 hq
      have := hl p hp'
      have h0' : p = 0 := by exact_mod_cast h0
      linarith
    · obtain ⟨p, hp', hq⟩ := List.mem_flatMap.1 hq
      have := hp p hp'
      simp only [List.mem_cons, List.not_mem_nil, or_false] at hq
      have h0' : p.re = 0 := by
        rcases hq with rfl | rfl
        · rw [h0]; rfl
        · have := congrArg Complex.re h0
          simpa using this
      linarith
  have hgn : 0 < f.normalizeGain.gain := by
    apply lt_of_le_of_ne
    · show 0 ≤ 1 / ‖f.eval 0‖
      positivity
    · intro h0
      rw [← h0] at hg
      simp at hg
      linarith
  rw [hpf, e]
  split_ifs with hm
  · have h1 : 0 < 1 + chebyshev1Epsilon r ^ 2 := by positivity
    refine ⟨div_pos hgn (Real.sqrt_pos.2 h1), ?_⟩
    show (f.normalizeGain.gain / √(1 + chebyshev1Epsilon r ^ 2)) ^ 2 = _
    rw [div_pow, Real.sq_sqrt h1.le, hg]
    ring
  · exact ⟨hgn, by rw [hg, one_mul]⟩

theorem chebyshev1_length (N : ℕ) (r : ℝ) : (chebyshev1 N r).pairedPoles.length = N / 2 ∧
    (chebyshev1 N r).lonePoles.length = N % 2 := by
  obtain ⟨h1, h2, -, -⟩ := chebyshev1_shape N r
  rw [h1, h2, indices_pos, indices_zero]
  refine ⟨by simp, ?_⟩
  rcases Nat.mod_two_eq_zero_or_one N with h | h <;> simp [h]

theorem chebyshev1_power {N : ℕ} (hN : 0 < N) {r : ℝ} (hr : 0 < r) (w : ℝ) :
    ‖analogSystem (chebyshev1 N r) (w * Complex.I)‖ ^ 2 = Verif.IirDesign.Spec.chebyshev1 N r w := by
  obtain ⟨-, -, hz1, hz2⟩ := chebyshev1_shape N r
  have hz : zeros (chebyshev1 N r) = [] := by unfold zeros; rw [hz1, hz2]; rfl
  have hnil : nrm ([] : List ℂ) w = 1 := by simp [nrm]
  obtain ⟨he, he2⟩ := chebyshev1Epsilon_pos hr
  have hn : ∀ w, nrm (poles (chebyshev1 N r)) w = ((T ℝ N).eval w ^ 2 + (1 / chebyshev1Epsilon r) ^ 2) / 4 ^ (N - 1) := by
    intro w
    rw [← (chebyshevMu_eq hN he).1, ← Verif.IirDesign.c1_nrm hN]
    unfold nrm
    rw [c1_ps]
  rw [power_eq, (chebyshev1_gain N r hN hr).2, hz, hnil, hn, hn, Verif.IirDesign.Spec.chebyshev1, ← he2]
  generalize chebyshev1Epsilon r = e at *
  have h4 : (4 : ℝ) ^ (N - 1) ≠ 0 := by positivity
  have hT : 0 ≤ (T ℝ N).eval w ^ 2 := sq_nonneg _
  have hpos : (T ℝ N).eval w ^ 2 + (1 / e) ^ 2 ≠ 0 := by positivity
  have hpos2 : 1 + e ^ 2 * (T ℝ N).eval w ^ 2 ≠ 0 := by positivity
  rcases Nat.mod_two_eq_zero_or_one N with hm | hm
  · have hT0 : (T ℝ N).eval 0 ^ 2 = 1 := by
      have hev : Even (N : ℤ) := by rw [Int.even_iff]; omega
      rw [Polynomial.Chebyshev.T_eval_zero_of_even ℝ hev]
      rcases Int.even_or_odd ((N : ℤ) / 2) with h | h
      · rw [Int.negOnePow_even _ h]; simp
      · rw [Int.negOnePow_odd _ h]; simp
    rw [if_pos hm, hT0]
    generalize (T ℝ N).eval w ^ 2 = X at *
    have : 1 + e ^ 2 ≠ 0 := by positivity
    field_simp
    ring
  · have hT0 : (T ℝ N).eval 0 ^ 2 = 0 := by
      have hodd : Odd (N : ℤ) := by rw [Int.odd_iff]; omega
      rw [Polynomial.Chebyshev.T_eval_zero_of_odd ℝ hodd]
      simp
    rw [if_neg (by omega), hT0]
    generalize (T ℝ N).eval w ^ 2 = X at *
    field_simp
    ring

theorem chebyshev1_regular {N : ℕ} (hN : 0 < N) (h45 : N ≤ 45000) {r : ℝ} (hr : 0 < r) : Regular (chebyshev1 N r) := by
  obtain ⟨h1, h2, hz1, hz2⟩ := chebyshev1_shape N r
  obtain ⟨hl, hp⟩ := chebyshev1_poles_left hN hr
  obtain ⟨l1, l2⟩ := chebyshev1_length N r
  refine ⟨⟨(chebyshev1_gain N r hN hr).1.le, ?_, hl, by rw [hz2]; simp, hp, by rw [hz1]; simp⟩, by rw [l2]; omega, hz2,
    by rw [hz1]; simp, ?_, by unfold PZ.polesDegree; rw [l1, l2]; omega⟩
  · unfold PZ.relativeDegree PZ.zerosDegree
    rw [hz1, hz2]
    simp
  · intro p hp'
    rw [h1] at hp'
    obtain ⟨i, hi, rfl⟩ := List.mem_map.1 hp'
    obtain ⟨-, b1, b2⟩ := angle_bounds hi
    have hm := margin_sinh hN h45 (chebyshevMu_eq hN (chebyshev1Epsilon_pos hr).1).2 b1 b2
    rcases c1_pole (chebyshevMu (chebyshev1Epsilon r) N) N i with e | e
    · rw [e, Verif.IirDesign.c1Root_val]; exact hm
    · rw [e, Verif.IirDesign.c1Root_val]
      unfold Margin at hm ⊢
      rwa [Complex.conj_re, RCLike.norm_conj]

/-! ### Type 2 -/

theorem chebyshev2Epsilon_pos {r : ℝ} (hr : 0 < r) : 0 < chebyshev2Epsilon r ∧
    (1 / chebyshev2Epsilon r) ^ 2 = (10 : ℝ) ^ (r / 10) - 1 := by
  obtain ⟨h1, h2⟩ := chebyshev1Epsilon_pos hr
  have e : chebyshev2Epsilon r = 1 / chebyshev1Epsilon r := rfl
  rw [e, one_div_one_div]
  exact ⟨by positivity, h2⟩

theorem chebyshev2_eq (N : ℕ) (r : ℝ) : ∃ f : PZ, f = { PZ.empty with
      pairedZeros := ((chebyshevIndices N).filter (0 < ·)).map fun i : ℕ => ⟨0, 1 / Real.sin (Real.pi * i / (2 * N))⟩
      pairedPoles := ((chebyshevIndices N).filter (0 < ·)).map fun i : ℕ =>
        -1 / Complex.sinh ⟨chebyshevMu (chebyshev2Epsilon r) N, Real.pi * i / (2 * N)⟩
      lonePoles := ((chebyshevIndices N).filter (· = 0)).map fun i : ℕ =>
        (-1 / Complex.sinh ⟨chebyshevMu (chebyshev2Epsilon r) N, Real.pi * i / (2 * N)⟩).re } ∧
    chebyshev2 N r = f.normalizeGain :=
  ⟨_, rfl, rfl⟩

theorem chebyshev2_shape (N : ℕ) (r : ℝ) :
    (chebyshev2 N r).pairedZeros = ((chebyshevIndices N).filter (0 < ·)).map (fun i : ℕ =>
        ⟨0, 1 / Real.sin (Real.pi * i / (2 * N))⟩) ∧
    (chebyshev2 N r).pairedPoles = ((chebyshevIndices N).filter (0 < ·)).map (fun i : ℕ =>
        -1 / Complex.sinh ⟨chebyshevMu (chebyshev2Epsilon r) N, Real.pi * i / (2 * N)⟩) ∧
    (chebyshev2 N r).lonePoles = ((chebyshevIndices N).filter (· = 0)).map (fun i : ℕ =>
        (-1 / Complex.sinh ⟨chebyshevMu (chebyshev2Epsilon r) N, Real.pi * i / (2 * N)⟩).re) ∧
    (chebyshev2 N r).loneZeros = [] := by
  obtain ⟨f, hf, e⟩ := chebyshev2_eq N r
  rw [e]
  refine ⟨?_, ?_, ?_, ?_⟩
  · show f.pairedZeros = _
    rw [hf]
  · show f.pairedPoles = _
    rw [hf]
  · show f.lonePoles = _
    rw [hf]
  · show f.loneZeros = _
    rw [hf]; rfl

theorem c2_pole {μ : ℝ} (hμ : 0 < μ) (N i : ℕ) :
    -1 / Complex.sinh ⟨μ, Real.pi * i / (2 * N)⟩ = (c2Root μ (angle N i)).val := by
  rw [Verif.IirDesign.c2Root_val (Verif.IirDesign.sinh_ne hμ _), sinh_mk]
  rfl

theorem c2_ps {N : ℕ} (hN : 0 < N) {r : ℝ} (hr : 0 < r) (s : ℂ) : ps (poles (chebyshev2 N r)) s
    = ps ((full N (c2Root (chebyshevMu (chebyshev2Epsilon r) N))).map CD.val) s := by
  obtain ⟨-, h1, h2, -⟩ := chebyshev2_shape N r
  have hμ := (chebyshevMu_eq hN (chebyshev2Epsilon_pos hr).1).2
  unfold poles
  rw [h1, h2]
  exact ps_full (by rw [Verif.IirDesign.c2Root_zero hμ]) (fun i => Or.inl (c2_pole hμ N i)) s

theorem z2_ps (N : ℕ) (r : ℝ) (s : ℂ) : ps (zeros (chebyshev2 N r)) s = ps ((rootPairs N c2Zero).map CD.val) s := by
  obtain ⟨h1, -, -, h2⟩ := chebyshev2_shape N r
  unfold zeros
  rw [h1, h2]
  exact ps_rootPairs (root := c2Zero) (fun i => Or.inl rfl) s

theorem chebyshev2_poles_left {N : ℕ} {r : ℝ} (hN : 0 < N) (hr : 0 < r) :
    (∀ p ∈ (chebyshev2 N r).lonePoles, p < 0) ∧ (∀ p ∈ (chebyshev2 N r).pairedPoles, p.re < 0) ∧
    ∀ p ∈ (chebyshev2 N r).pairedZeros, p.re = 0 ∧ p ≠ 0 := by
  obtain ⟨h0, h1, h2, -⟩ := chebyshev2_shape N r
  have hμ := (chebyshevMu_eq hN (chebyshev2Epsilon_pos hr).1).2
  have hpi := Real.pi_pos
  have hN' : (0 : ℝ) < N := by exact_mod_cast hN
  have hx : 0 < Real.pi / (2 * N) := by positivity
  refine ⟨?_, ?_, ?_⟩
  · intro p hp
    rw [h2, indices_zero] at hp
    split_ifs at hp
    · simp at hp
    · simp only [List.map_cons, List.map_nil, List.mem_singleton] at hp
      rw [hp, c2_pole hμ]
      apply Verif.IirDesign.c2_left hμ
      simp [hpi, angle_zero]
  · intro p hp
    rw [h1] at hp
    obtain ⟨i, hi, rfl⟩ := List.mem_map.1 hp
    obtain ⟨-, b1, b2⟩ := angle_bounds hi
    rw [c2_pole hμ]
    apply Verif.IirDesign.c2_left hμ
    rw [abs_of_pos (by linarith)]
    exact b2
  · intro p hp
    rw [h0] at hp
    obtain ⟨i, hi, rfl⟩ := List.mem_map.1 hp
    obtain ⟨-, b1, b2⟩ := angle_bounds hi
    refine ⟨rfl, fun h => ?_⟩
    have hs : 0 < Real.sin (angle N i) := Real.sin_pos_of_pos_of_lt_pi (by linarith) (by linarith)
    have := congrArg Complex.im h
    have h3 : 1 / Real.sin (angle N i) = 0 := this
    have : 0 < 1 / Real.sin (angle N i) := by positivity
    linarith

theorem nrm_zero_pos {L : List ℂ} (h : ∀ r ∈ L, r ≠ 0) : 0 < nrm L 0 := by
  unfold nrm
  apply pow_pos
  rw [norm_pos_iff, Complex.ofReal_zero, zero_mul]
  exact Verif.IirDesign.ps_ne.2 h

theorem mem_roots {lone : List ℝ} {paired : List ℂ} {q : ℂ}
    (hq : q ∈ lone.map (fun p : ℝ => (p : ℂ)) ++ paired.flatMap fun p => [p, conj p])
    (hl : ∀ p ∈ lone, p ≠ 0) (hp : ∀ p ∈ paired, p ≠ 0) : q ≠ 0 := by
  rcases List.mem_append.1 hq with hq | hq
  · obtain ⟨p, hp', rfl⟩ := List.mem_map.1 hq
    exact_mod_cast hl p hp'
  · obtain ⟨p, hp', hq⟩ := List.mem_flatMap.1 hq
    simp only [List.mem_cons, List.not_mem_nil, or_false] at hq
    rcases hq with rfl | rfl
    · exact hp _ hp'
    · simpa using hp _ hp'

theorem chebyshev2_gain (N : ℕ) (r : ℝ) (hN : 0 < N) (hr : 0 < r) : 0 < (chebyshev2 N r).gain ∧
    (chebyshev2 N r).gain ^ 2 = nrm (poles (chebyshev2 N r)) 0 / nrm (zeros (chebyshev2 N r)) 0 ∧
    0 < nrm (poles (chebyshev2 N r)) 0 ∧ 0 < nrm (zeros (chebyshev2 N r)) 0 := by
  obtain ⟨f, hf, e⟩ := chebyshev2_eq N r
  obtain ⟨hl, hp, hz⟩ := chebyshev2_poles_left hN hr
  have hg := normalize_gain_sq (f := f) (by rw [hf]; rfl)
  have h1 : 0 < nrm (poles (chebyshev2 N r)) 0 := nrm_zero_pos fun q hq => mem_roots hq (fun p hp' => (hl p hp').ne)
    fun p hp' h0 => by have := hp p hp'; rw [h0] at this; simp at this
  have h2 : 0 < nrm (zeros (chebyshev2 N r)) 0 := nrm_zero_pos fun q hq => mem_roots hq
    (by rw [(chebyshev2_shape N r).2.2.2]; simp) fun p hp' => (hz p hp').2
  have e1 : poles f = poles (chebyshev2 N r) := by rw [e]; rfl
  have e2 : zeros f = zeros (chebyshev2 N r) := by rw [e]; rfl
  rw [e1, e2, ← e] at hg
  refine ⟨?_, hg, h1, h2⟩
  apply lt_of_le_of_ne
  · rw [e]
    show 0 ≤ 1 / ‖f.eval 0‖
    positivity
  · intro h0
    rw [← h0] at hg
    have := div_pos h1 h2
    rw [← hg] at this
    simp at this

theorem chebyshev2_length (N : ℕ) (r : ℝ) : (chebyshev2 N r).pairedPoles.length = N / 2 ∧
    (chebyshev2 N r).lonePoles.length = N % 2 ∧ (chebyshev2 N r).pairedZeros.length = N / 2 := by
  obtain ⟨h0, h1, h2, -⟩ := chebyshev2_shape N r
  rw [h0, h1, h2, indices_pos, indices_zero]
  refine ⟨by simp, ?_, by simp⟩
  rcases Nat.mod_two_eq_zero_or_one N with h | h <;> simp [h]

theorem chebyshev2_power {N : ℕ} (hN : 0 < N) {r : ℝ} (hr : 0 < r) (w : ℝ) :
    ‖analogSystem (chebyshev2 N r) (w * Complex.I)‖ ^ 2 = Verif.IirDesign.Spec.chebyshev2 N r w := by
  obtain ⟨he, he2⟩ := chebyshev2Epsilon_pos hr
  obtain ⟨m1, m2⟩ := chebyshevMu_eq hN he
  obtain ⟨g0, g1, g2, g3⟩ := chebyshev2_gain N r hN hr
  rw [power_eq, g1]
  by_cases hw : w = 0
  · rw [Verif.IirDesign.Spec.chebyshev2, if_pos hw, hw]
    field_simp
  have ez := Verif.IirDesign.z2_T hN hw
  have ep := Verif.IirDesign.c2_nrm hN m2 hw
  have e1 : ∀ w, nrm ((rootPairs N c2Zero).map CD.val) w = nrm (zeros (chebyshev2 N r)) w := by
    intro w; unfold nrm; rw [z2_ps]
  have e2 : ∀ w, nrm ((full N (c2Root (chebyshevMu (chebyshev2Epsilon r) N))).map CD.val) w
      = nrm (poles (chebyshev2 N r)) w := by
    intro w; unfold nrm; rw [c2_ps hN hr]
  rw [e1, e1] at ez
  rw [e2, e2, m1] at ep
  rw [ez, ep, Verif.IirDesign.Spec.chebyshev2, if_neg hw, ← he2]
  have h4 : (4 : ℝ) ^ (N - 1) ≠ 0 := by positivity
  have hw2 : w ^ (2 * N) ≠ 0 := pow_ne_zero _ hw
  have hT : 0 ≤ (T ℝ N).eval w⁻¹ ^ 2 := sq_nonneg _
  generalize chebyshev2Epsilon r = e at *
  have hi : 0 < (1 / e) ^ 2 := by positivity
  generalize (1 / e) ^ 2 = E at *
  have hpos : (T ℝ N).eval w⁻¹ ^ 2 + E ≠ 0 := by positivity
  have hpos' : E + (T ℝ N).eval w⁻¹ ^ 2 ≠ 0 := by positivity
  generalize (T ℝ N).eval w⁻¹ ^ 2 = X at *
  generalize w ^ (2 * N) = W at *
  field_simp
  ring

theorem chebyshev2_regular {N : ℕ} (hN : 0 < N) (h45 : N ≤ 45000) {r : ℝ} (hr : 0 < r) : Regular (chebyshev2 N r) := by
  obtain ⟨h0, h1, h2, hz2⟩ := chebyshev2_shape N r
  obtain ⟨hl, hp, hz⟩ := chebyshev2_poles_left hN hr
  obtain ⟨l1, l2, l3⟩ := chebyshev2_length N r
  refine ⟨⟨(chebyshev2_gain N r hN hr).1.le, ?_, hl, by rw [hz2]; simp, hp, fun p hp' => ⟨(hz p hp').1.le, (hz p hp').2⟩⟩,
    by rw [l2]; omega, hz2, fun p hp' => (hz p hp').1, ?_, by unfold PZ.polesDegree; rw [l1, l2]; omega⟩
  · unfold PZ.relativeDegree PZ.zerosDegree PZ.polesDegree
    rw [l1, l2, l3, hz2]
    simp
    omega
  · intro p hp'
    rw [h1] at hp'
    obtain ⟨i, hi, rfl⟩ := List.mem_map.1 hp'
    obtain ⟨-, b1, b2⟩ := angle_bounds hi
    have hμ := (chebyshevMu_eq hN (chebyshev2Epsilon_pos hr).1).2
    have hm := margin_sinh hN h45 hμ b1 b2
    have := Margin.inv one_pos (neg_ne_zero.2 (Verif.IirDesign.sinh_ne hμ _)) hm
    rw [c2_pole hμ, Verif.IirDesign.c2Root_val (Verif.IirDesign.sinh_ne hμ _)]
    rwa [Complex.ofReal_one, div_neg, ← neg_div] at this

theorem chebyshev1_degree (N : ℕ) (r : ℝ) : (chebyshev1 N r).relativeDegree = N ∧ (chebyshev1 N r).polesDegree = N := by
  obtain ⟨h1, h2⟩ := chebyshev1_length N r
  obtain ⟨-, -, h3, h4⟩ := chebyshev1_shape N r
  unfold PZ.relativeDegree PZ.polesDegree PZ.zerosDegree
  rw [h1, h2, h3, h4]
  simp
  omega

theorem chebyshev2_degree (N : ℕ) (r : ℝ) : (chebyshev2 N r).relativeDegree = (N % 2 : ℕ) ∧ (chebyshev2 N r).polesDegree = N := by
  obtain ⟨h1, h2, h3⟩ := chebyshev2_length N r
  obtain ⟨-, -, -, h4⟩ := chebyshev2_shape N r
  unfold PZ.relativeDegree PZ.polesDegree PZ.zerosDegree
  rw [h1, h2, h3, h4]
  simp
  omega

end Verif.PoleZero
