import Verif.Model.BiquadAnalysis
import Verif.Spec.LinearFilter
import Mathlib.Data.List.GetD
import Mathlib.Analysis.Complex.Trigonometric
import Mathlib.Analysis.SpecialFunctions.Pow.Real
import Mathlib.Topology.Order.Compact

/-!
# Lemmas about the analysis functions of biquad coefficients
-/

namespace Verif.BiquadAnalysis
open Verif.BiquadCascade Verif.FilterDesign

/-! ## Searching a list -/

theorem search_spec (gain : ℝ → ℝ) (l : List ℝ) : ∀ best : ℝ × ℝ,
    (∀ x ∈ l, gain x ≤ (search gain best l).2) ∧ best.2 ≤ (search gain best l).2 ∧
    (search gain best l = best ∨ ∃ l1 l2, l = l1 ++ (search gain best l).1 :: l2 ∧
      (search gain best l).2 = gain (search gain best l).1 ∧ best.2 < (search gain best l).2 ∧
      ∀ x ∈ l1, gain x < (search gain best l).2) := by
  induction l with
  | nil => intro best; exact ⟨by simp, le_refl _, Or.inl rfl⟩
  | cons x xs ih =>
    intro best
    by_cases h : best.2 < gain x
    · have e : search gain best (x :: xs) = search gain (x, gain x) xs := by simp [search, h]
      obtain ⟨h1, h2, h3⟩ := ih (x, gain x)
      rw [e]
      refine ⟨?_, h.le.trans h2, ?_⟩
      · intro y hy
        rcases List.mem_cons.mp hy with rfl | hy
        · exact h2
        · exact h1 y hy
      · right
        rcases h3 with h3 | ⟨l1, l2, h3, h4, h5, h6⟩
        · rw [h3]
          exact ⟨[], xs, rfl, rfl, h, by simp⟩
        · refine ⟨x :: l1, l2, by rw [List.cons_append, ← h3], h4, h.trans h5, ?_⟩
          intro y hy
          rcases List.mem_cons.mp hy with rfl | hy
          · exact h5
          · exact h6 y hy
    · have e : search gain best (x :: xs) = search gain best xs := by simp [search, h]
      obtain ⟨h1, h2, h3⟩ := ih best
      rw [e]
      refine ⟨?_, h2, ?_⟩
      · intro y hy
        rcases List.mem_cons.mp hy with rfl | hy
        · exact (not_lt.mp h).trans h2
        · exact h1 y hy
      · rcases h3 with h3 | ⟨l1, l2, h3, h4, h5, h6⟩
        · exact Or.inl h3
        · refine Or.inr ⟨x :: l1, l2, by rw [List.cons_append, ← h3], h4, h5, ?_⟩
          intro y hy
          rcases List.mem_cons.mp hy with rfl | hy
          · exact (not_lt.mp h).trans_lt h5
          · exact h6 y hy

/-! ## Roots of quadratics -/

theorem eps_pos : 0 < eps := by unfold eps; positivity

/-- The square root of the discriminant used by the numerically stable formula. -/
theorem stable_q {b c d : ℝ} (a : ℝ) (hd : d = b * b - 4 * a * c) (hpos : 0 < d) :
    (-(1 / 2) * (b + (if 0 ≤ b then √d else -√d))) ^ 2 + b * (-(1 / 2) * (b + (if 0 ≤ b then √d else -√d)))
      + a * c = 0 ∧ -(1 / 2) * (b + (if 0 ≤ b then √d else -√d)) ≠ 0 := by
  have hs := Real.sq_sqrt hpos.le
  have hs0 := Real.sqrt_pos.mpr hpos
  split_ifs with h
  · refine ⟨by nlinarith, ?_⟩
    intro h0
    nlinarith
  · refine ⟨by nlinarith, ?_⟩
    intro h0
    nlinarith

/-- A quadratic whose discriminant is not in the tolerance zone above zero: `realRoots` finds all real roots. -/
theorem realRoots_complete {a b c y : ℝ} (h0 : ¬ (a = 0 ∧ b = 0 ∧ c = 0))
    (hd : b * b - 4 * a * c ≤ 0 ∨ eps * max (2 * b * b) |4 * a * c| < b * b - 4 * a * c)
    (hy : a * y ^ 2 + b * y + c = 0) : y ∈ (realRoots a b c).inOrder := by
  unfold realRoots
  by_cases ha : a = 0
  · rw [if_pos ha]
    by_cases hb : b = 0
    · have : c = 0 := by simpa [ha, hb] using hy
      exact absurd ⟨ha, hb, this⟩ h0
    · rw [if_neg hb]
      simp only [Roots.inOrder, List.mem_singleton]
      rw [eq_div_iff hb]
      rw [ha] at hy
      linarith
  · rw [if_neg ha]
    have hsq : (2 * a * y + b) ^ 2 = b * b - 4 * a * c := by linear_combination 4 * a * hy
    have hnn : 0 ≤ b * b - 4 * a * c := hsq ▸ sq_nonneg _
    dsimp only
    rcases hd with hd | hd
    · have hz : b * b - 4 * a * c = 0 := le_antisymm hd hnn
      have ht : |b * b - 4 * a * c| ≤ eps * max (2 * b * b) |4 * a * c| := by
        rw [hz, abs_zero]
        exact mul_nonneg eps_pos.le (le_max_of_le_right (abs_nonneg _))
      rw [if_pos ht]
      rw [hz] at hsq
      have : 2 * a * y + b = 0 := by simpa using hsq
      simp only [Roots.inOrder, List.mem_cons, List.not_mem_nil, or_false, or_self]
      field_simp
      linarith
    · have hpos : 0 < b * b - 4 * a * c :=
        (mul_nonneg eps_pos.le (le_max_of_le_right (abs_nonneg _))).trans_lt hd
      rw [if_neg (by rw [abs_of_pos hpos]; exact not_le.mpr hd), if_neg (not_lt.mpr hnn)]
      obtain ⟨h1, h2⟩ := stable_q a (d := b * b - 4 * a * c) rfl hpos
      generalize -(1 / 2) * (b + (if 0 ≤ b then √(b * b - 4 * a * c) else -√(b * b - 4 * a * c))) = q at h1 h2 ⊢
      simp only [Roots.inOrder, List.mem_cons, List.not_mem_nil, or_false]
      have : (y * q - c) * (a * y - q) = 0 := by linear_combination q * hy - y * h1
      rcases mul_eq_zero.mp this with h | h
      · left
        rw [eq_div_iff h2]
        linarith
      · right
        rw [eq_div_iff ha]
        linarith

/-! ## The squared gain as a function of the cosine -/

/-- `4 P2 y^2 + 2 P1 y + P0 - 2 P2`. -/
def poly (p : List ℝ) (y : ℝ) : ℝ :=
  4 * (squareCoeffs p).1 * y ^ 2 + 2 * (squareCoeffs p).2.1 * y + ((squareCoeffs p).2.2 - 2 * (squareCoeffs p).1)

theorem normSq_poly (b0 b1 b2 ω : ℝ) :
    Complex.normSq (((b0 : ℂ) * Complex.exp (ω * Complex.I) + b1) * Complex.exp (ω * Complex.I) + b2) =
      4 * (b2 * b0) * Real.cos ω ^ 2 + 2 * (b1 * (b2 + b0)) * Real.cos ω +
        (b2 * b2 + b1 * b1 + b0 * b0 - 2 * (b2 * b0)) := by
  have hz : Complex.exp (ω * Complex.I) = ⟨Real.cos ω, Real.sin ω⟩ := by
    apply Complex.ext
    · rw [Complex.exp_ofReal_mul_I_re]
    · rw [Complex.exp_ofReal_mul_I_im]
  have hs := Real.sin_sq_add_cos_sq ω
  rw [hz, Complex.normSq_apply]
  simp
  generalize Real.cos ω = y at *
  generalize Real.sin ω = t at *
  have ht : t ^ 2 = 1 - y ^ 2 := by linarith
  have ht4 : t ^ 4 = (1 - y ^ 2) ^ 2 := by rw [← ht]; ring
  ring_nf
  rw [ht4, ht]
  ring

theorem gainAt_sq (s : Stage ℝ) (ω : ℝ) :
    gainAt s ω ^ 2 = poly s.b (Real.cos ω) / poly s.a (Real.cos ω) := by
  unfold gainAt response evalStage
  rw [norm_div, div_pow, ← Complex.normSq_eq_norm_sq, ← Complex.normSq_eq_norm_sq]
  simp only [Complex.ofRealHom_eq_coe]
  rw [normSq_poly, normSq_poly]
  rfl

/-- The value of the denominator of the transfer function at a point of the unit circle. -/
theorem poly_pos {s : Stage ℝ}
    (hp : ∀ z : ℂ, ‖z‖ = 1 → (s.a.getD 0 0 : ℂ) * z ^ 2 + s.a.getD 1 0 * z + s.a.getD 2 0 ≠ 0) {y : ℝ}
    (h1 : -1 ≤ y) (h2 : y ≤ 1) : 0 < poly s.a y := by
  have e := normSq_poly (s.a.getD 0 0) (s.a.getD 1 0) (s.a.getD 2 0) (Real.arccos y)
  rw [Real.cos_arccos h1 h2] at e
  have : poly s.a y = Complex.normSq _ := e.symm
  rw [this]
  rw [Complex.normSq_pos]
  have := hp (Complex.exp (Real.arccos y * Complex.I)) (Complex.norm_exp_ofReal_mul_I _)
  intro h
  apply this
  rw [← h]
  ring

theorem poly_continuous (p : List ℝ) : Continuous (poly p) := by
  unfold poly
  fun_prop

/-- The slope polynomial of the squared gain. -/
theorem deriv_poly (s : Stage ℝ) (y : ℝ) :
    (8 * (squareCoeffs s.b).1 * y + 2 * (squareCoeffs s.b).2.1) * poly s.a y -
      poly s.b y * (8 * (squareCoeffs s.a).1 * y + 2 * (squareCoeffs s.a).2.1) =
    2 * ((derivCoeffs s).1 * y ^ 2 + (derivCoeffs s).2.1 * y + (derivCoeffs s).2.2) := by
  unfold poly derivCoeffs
  ring

/-- A polynomial of degree two with a local maximum. -/
theorem quad_max {α β γ y : ℝ} (h1 : -1 < y) (h2 : y < 1)
    (h : ∀ t, -1 ≤ t → t ≤ 1 → α * t ^ 2 + β * t + γ ≤ α * y ^ 2 + β * y + γ) : 2 * α * y + β = 0 := by
  by_contra hne
  have hk : ∀ u, -1 ≤ y + u → y + u ≤ 1 → α * u ^ 2 + (2 * α * y + β) * u ≤ 0 := by
    intro u hu1 hu2
    have := h (y + u) hu1 hu2
    nlinarith
  obtain ⟨k, hkd⟩ : ∃ k, k = 2 * α * y + β := ⟨_, rfl⟩
  rw [← hkd] at hk hne
  obtain ⟨m, hm⟩ : ∃ m, m = min (1 - |y|) (|k| / (2 * (|α| + 1))) := ⟨_, rfl⟩
  have hy : |y| < 1 := abs_lt.mpr ⟨h1, h2⟩
  have hkp : 0 < |k| := abs_pos.mpr hne
  have hap : 0 < |α| + 1 := by positivity
  have hmp : 0 < m := by rw [hm]; exact lt_min (by linarith) (by positivity)
  have hm1 : m ≤ 1 - |y| := hm ▸ min_le_left _ _
  have hm2 : m * (2 * (|α| + 1)) ≤ |k| := by
    rw [← le_div_iff₀ (by positivity)]
    exact hm ▸ min_le_right _ _
  have hya := abs_le.mp (le_refl |y|)
  have hα := neg_abs_le α
  rcases lt_or_gt_of_ne hne with hk0 | hk0
  · have := hk (-m) (by linarith) (by linarith)
    rw [abs_of_neg hk0] at hm2
    nlinarith [sq_nonneg m, mul_pos hmp hmp]
  · have := hk m (by linarith) (by linarith)
    rw [abs_of_pos hk0] at hm2
    nlinarith [sq_nonneg m, mul_pos hmp hmp]

/-! ## The peak -/

theorem extrema_mem {s : Stage ℝ} {x : ℝ} (h : x ∈ extrema s) : 0 ≤ x ∧ x ≤ Real.pi := by
  unfold extrema at h
  simp only [List.cons_append, List.mem_cons, List.mem_append, List.mem_map, List.not_mem_nil, or_false] at h
  rcases h with rfl | ⟨r, _, rfl⟩ | rfl
  · exact ⟨le_refl _, Real.pi_pos.le⟩
  · exact ⟨Real.arccos_nonneg r, Real.arccos_le_pi r⟩
  · exact ⟨Real.pi_pos.le, le_refl _⟩

theorem zero_mem_extrema (s : Stage ℝ) : (0 : ℝ) ∈ extrema s := by
  unfold extrema
  simp

theorem pi_mem_extrema (s : Stage ℝ) : Real.pi ∈ extrema s := by
  unfold extrema
  simp

/-- There is a candidate at which the gain is maximal. -/
theorem exists_max {s : Stage ℝ}
    (hp : ∀ z : ℂ, ‖z‖ = 1 → (s.a.getD 0 0 : ℂ) * z ^ 2 + s.a.getD 1 0 * z + s.a.getD 2 0 ≠ 0)
    (hd : (derivCoeffs s).2.1 * (derivCoeffs s).2.1 - 4 * (derivCoeffs s).1 * (derivCoeffs s).2.2 ≤ 0 ∨
      eps * max (2 * (derivCoeffs s).2.1 * (derivCoeffs s).2.1) |4 * (derivCoeffs s).1 * (derivCoeffs s).2.2| <
        (derivCoeffs s).2.1 * (derivCoeffs s).2.1 - 4 * (derivCoeffs s).1 * (derivCoeffs s).2.2) :
    ∃ x ∈ extrema s, ∀ ω, gainAt s ω ≤ gainAt s x := by
  have hD : ∀ y ∈ Set.Icc (-1 : ℝ) 1, 0 < poly s.a y := fun y hy => poly_pos hp hy.1 hy.2
  have hcont : ContinuousOn (fun y => poly s.b y / poly s.a y) (Set.Icc (-1 : ℝ) 1) :=
    (poly_continuous _).continuousOn.div (poly_continuous _).continuousOn fun y hy => (hD y hy).ne'
  obtain ⟨y, hy, hmax⟩ := isCompact_Icc.exists_isMaxOn ⟨0, by constructor <;> norm_num⟩ hcont
  have hmax' : ∀ t ∈ Set.Icc (-1 : ℝ) 1, poly s.b t / poly s.a t ≤ poly s.b y / poly s.a y := fun t ht => hmax ht
  have key : ∀ x, poly s.b y / poly s.a y ≤ gainAt s x ^ 2 → ∀ ω, gainAt s ω ≤ gainAt s x := by
    intro x hx ω
    have h1 : gainAt s ω ^ 2 ≤ gainAt s x ^ 2 := by
      rw [gainAt_sq]
      exact (hmax' _ ⟨Real.neg_one_le_cos ω, Real.cos_le_one ω⟩).trans hx
    exact le_of_sq_le_sq h1 (norm_nonneg _)
  by_cases h1 : y = 1
  · exact ⟨0, zero_mem_extrema s, key 0 (by rw [gainAt_sq, Real.cos_zero, h1])⟩
  by_cases h2 : y = -1
  · exact ⟨Real.pi, pi_mem_extrema s, key Real.pi (by rw [gainAt_sq, Real.cos_pi, h2])⟩
  have hy1 : -1 < y := lt_of_le_of_ne hy.1 (Ne.symm h2)
  have hy2 : y < 1 := lt_of_le_of_ne hy.2 h1
  obtain ⟨v, hv⟩ : ∃ v, v = poly s.b y / poly s.a y := ⟨_, rfl⟩
  have hvy : poly s.b y = v * poly s.a y := by rw [hv, div_mul_cancel₀ _ (hD y hy).ne']
  have hle : ∀ t, -1 ≤ t → t ≤ 1 → poly s.b t - v * poly s.a t ≤ poly s.b y - v * poly s.a y := by
    intro t ht1 ht2
    have := hmax' t ⟨ht1, ht2⟩
    rw [← hv, div_le_iff₀ (hD t ⟨ht1, ht2⟩)] at this
    linarith
  have hcrit := quad_max (α := 4 * (squareCoeffs s.b).1 - v * (4 * (squareCoeffs s.a).1))
    (β := 2 * (squareCoeffs s.b).2.1 - v * (2 * (squareCoeffs s.a).2.1))
    (γ := ((squareCoeffs s.b).2.2 - 2 * (squareCoeffs s.b).1) -
      v * ((squareCoeffs s.a).2.2 - 2 * (squareCoeffs s.a).1)) hy1 hy2 (by
      intro t ht1 ht2
      have := hle t ht1 ht2
      unfold poly at this
      linarith)
  have hroot : (derivCoeffs s).1 * y ^ 2 + (derivCoeffs s).2.1 * y + (derivCoeffs s).2.2 = 0 := by
    have e := deriv_poly s y
    rw [hvy] at e
    have : (8 * (squareCoeffs s.b).1 * y + 2 * (squareCoeffs s.b).2.1) =
        v * (8 * (squareCoeffs s.a).1 * y + 2 * (squareCoeffs s.a).2.1) := by linarith
    rw [this] at e
    linarith
  by_cases h0 : (derivCoeffs s).1 = 0 ∧ (derivCoeffs s).2.1 = 0 ∧ (derivCoeffs s).2.2 = 0
  · refine ⟨0, zero_mem_extrema s, key 0 ?_⟩
    rw [gainAt_sq, Real.cos_zero]
    have hcross : poly s.b y * poly s.a 1 = poly s.b 1 * poly s.a y := by
      obtain ⟨e1, e2, e3⟩ := h0
      unfold derivCoeffs at e1 e2 e3
      dsimp only at e1 e2 e3
      unfold poly
      linear_combination 2 * (y ^ 2 - y) * e1 + (y ^ 2 - 1) * e2 + 2 * (y - 1) * e3
    rw [div_le_div_iff₀ (hD y hy) (hD 1 ⟨by norm_num, le_refl _⟩)]
    exact hcross.le
  · have hmem := realRoots_complete h0 hd hroot
    refine ⟨Real.arccos y, ?_, key _ ?_⟩
    · unfold extrema
      simp only [List.cons_append, List.mem_cons, List.mem_append, List.mem_map, List.mem_filter]
      right; left
      exact ⟨y, ⟨hmem, by simpa using abs_lt.mpr ⟨hy1, hy2⟩⟩, rfl⟩
    · rw [gainAt_sq, Real.cos_arccos hy1.le hy2.le]

/-- The search over the candidates: maximal gain, attained, at the lowest frequency. -/
theorem findPeak_spec {s : Stage ℝ}
    (hp : ∀ z : ℂ, ‖z‖ = 1 → (s.a.getD 0 0 : ℂ) * z ^ 2 + s.a.getD 1 0 * z + s.a.getD 2 0 ≠ 0)
    (hd : (derivCoeffs s).2.1 * (derivCoeffs s).2.1 - 4 * (derivCoeffs s).1 * (derivCoeffs s).2.2 ≤ 0 ∨
      eps * max (2 * (derivCoeffs s).2.1 * (derivCoeffs s).2.1) |4 * (derivCoeffs s).1 * (derivCoeffs s).2.2| <
        (derivCoeffs s).2.1 * (derivCoeffs s).2.1 - 4 * (derivCoeffs s).1 * (derivCoeffs s).2.2) :
    (∀ ω, gainAt s ω ≤ (findPeak s).2) ∧
      (∀ ω, 0 ≤ ω → ω ≤ Real.pi → gainAt s ω = (findPeak s).2 → (findPeak s).1 ≤ ω) := by
  obtain ⟨h1, h2, h3⟩ := search_spec (gainAt s) (extrema s) (0, 0)
  have hmax : ∀ ω, gainAt s ω ≤ (findPeak s).2 := by
    obtain ⟨x, hx, hmx⟩ := exists_max hp hd
    exact fun ω => (hmx ω).trans (h1 x hx)
  refine ⟨hmax, ?_⟩
  intro ω hω0 hωπ hω
  change findPeak s = (0, 0) ∨ ∃ l1 l2, extrema s = l1 ++ (findPeak s).1 :: l2 ∧
    (findPeak s).2 = gainAt s (findPeak s).1 ∧ 0 < (findPeak s).2 ∧ ∀ x ∈ l1, gainAt s x < (findPeak s).2 at h3
  rcases h3 with h3 | ⟨l1, l2, e, hg, hpos, hl1⟩
  · rw [h3]
    exact hω0
  · by_contra hlt
    rw [not_le] at hlt
    have hr : (findPeak s).1 ∈ extrema s := by rw [e]; simp
    have hrπ := (extrema_mem hr).2
    have h0 : gainAt s 0 < (findPeak s).2 := by
      cases l1 with
      | nil =>
        have : (findPeak s).1 = 0 := by
          have e' : (0 : ℝ) = (findPeak s).1 := by
            have := congrArg List.head? e
            unfold extrema at this
            simpa using this
          exact e'.symm
        rw [this] at hlt
        exact absurd hlt (not_lt.mpr hω0)
      | cons x xs =>
        have : (0 : ℝ) = x := by
          have := congrArg List.head? e
          unfold extrema at this
          simpa using this
        rw [this]
        exact hl1 x (List.mem_cons_self)
    have hωpos : 0 < ω := lt_of_le_of_ne hω0 (by
      rintro rfl
      rw [hω] at h0
      exact lt_irrefl _ h0)
    obtain ⟨v, hv⟩ : ∃ v, v = (findPeak s).2 := ⟨_, rfl⟩
    have hD : ∀ t, 0 < poly s.a (Real.cos t) := fun t => poly_pos hp (Real.neg_one_le_cos t) (Real.cos_le_one t)
    have hP : ∀ t, gainAt s t = v → poly s.b (Real.cos t) - v ^ 2 * poly s.a (Real.cos t) = 0 := by
      intro t ht
      have := gainAt_sq s t
      rw [ht, eq_div_iff (hD t).ne'] at this
      linarith
    have hle : ∀ y, -1 ≤ y → y ≤ 1 → poly s.b y - v ^ 2 * poly s.a y ≤ 0 := by
      intro y hy1 hy2
      have e1 := gainAt_sq s (Real.arccos y)
      rw [Real.cos_arccos hy1 hy2] at e1
      have e2 : gainAt s (Real.arccos y) ^ 2 ≤ v ^ 2 :=
        pow_le_pow_left₀ (norm_nonneg _) (hv ▸ hmax _) 2
      rw [e1, div_le_iff₀ (poly_pos hp hy1 hy2)] at e2
      linarith
    have ha := hP ω (hv ▸ hω)
    have hb := hP _ (hv ▸ hg.symm)
    have hc : poly s.b 1 - v ^ 2 * poly s.a 1 < 0 := by
      have e1 := gainAt_sq s 0
      rw [Real.cos_zero] at e1
      have e2 : gainAt s 0 ^ 2 < v ^ 2 := pow_lt_pow_left₀ (hv ▸ h0) (norm_nonneg _) (by norm_num)
      rw [e1, div_lt_iff₀ (poly_pos hp (by norm_num) (le_refl _))] at e2
      linarith
    have hy1 : Real.cos (findPeak s).1 < Real.cos ω := Real.cos_lt_cos_of_nonneg_of_le_pi hω0 hrπ hlt
    have hy2 : Real.cos ω < 1 := by
      rw [← Real.cos_zero]
      exact Real.cos_lt_cos_of_nonneg_of_le_pi (le_refl _) hωπ hωpos
    have hy0 := Real.neg_one_le_cos (findPeak s).1
    generalize Real.cos (findPeak s).1 = y0 at *
    generalize Real.cos ω = y1 at *
    obtain ⟨α, hα⟩ : ∃ α, α = 4 * (squareCoeffs s.b).1 - v ^ 2 * (4 * (squareCoeffs s.a).1) := ⟨_, rfl⟩
    have hfac : ∀ t, poly s.b t - v ^ 2 * poly s.a t = α * ((t - y0) * (t - y1)) := by
      intro t
      have hne : y1 - y0 ≠ 0 := sub_ne_zero.mpr hy1.ne'
      apply mul_left_cancel₀ hne
      unfold poly at ha hb ⊢
      rw [hα]
      linear_combination (t - y0) * ha - (t - y1) * hb
    rw [hfac] at hc
    have hm := hle ((y0 + y1) / 2) (by linarith) (by linarith)
    rw [hfac] at hm
    have hpos1 : 0 < (1 - y0) * (1 - y1) := mul_pos (by linarith) (by linarith)
    have hneg : α < 0 := by nlinarith
    nlinarith [mul_pos (sub_pos.mpr hy1) (sub_pos.mpr hy1)]

/-- The gain found is the gain at the frequency found, a frequency from 0 to pi. -/
theorem findPeak_attained {s : Stage ℝ} :
    0 ≤ (findPeak s).1 ∧ (findPeak s).1 ≤ Real.pi ∧ (findPeak s).2 = gainAt s (findPeak s).1 := by
  obtain ⟨h1, h2, h3⟩ := search_spec (gainAt s) (extrema s) (0, 0)
  change findPeak s = (0, 0) ∨ ∃ l1 l2, extrema s = l1 ++ (findPeak s).1 :: l2 ∧
    (findPeak s).2 = gainAt s (findPeak s).1 ∧ 0 < (findPeak s).2 ∧ ∀ x ∈ l1, gainAt s x < (findPeak s).2 at h3
  rcases h3 with h3 | ⟨l1, l2, e, hg, _⟩
  · have h0 := h1 0 (zero_mem_extrema s)
    have h0' : gainAt s 0 ≤ (findPeak s).2 := h0
    rw [h3] at h0' ⊢
    exact ⟨le_refl _, Real.pi_pos.le, le_antisymm (norm_nonneg _) h0'⟩
  · have hr : (findPeak s).1 ∈ extrema s := by rw [e]; simp
    exact ⟨(extrema_mem hr).1, (extrema_mem hr).2, hg⟩

theorem gainAt_adjust (s : Stage ℝ) (g ω : ℝ) : gainAt (adjustStage s g) ω = |g| * gainAt s ω := by
  have hm : ∀ i, ((s.b.map (· * g)).getD i 0 : ℝ) = s.b.getD i 0 * g := by
    intro i
    simp only [List.getD_eq_getElem?_getD, List.getElem?_map]
    cases s.b[i]? <;> simp
  unfold gainAt response evalStage adjustStage
  simp only [hm, map_mul, Complex.ofRealHom_eq_coe]
  rw [← Real.norm_eq_abs, ← Complex.norm_real, ← norm_mul]
  congr 1
  ring

/-! ## Poles -/

theorem csqrt_sq (d : ℝ) : csqrtOfReal d ^ 2 = d := by
  unfold csqrtOfReal
  split_ifs with h
  · rw [← Complex.ofReal_pow, Real.sq_sqrt h]
  · have hs := Real.sq_sqrt (show 0 ≤ -d by linarith)
    apply Complex.ext
    · simp [pow_two] at hs ⊢
      linarith
    · simp [pow_two]

theorem csqrt_sq_zero_iff (d : ℝ) : csqrtOfReal d = 0 ↔ d = 0 := by
  constructor
  · intro h
    have := csqrt_sq d
    rw [h] at this
    simpa using this.symm
  · rintro rfl
    simp [csqrtOfReal]

/-- The reported poles are the roots of the denominator when its discriminant is not in the tolerance zone. -/
theorem getPoles_factor {s : Stage ℝ} {a0 a1 a2 : ℝ} (hs : s.a = [a0, a1, a2]) (h0 : a0 ≠ 0)
    (hd : a1 * a1 - 4 * a0 * a2 = 0 ∨
      eps * max (2 * a1 * a1) |4 * a0 * a2| < |a1 * a1 - 4 * a0 * a2|) (z : ℂ) :
    (a0 : ℂ) * z ^ 2 + a1 * z + a2 = a0 * ((z - (getPoles s).1) * (z - (getPoles s).2)) := by
  have h0' : (a0 : ℂ) ≠ 0 := by exact_mod_cast h0
  unfold getPoles
  simp only [hs, List.getD_cons_zero, List.getD_cons_succ]
  rcases hd with hd | hd
  · rw [if_pos (by
      rw [hd, abs_zero]
      exact mul_nonneg eps_pos.le (le_max_of_le_right (abs_nonneg _)))]
    have hdc : (a1 : ℂ) * a1 - 4 * a0 * a2 = 0 := by exact_mod_cast hd
    dsimp only
    push_cast
    field_simp
    linear_combination -hdc
  · rw [if_neg (not_le.mpr hd)]
    have hne : a1 * a1 - 4 * a0 * a2 ≠ 0 := by
      intro h
      rw [h, abs_zero] at hd
      exact absurd hd (not_lt.mpr (mul_nonneg eps_pos.le (le_max_of_le_right (abs_nonneg _))))
    have hdc : csqrtOfReal (a1 * a1 - 4 * a0 * a2) ^ 2 = (a1 : ℂ) * a1 - 4 * a0 * a2 := by
      rw [csqrt_sq]
      push_cast
      ring
    have hq0 : -(1 / 2) * ((a1 : ℂ) + (if a1 < 0 then -csqrtOfReal (a1 * a1 - 4 * a0 * a2)
        else csqrtOfReal (a1 * a1 - 4 * a0 * a2))) ≠ 0 := by
      intro h
      have hr : (a1 : ℂ) + (if a1 < 0 then -csqrtOfReal (a1 * a1 - 4 * a0 * a2)
        else csqrtOfReal (a1 * a1 - 4 * a0 * a2)) = 0 := by
        rcases mul_eq_zero.mp h with h | h
        · norm_num at h
        · exact h
      have hre := congrArg Complex.re hr
      unfold csqrtOfReal at hre
      by_cases hn : 0 ≤ a1 * a1 - 4 * a0 * a2
      · have hsp := Real.sqrt_pos.mpr (lt_of_le_of_ne hn (Ne.symm hne))
        simp only [if_pos hn] at hre
        split_ifs at hre with h1
        · simp at hre
          linarith
        · simp at hre
          linarith
      · simp only [if_neg hn] at hre
        have h1 : a1 = 0 := by
          split_ifs at hre <;> simpa using hre
        rw [h1, if_neg (lt_irrefl _)] at hr
        have : csqrtOfReal (0 * 0 - 4 * a0 * a2) = 0 := by simpa using hr
        rw [csqrt_sq_zero_iff] at this
        apply hne
        rw [h1]
        exact this
    have hq : ∀ q : ℂ, q = -(1 / 2) * ((a1 : ℂ) + (if a1 < 0 then -csqrtOfReal (a1 * a1 - 4 * a0 * a2)
        else csqrtOfReal (a1 * a1 - 4 * a0 * a2))) → q ^ 2 + a1 * q + a0 * a2 = 0 := by
      intro q hq
      rw [hq]
      split_ifs <;> linear_combination (1 / 4 : ℂ) * hdc
    have hq' := hq _ rfl
    generalize -(1 / 2) * ((a1 : ℂ) + (if a1 < 0 then -csqrtOfReal (a1 * a1 - 4 * a0 * a2)
        else csqrtOfReal (a1 * a1 - 4 * a0 * a2))) = q at hq0 hq' ⊢
    dsimp only
    field_simp
    linear_combination z * hq'

/-- Inside the tolerance zone both reported poles are the midpoint of the exact ones. -/
theorem getPoles_near {s : Stage ℝ} {a0 a1 a2 : ℝ} (hs : s.a = [a0, a1, a2]) (h0 : a0 ≠ 0)
    (hd : |a1 * a1 - 4 * a0 * a2| ≤ eps * max (2 * a1 * a1) |4 * a0 * a2|) {z : ℂ}
    (hz : (a0 : ℂ) * z ^ 2 + a1 * z + a2 = 0) :
    (getPoles s).1 = (getPoles s).2 ∧
      ‖z - (getPoles s).1‖ ^ 2 = |a1 * a1 - 4 * a0 * a2| / (4 * a0 ^ 2) := by
  have h0' : (a0 : ℂ) ≠ 0 := by exact_mod_cast h0
  unfold getPoles
  simp only [hs, List.getD_cons_zero, List.getD_cons_succ]
  rw [if_pos hd]
  refine ⟨rfl, ?_⟩
  have e : (z - ((-a1 / (2 * a0) : ℝ) : ℂ)) ^ 2 = (((a1 * a1 - 4 * a0 * a2) / (4 * a0 ^ 2) : ℝ) : ℂ) := by
    push_cast
    field_simp
    linear_combination 16 * (a0 : ℂ) * hz
  rw [← norm_pow, e, Complex.norm_real, Real.norm_eq_abs, abs_div]
  congr 1
  exact abs_of_pos (by positivity)

/-! ## Decay of the impulse response -/

/-- A sequence driven through two first-order sections with poles `p`, `q` of magnitude at most `r`, by an input
that is zero from the third sample on. -/
theorem two_pole_bound {p q : ℂ} {r B : ℝ} (hp : ‖p‖ ≤ r) (hq : ‖q‖ ≤ r) (hr : r ≤ 1) (y c : ℕ → ℂ) (N : ℕ)
    (h0 : y 0 = c 0) (h1 : 1 < N → y 1 = (p + q) * y 0 + c 1)
    (h2 : ∀ n, n + 2 < N → y (n + 2) = (p + q) * y (n + 1) - p * q * y n + c (n + 2))
    (hc : ∀ n, 3 ≤ n → c n = 0) (hB : ‖c 0‖ + ‖c 1‖ + ‖c 2‖ ≤ B) :
    ∀ n, n < N → ‖y n‖ ≤ (n + 1) * (B * r ^ (n - 2)) := by
  have hr0 : 0 ≤ r := (norm_nonneg p).trans hp
  have hB0 : 0 ≤ B := le_trans (by positivity) hB
  have hc0 := norm_nonneg (c 0)
  have hc1 := norm_nonneg (c 1)
  have hc2 := norm_nonneg (c 2)
  have hqm : ∀ w : ℂ, ‖q * w‖ ≤ r * ‖w‖ := fun w => by
    rw [norm_mul]; exact mul_le_mul_of_nonneg_right hq (norm_nonneg _)
  have hpm : ∀ w : ℂ, ‖p * w‖ ≤ r * ‖w‖ := fun w => by
    rw [norm_mul]; exact mul_le_mul_of_nonneg_right hp (norm_nonneg _)
  have hle1 : ∀ w : ℂ, r * ‖w‖ ≤ ‖w‖ := fun w => mul_le_of_le_one_left (norm_nonneg _) hr
  -- the output of the first section
  have hu : ∀ n, n + 1 < N → ‖y (n + 1) - p * y n‖ ≤ B * r ^ (n + 1 - 2) := by
    intro n
    induction n with
    | zero =>
      intro hN
      rw [h1 hN, h0]
      have e : (p + q) * c 0 + c 1 - p * c 0 = q * c 0 + c 1 := by ring
      rw [e]
      have := (norm_add_le (q * c 0) (c 1))
      simp only [Nat.zero_add, Nat.reduceSub, pow_zero, mul_one]
      linarith [hqm (c 0), hle1 (c 0)]
    | succ n ih =>
      intro hN
      have e : y (n + 1 + 1) - p * y (n + 1) = q * (y (n + 1) - p * y n) + c (n + 2) := by
        rw [h2 n hN]
        ring
      rw [e]
      have hn := norm_add_le (q * (y (n + 1) - p * y n)) (c (n + 2))
      have hqn := hqm (y (n + 1) - p * y n)
      cases n with
      | zero =>
        have e2 : y (0 + 1) - p * y 0 = q * c 0 + c 1 := by
          rw [h1 (by omega), h0]; ring
        rw [e2] at hn hqn ⊢
        have h3 := norm_add_le (q * c 0) (c 1)
        have h4 := hle1 (q * c 0 + c 1)
        simp only [Nat.zero_add, Nat.reduceAdd, Nat.reduceSub, pow_zero, mul_one] at hn ⊢
        linarith [hqm (c 0), hle1 (c 0)]
      | succ m =>
        rw [hc (m + 1 + 2) (by omega), norm_zero, add_zero] at hn
        rw [hc (m + 1 + 2) (by omega)]
        have := ih (by omega)
        calc ‖q * (y (m + 1 + 1) - p * y (m + 1)) + 0‖ ≤ r * ‖y (m + 1 + 1) - p * y (m + 1)‖ := by
              rw [add_zero] at hn ⊢; exact hqn
          _ ≤ r * (B * r ^ (m + 1 + 1 - 2)) := mul_le_mul_of_nonneg_left this hr0
          _ = B * r ^ (m + 1 + 1 + 1 - 2) := by
              rw [show m + 1 + 1 - 2 = m by omega, show m + 1 + 1 + 1 - 2 = m + 1 by omega, pow_succ]
              ring
  intro n
  induction n with
  | zero =>
    intro _
    rw [h0]
    simp
    linarith
  | succ n ih =>
    intro hN
    have e : y (n + 1) = p * y n + (y (n + 1) - p * y n) := by ring
    have h3 := norm_add_le (p * y n) (y (n + 1) - p * y n)
    rw [← e] at h3
    have h4 := hpm (y n)
    have h5 := ih (by omega)
    have h6 := hu n hN
    have h7 : r * r ^ (n - 2) ≤ r ^ (n + 1 - 2) := by
      rcases Nat.lt_or_ge n 2 with h | h
      · rw [show n - 2 = 0 by omega, show n + 1 - 2 = 0 by omega]
        simpa using hr
      · rw [show n + 1 - 2 = (n - 2) + 1 by omega, pow_succ]
        exact (mul_comm _ _).le
    have h8 : r * ‖y n‖ ≤ ((n : ℝ) + 1) * (B * r ^ (n + 1 - 2)) :=
      calc r * ‖y n‖ ≤ r * (((n : ℝ) + 1) * (B * r ^ (n - 2))) := mul_le_mul_of_nonneg_left h5 hr0
        _ = ((n : ℝ) + 1) * (B * (r * r ^ (n - 2))) := by ring
        _ ≤ ((n : ℝ) + 1) * (B * r ^ (n + 1 - 2)) := by
          apply mul_le_mul_of_nonneg_left _ (by positivity)
          exact mul_le_mul_of_nonneg_left h7 hB0
    rw [Nat.cast_add, Nat.cast_one]
    linarith

open Verif.LinearFilter.Spec in
/-- The impulse response of a second-order filter. -/
theorem impulse_bound {b0 b1 b2 a0 a1 a2 : ℝ} (h0 : a0 ≠ 0) {p q : ℂ} {r : ℝ}
    (hf : ∀ z : ℂ, (a0 : ℂ) * z ^ 2 + a1 * z + a2 = a0 * ((z - p) * (z - q)))
    (hp : ‖p‖ ≤ r) (hq : ‖q‖ ≤ r) (hr : r ≤ 1) {m : ℕ} {ys : List ℝ}
    (hy : DiffEq [b0, b1, b2] [a0, a1, a2] (1 :: List.replicate m 0) ys) {n : ℕ} (hn : n < m + 1) :
    |ys.getD n 0| ≤ (n + 1) * ((|b0| + |b1| + |b2|) / |a0| * r ^ (n - 2)) := by
  have h0' : (a0 : ℂ) ≠ 0 := by exact_mod_cast h0
  have hsum : (a1 : ℂ) = -a0 * (p + q) := by
    have e1 := hf 1
    have e2 := hf (-1)
    linear_combination (1 / 2 : ℂ) * e1 - (1 / 2 : ℂ) * e2
  have hprod : (a2 : ℂ) = a0 * (p * q) := by
    have e1 := hf 0
    linear_combination e1
  obtain ⟨_, hd⟩ := hy
  have hx : ∀ k, (1 :: List.replicate m (0 : ℝ)).getD k 0 = if k = 0 then 1 else 0 := by
    intro k
    cases k with
    | zero => simp
    | succ k =>
      rw [List.getD_cons_succ, if_neg (Nat.succ_ne_zero k)]
      rcases Nat.lt_or_ge k m with h | h
      · rw [List.getD_eq_getElem _ _ (by simpa using h), List.getElem_replicate]
      · rw [List.getD_eq_default _ _ (by simpa using h)]
  have hd' : ∀ k, k < m + 1 → a0 * past ys k 0 + a1 * past ys k 1 + a2 * past ys k 2 =
      (if k = 0 then b0 else 0) + (if k = 1 then b1 else 0) + (if k = 2 then b2 else 0) := by
    intro k hk
    have := hd k (by simpa using hk)
    simp only [List.length_cons, List.length_nil, Finset.sum_range_succ, Finset.sum_range_zero, List.getD_cons_zero,
      List.getD_cons_succ, zero_add] at this
    rw [this]
    unfold past
    rw [hx, hx, hx]
    rcases k with _ | _ | _ | k <;> simp
  obtain ⟨c, hc⟩ : ∃ c : ℕ → ℂ, c = fun k => (((if k = 0 then b0 else 0) + (if k = 1 then b1 else 0) +
    (if k = 2 then b2 else 0) : ℝ) : ℂ) / a0 := ⟨_, rfl⟩
  have hna : ‖(a0 : ℂ)‖ = |a0| := by rw [Complex.norm_real, Real.norm_eq_abs]
  have key := two_pole_bound hp hq hr (fun k => ((ys.getD k 0 : ℝ) : ℂ)) c (m + 1)
    (B := (|b0| + |b1| + |b2|) / |a0|) ?_ ?_ ?_ ?_ ?_ n hn
  · simpa [Complex.norm_real] using key
  · have := hd' 0 (by omega)
    simp [past] at this
    rw [hc]
    simp only [↓reduceIte]
    rw [eq_div_iff h0']
    have h := congrArg (fun x : ℝ => (x : ℂ)) this
    push_cast at h ⊢
    simp at h ⊢
    linear_combination h
  · intro h1
    have := hd' 1 (by omega)
    simp [past] at this
    have h := congrArg (fun x : ℝ => (x : ℂ)) this
    rw [hc]
    apply mul_left_cancel₀ h0'
    simp at h ⊢
    field_simp
    left
    rw [hsum] at h
    linear_combination h
  · intro k hk
    have := hd' (k + 2) (by omega)
    simp [past] at this
    have h := congrArg (fun x : ℝ => (x : ℂ)) this
    rw [hc]
    apply mul_left_cancel₀ h0'
    simp at h ⊢
    field_simp
    left
    rw [hsum, hprod] at h
    linear_combination h
  · intro k hk
    rw [hc]
    simp [show k ≠ 0 by omega, show k ≠ 1 by omega, show k ≠ 2 by omega]
  · rw [hc]
    simp [hna]
    apply le_of_eq
    ring

/-! ## The search on a grid followed by bisection -/

/-- The invariant of the refinement loop that does not depend on the function: the gain is the one at the
frequency, it does not decrease, and the frequency moves by less than the initial step. -/
theorem refine_basic (fn : ℝ → ℝ) (n : ℕ) : ∀ (step : ℝ) (best : ℝ × ℝ), 0 < step → best.2 = fn best.1 →
    (refine fn n step best).2 = fn (refine fn n step best).1 ∧ best.2 ≤ (refine fn n step best).2 ∧
      |(refine fn n step best).1 - best.1| < step := by
  induction n with
  | zero =>
    intro step best hs hb
    exact ⟨hb, le_refl _, by simpa [refine] using hs⟩
  | succ n ih =>
    intro step best hs hb
    unfold refine
    dsimp only
    obtain ⟨nb, hnb⟩ : ∃ nb : ℝ × ℝ, nb = (if best.2 < fn (best.1 + step / 2) then
        (best.1 + step / 2, fn (best.1 + step / 2))
      else if best.2 < fn (best.1 - step / 2) then (best.1 - step / 2, fn (best.1 - step / 2)) else best) := ⟨_, rfl⟩
    rw [← hnb]
    have h1 : nb.2 = fn nb.1 ∧ best.2 ≤ nb.2 ∧ |nb.1 - best.1| ≤ step / 2 := by
      rw [hnb]
      split_ifs with c1 c2
      · refine ⟨rfl, c1.le, ?_⟩
        rw [show best.1 + step / 2 - best.1 = step / 2 by ring, abs_of_pos (by linarith)]
      · refine ⟨rfl, c2.le, ?_⟩
        rw [show best.1 - step / 2 - best.1 = -(step / 2) by ring, abs_neg, abs_of_pos (by linarith)]
      · exact ⟨hb, le_refl _, by rw [sub_self, abs_zero]; linarith⟩
    obtain ⟨e1, e2, e3⟩ := h1
    split_ifs
    · exact ⟨e1, e2, by linarith⟩
    · obtain ⟨i1, i2, i3⟩ := ih (step / 2) nb (by linarith) e1
      refine ⟨i1, e2.trans i2, ?_⟩
      have := abs_sub_le (refine fn n (step / 2) nb).1 nb.1 best.1
      linarith

/-- For a function that increases up to `p` and decreases from there, each halving of the step keeps `p` within
one step of the current frequency. -/
theorem refine_unimodal {fn : ℝ → ℝ} {lo hi p : ℝ} (hinc : StrictMonoOn fn (Set.Icc lo p))
    (hdec : StrictAntiOn fn (Set.Icc p hi)) (n : ℕ) : ∀ (step : ℝ) (best : ℝ × ℝ), 0 < step → best.2 = fn best.1 →
    lo ≤ best.1 - step → best.1 + step ≤ hi → |best.1 - p| ≤ step →
    |(refine fn n step best).1 - p| ≤ max (step / 2 ^ n) (1 / 10 ^ 9 + 5 / 10 ^ 6 * (refine fn n step best).1) := by
  induction n with
  | zero =>
    intro step best hs hb h1 h2 h3
    simpa [refine] using Or.inl h3
  | succ n ih =>
    intro step best hs hb h1 h2 h3
    unfold refine
    dsimp only
    obtain ⟨nb, hnb⟩ : ∃ nb : ℝ × ℝ, nb = (if best.2 < fn (best.1 + step / 2) then
        (best.1 + step / 2, fn (best.1 + step / 2))
      else if best.2 < fn (best.1 - step / 2) then (best.1 - step / 2, fn (best.1 - step / 2)) else best) := ⟨_, rfl⟩
    rw [← hnb]
    have h3' := abs_le.mp h3
    have hkey : nb.2 = fn nb.1 ∧ lo ≤ nb.1 - step / 2 ∧ nb.1 + step / 2 ≤ hi ∧ |nb.1 - p| ≤ step / 2 := by
      rw [hnb]
      split_ifs with c1 c2
      · have : best.1 < p := by
          by_contra hp
          have := hdec ⟨not_lt.mp hp, by linarith⟩ ⟨by linarith [not_lt.mp hp], by linarith⟩
            (show best.1 < best.1 + step / 2 by linarith)
          rw [← hb] at this
          linarith
        refine ⟨rfl, by dsimp only; linarith, by dsimp only; linarith, ?_⟩
        rw [abs_le]
        constructor <;> dsimp only <;> linarith
      · have : p < best.1 := by
          by_contra hp
          have := hinc ⟨by linarith, by linarith [not_lt.mp hp]⟩ ⟨by linarith, not_lt.mp hp⟩
            (show best.1 - step / 2 < best.1 by linarith)
          rw [← hb] at this
          linarith
        refine ⟨rfl, by dsimp only; linarith, by dsimp only; linarith, ?_⟩
        rw [abs_le]
        constructor <;> dsimp only <;> linarith
      · have g1 : p ≤ best.1 + step / 2 := by
          by_contra hp
          have := hinc ⟨by linarith, by linarith [not_le.mp hp]⟩ ⟨by linarith, (not_le.mp hp).le⟩
            (show best.1 < best.1 + step / 2 by linarith)
          rw [← hb] at this
          linarith
        have g2 : best.1 - step / 2 ≤ p := by
          by_contra hp
          have := hdec ⟨(not_le.mp hp).le, by linarith⟩ ⟨by linarith [not_le.mp hp], by linarith⟩
            (show best.1 - step / 2 < best.1 by linarith)
          rw [← hb] at this
          linarith
        refine ⟨hb, by linarith, by linarith, ?_⟩
        rw [abs_le]
        constructor <;> linarith
    obtain ⟨k1, k2, k3, k4⟩ := hkey
    split_ifs with hbr
    · exact le_max_of_le_right (k4.trans hbr.le)
    · have := ih (step / 2) nb (by linarith) k1 k2 k3 k4
      rwa [div_div, ← pow_succ'] at this

/-- The grid search. -/
theorem grid_spec {fn : ℝ → ℝ} {lo step : ℝ} (hpos : ∃ k : ℕ, 1 ≤ k ∧ k ≤ 98 ∧ 0 < fn (lo + k * step)) :
    ∃ k : ℕ, 1 ≤ k ∧ k ≤ 98 ∧
      search fn (0, 0) ((List.range 98).map fun k : ℕ => lo + ((k : ℝ) + 1) * step) =
        (lo + k * step, fn (lo + k * step)) ∧
      (∀ j : ℕ, 1 ≤ j → j ≤ 98 → fn (lo + j * step) ≤ fn (lo + k * step)) := by
  obtain ⟨h1, h2, h3⟩ := search_spec fn ((List.range 98).map fun k : ℕ => lo + ((k : ℝ) + 1) * step) (0, 0)
  obtain ⟨r, hr⟩ : ∃ r, r = search fn (0, 0) ((List.range 98).map fun k : ℕ => lo + ((k : ℝ) + 1) * step) := ⟨_, rfl⟩
  rw [← hr] at h1 h2 h3 ⊢
  have hall : ∀ j : ℕ, 1 ≤ j → j ≤ 98 → fn (lo + j * step) ≤ r.2 := by
    intro j hj1 hj2
    apply h1
    rw [List.mem_map]
    refine ⟨j - 1, List.mem_range.mpr (by omega), ?_⟩
    have : ((j - 1 : ℕ) : ℝ) + 1 = j := by
      rw [Nat.cast_sub hj1]
      push_cast
      ring
    rw [this]
  rcases h3 with h3 | ⟨l1, l2, e, hg, _⟩
  · obtain ⟨k, hk1, hk2, hk⟩ := hpos
    have := hall k hk1 hk2
    rw [h3] at this
    exact absurd hk (not_lt.mpr this)
  · have hm : r.1 ∈ (List.range 98).map fun k : ℕ => lo + ((k : ℝ) + 1) * step := by rw [e]; simp
    obtain ⟨k, hk, hke⟩ := List.mem_map.mp hm
    have hk' := List.mem_range.mp hk
    have hke' : r.1 = lo + ((k + 1 : ℕ) : ℝ) * step := by rw [← hke]; push_cast; ring
    refine ⟨k + 1, by omega, by omega, ?_, ?_⟩
    · rw [← hke', ← hg]
    · intro j hj1 hj2
      rw [← hke', ← hg]
      exact hall j hj1 hj2

end Verif.BiquadAnalysis
