import Verif.Proof.BiquadAnalysis
import Mathlib.Analysis.SpecialFunctions.Trigonometric.Bounds

/-!
# Property theorems: poles, peak gain and decay time of filter coefficients (C72, C73)
-/

namespace Verif.BiquadAnalysis
open Verif.BiquadCascade Verif.FilterDesign

/-! ## C72: real roots of a quadratic -/

/-- **C72** (`RealRootsForQuadratic`). "No real roots" is reported only if there are none; two roots that are
reported are the two different roots; for a linear equation the only root is reported. -/
theorem C72_real_roots (a b c : ℝ) :
    match realRoots a b c with
    | .noReal => ∀ x, a * x ^ 2 + b * x + c ≠ 0
    | .two r1 (some r2) => r1 ≠ r2 ∧ ∀ x, a * x ^ 2 + b * x + c = a * ((x - r1) * (x - r2))
    | .two r1 none => a = 0 ∧ ∀ x, a * x ^ 2 + b * x + c = 0 ↔ x = r1
    | .ambiguous r1 r2 => (a = 0 ∧ b = 0 ∧ c = 0) ∨
        (r1 = r2 ∧ ∀ x, a * x ^ 2 + b * x + c = 0 →
          (x - r1) ^ 2 ≤ 1 / 2 ^ 52 * max (2 * b * b) |4 * a * c| / (4 * a ^ 2)) := by
  unfold realRoots
  by_cases ha : a = 0
  · rw [if_pos ha]
    by_cases hb : b = 0
    · rw [if_pos hb]
      by_cases hc : c = 0
      · rw [if_pos hc]
        exact Or.inl ⟨ha, hb, hc⟩
      · rw [if_neg hc]
        intro x
        rw [ha, hb]
        simpa using hc
    · rw [if_neg hb]
      refine ⟨ha, fun x => ?_⟩
      rw [ha, eq_div_iff hb]
      constructor <;> intro h <;> linarith
  · rw [if_neg ha]
    dsimp only
    by_cases ht : |b * b - 4 * a * c| ≤ eps * max (2 * b * b) |4 * a * c|
    · rw [if_pos ht]
      refine Or.inr ⟨rfl, fun x hx => ?_⟩
      have e : (x - -b / 2 / a) ^ 2 = (b * b - 4 * a * c) / (4 * a ^ 2) := by
        field_simp
        linear_combination 16 * a * hx
      rw [e]
      have : 0 < 4 * a ^ 2 := by positivity
      apply div_le_div_of_nonneg_right _ this.le
      exact (le_abs_self _).trans ht
    · rw [if_neg ht]
      by_cases hd : b * b - 4 * a * c < 0
      · rw [if_pos hd]
        intro x hx
        have hsq : (2 * a * x + b) ^ 2 = b * b - 4 * a * c := by linear_combination 4 * a * hx
        nlinarith [sq_nonneg (2 * a * x + b)]
      · rw [if_neg hd]
        have hne : b * b - 4 * a * c ≠ 0 := by
          intro h
          apply ht
          rw [h, abs_zero]
          exact mul_nonneg eps_pos.le (le_max_of_le_right (abs_nonneg _))
        have hpos : 0 < b * b - 4 * a * c := lt_of_le_of_ne (not_lt.mp hd) (Ne.symm hne)
        obtain ⟨h1, h2⟩ := stable_q a (d := b * b - 4 * a * c) rfl hpos
        have h3 : 2 * (-(1 / 2) * (b + (if 0 ≤ b then √(b * b - 4 * a * c) else -√(b * b - 4 * a * c)))) + b ≠ 0 := by
          have := Real.sqrt_pos.mpr hpos
          split_ifs <;> intro h <;> linarith
        generalize -(1 / 2) * (b + (if 0 ≤ b then √(b * b - 4 * a * c) else -√(b * b - 4 * a * c))) = q at h1 h2 h3 ⊢
        refine ⟨?_, fun x => ?_⟩
        · intro h
          rw [div_eq_div_iff ha h2] at h
          apply h3
          apply mul_left_cancel₀ h2
          linarith
        · field_simp
          linear_combination x * h1

example : ∃ r1 r2, realRoots 1 (-3) 2 = .two r1 (some r2) := by
  unfold realRoots
  rw [if_neg one_ne_zero]
  dsimp only
  rw [if_neg, if_neg (by norm_num)]
  · exact ⟨_, _, rfl⟩
  · unfold eps
    rw [show (-3 : ℝ) * -3 - 4 * 1 * 2 = 1 by norm_num, show max (2 * -3 * -3 : ℝ) |4 * 1 * 2| = 18 by norm_num]
    norm_num

/-! ## C72: poles -/

/-- **C72 (part)** (`GetPoles`). Unless the discriminant of the denominator is nonzero but within the tolerance
of zero, the reported pair are the poles with their multiplicities. Missing: the tolerance zone, for which see
`C72_poles_near` and `C72_poles_violation`. -/
theorem C72_poles_partial {b a : List ℝ} {a0 a1 a2 : ℝ} (ha : a = [a0, a1, a2]) (h0 : a0 ≠ 0)
    (hd : a1 ^ 2 - 4 * a0 * a2 = 0 ∨
      1 / 2 ^ 52 * max (2 * a1 ^ 2) |4 * a0 * a2| < |a1 ^ 2 - 4 * a0 * a2|) (z : ℂ) :
    (a0 : ℂ) * z ^ 2 + a1 * z + a2 = a0 * ((z - (getPoles ⟨b, a⟩).1) * (z - (getPoles ⟨b, a⟩).2)) := by
  refine getPoles_factor ha h0 ?_ z
  unfold eps
  rwa [← pow_two, mul_assoc 2 a1 a1, ← pow_two]

example (b : List ℝ) (z : ℂ) : ((1 : ℝ) : ℂ) * z ^ 2 + ((-1 : ℝ) : ℂ) * z + ((1 / 2 : ℝ) : ℂ) =
    ((1 : ℝ) : ℂ) * ((z - (getPoles ⟨b, [1, -1, 1 / 2]⟩).1) * (z - (getPoles ⟨b, [1, -1, 1 / 2]⟩).2)) := by
  refine C72_poles_partial rfl one_ne_zero (Or.inr ?_) z
  rw [show max (2 * (-1) ^ 2 : ℝ) |4 * 1 * (1 / 2)| = 2 by norm_num,
    show ((-1) ^ 2 - 4 * 1 * (1 / 2) : ℝ) = -1 by norm_num]
  norm_num

/-- **C72** (`GetPoles`, tolerance zone). The two reported poles are then equal and each exact pole is within
about `1.5e-8` of them, relative to the size of the coefficients. -/
theorem C72_poles_near {b a : List ℝ} {a0 a1 a2 : ℝ} (ha : a = [a0, a1, a2]) (h0 : a0 ≠ 0)
    (hd : |a1 ^ 2 - 4 * a0 * a2| ≤ 1 / 2 ^ 52 * max (2 * a1 ^ 2) |4 * a0 * a2|) {z : ℂ}
    (hz : (a0 : ℂ) * z ^ 2 + a1 * z + a2 = 0) :
    (getPoles ⟨b, a⟩).1 = (getPoles ⟨b, a⟩).2 ∧
      ‖z - (getPoles ⟨b, a⟩).1‖ ^ 2 ≤ 1 / 2 ^ 52 * max (2 * a1 ^ 2) |4 * a0 * a2| / (4 * a0 ^ 2) := by
  have hd' : |a1 * a1 - 4 * a0 * a2| ≤ eps * max (2 * a1 * a1) |4 * a0 * a2| := by
    unfold eps
    rwa [← pow_two, mul_assoc 2 a1 a1, ← pow_two]
  obtain ⟨h1, h2⟩ := getPoles_near (s := ⟨b, a⟩) ha h0 hd' hz
  refine ⟨h1, ?_⟩
  rw [h2, ← pow_two]
  exact div_le_div_of_nonneg_right hd (by positivity)

/-- **C72 violation** (`GetPoles`, `EstimateDecayTime`). An unstable filter, with a real pole greater than one:
`GetPoles` reports a double pole less than one, and `EstimateDecayTime` a finite decay time. The coefficients are
exactly representable as `double`. -/
theorem C72_poles_violation (b : List ℝ) (decayDb : ℝ) :
    (∃ x : ℝ, 1 < x ∧ 1 * x ^ 2 + (-2 + 1 / 2 ^ 25) * x + (1 - 1 / 2 ^ 25 - 1 / 2 ^ 53) = 0) ∧
    ‖(getPoles ⟨b, [1, -2 + 1 / 2 ^ 25, 1 - 1 / 2 ^ 25 - 1 / 2 ^ 53]⟩).1‖ < 1 ∧
    ‖(getPoles ⟨b, [1, -2 + 1 / 2 ^ 25, 1 - 1 / 2 ^ 25 - 1 / 2 ^ 53]⟩).2‖ < 1 ∧
    decayTime ⟨b, [1, -2 + 1 / 2 ^ 25, 1 - 1 / 2 ^ 25 - 1 / 2 ^ 53]⟩ decayDb ≠ none := by
  have hp : getPoles ⟨b, [1, -2 + 1 / 2 ^ 25, 1 - 1 / 2 ^ 25 - 1 / 2 ^ 53]⟩ =
      (((1 - 1 / 2 ^ 26 : ℝ) : ℂ), ((1 - 1 / 2 ^ 26 : ℝ) : ℂ)) := by
    unfold getPoles
    simp only [List.getD_cons_zero, List.getD_cons_succ]
    rw [if_pos]
    · norm_num
    · unfold eps
      rw [abs_of_pos (by norm_num)]
      refine le_trans ?_ (mul_le_mul_of_nonneg_left (le_max_left _ _) (by positivity))
      norm_num
  have hn : ‖((1 - 1 / 2 ^ 26 : ℝ) : ℂ)‖ = 1 - 1 / 2 ^ 26 := by
    rw [Complex.norm_real, Real.norm_eq_abs, abs_of_pos (by norm_num)]
  refine ⟨⟨1 - 1 / 2 ^ 26 + √(3 / 2 ^ 53), ?_, ?_⟩, ?_, ?_, ?_⟩
  · have : (1 / 2 ^ 26 : ℝ) < √(3 / 2 ^ 53) := Real.lt_sqrt_of_sq_lt (by norm_num)
    linarith
  · have := Real.sq_sqrt (show (0 : ℝ) ≤ 3 / 2 ^ 53 by norm_num)
    linear_combination this
  · rw [hp, hn]; norm_num
  · rw [hp, hn]; norm_num
  · unfold decayTime
    dsimp only
    rw [hp]
    dsimp only
    rw [hn, max_self, if_neg (by norm_num), if_neg (by norm_num)]
    simp

/-! ## C72: the peak of the gain -/

/-- The polynomial of which `FindPeakFrequencyRadiansPerSample` computes the roots has no real roots, a double
root, or two roots far enough apart to be resolved. -/
def Resolved (s : Stage ℝ) : Prop :=
  let d := derivCoeffs s
  d.2.1 ^ 2 - 4 * d.1 * d.2.2 ≤ 0 ∨
    1 / 2 ^ 52 * max (2 * d.2.1 ^ 2) |4 * d.1 * d.2.2| < d.2.1 ^ 2 - 4 * d.1 * d.2.2

/-- **C72 (part)** (`FindPeakFrequencyRadiansPerSample`). For a filter without a pole on the unit circle: the gain
returned is the gain at the frequency returned, no frequency has a larger gain, and no smaller frequency has the
same gain. Missing: filters with two extrema closer than the tolerance (`C72_peak_violation`). -/
theorem C72_peak_partial {b a : List ℝ} {a0 a1 a2 : ℝ} (ha : a = [a0, a1, a2])
    (hp : ∀ z : ℂ, ‖z‖ = 1 → (a0 : ℂ) * z ^ 2 + a1 * z + a2 ≠ 0) (hr : Resolved ⟨b, a⟩) :
    ∃ ω g, findPeak ⟨b, a⟩ = (ω, g) ∧ 0 ≤ ω ∧ ω ≤ Real.pi ∧ g = ‖response ⟨b, a⟩ ω‖ ∧
      (∀ t : ℝ, ‖response ⟨b, a⟩ t‖ ≤ g) ∧
      (∀ t : ℝ, 0 ≤ t → t < ω → ‖response ⟨b, a⟩ t‖ < g) := by
  have hr' : (derivCoeffs ⟨b, a⟩).2.1 * (derivCoeffs ⟨b, a⟩).2.1 -
      4 * (derivCoeffs ⟨b, a⟩).1 * (derivCoeffs ⟨b, a⟩).2.2 ≤ 0 ∨
      eps * max (2 * (derivCoeffs ⟨b, a⟩).2.1 * (derivCoeffs ⟨b, a⟩).2.1)
          |4 * (derivCoeffs ⟨b, a⟩).1 * (derivCoeffs ⟨b, a⟩).2.2| <
        (derivCoeffs ⟨b, a⟩).2.1 * (derivCoeffs ⟨b, a⟩).2.1 -
          4 * (derivCoeffs ⟨b, a⟩).1 * (derivCoeffs ⟨b, a⟩).2.2 := by
    unfold Resolved at hr
    unfold eps
    rwa [← pow_two, mul_assoc 2 (derivCoeffs _).2.1 _, ← pow_two]
  obtain ⟨h1, h2⟩ := findPeak_spec (s := ⟨b, a⟩) (by
    intro z hz
    have := hp z hz
    simpa [ha] using this) hr'
  obtain ⟨g1, g2, g3⟩ := findPeak_attained (s := ⟨b, a⟩)
  refine ⟨_, _, rfl, g1, g2, g3, h1, fun t ht1 ht2 => ?_⟩
  refine lt_of_le_of_ne (h1 t) fun h => ?_
  exact absurd (h2 t ht1 (ht2.le.trans g2) h) (not_le.mpr ht2)

/-- A resonance: poles `1/2 ± i/2`. -/
example : ∃ ω g, findPeak ⟨[1, 0, 0], [1, -1, 1 / 2]⟩ = (ω, g) ∧ 0 ≤ ω ∧ ω ≤ Real.pi ∧
    g = ‖response ⟨[1, 0, 0], [1, -1, 1 / 2]⟩ ω‖ ∧
    (∀ t : ℝ, ‖response ⟨[1, 0, 0], [1, -1, 1 / 2]⟩ t‖ ≤ g) ∧
    (∀ t : ℝ, 0 ≤ t → t < ω → ‖response ⟨[1, 0, 0], [1, -1, 1 / 2]⟩ t‖ < g) := by
  refine C72_peak_partial rfl ?_ ?_
  · intro z hz h
    have e : (z - (1 / 2 + 1 / 2 * Complex.I)) * (z - (1 / 2 - 1 / 2 * Complex.I)) = 0 := by
      have hI := Complex.I_sq
      push_cast at h
      linear_combination h - (1 / 4 : ℂ) * hI
    have hn : ∀ w : ℂ, z - w = 0 → Complex.normSq w = 1 := by
      intro w hw
      rw [← sub_eq_zero.mp hw, Complex.normSq_eq_norm_sq, hz]
      norm_num
    rcases mul_eq_zero.mp e with h | h
    · have := hn _ h
      norm_num [Complex.normSq_apply] at this
    · have := hn _ h
      norm_num [Complex.normSq_apply] at this
  · right
    have e : derivCoeffs ⟨[1, 0, 0], [1, -1, 1 / 2]⟩ = (0, -2, 3 / 2) := by
      unfold derivCoeffs squareCoeffs
      norm_num
    simp only [e]
    norm_num

/-- **C72** (`FindPeakFrequencyRadiansPerSample`). For every filter the gain returned is the gain at the frequency
returned, a frequency from 0 to pi, and at least the gains at 0 and at pi. -/
theorem C72_peak_attained (s : Stage ℝ) :
    0 ≤ (findPeak s).1 ∧ (findPeak s).1 ≤ Real.pi ∧ (findPeak s).2 = ‖response s (findPeak s).1‖ ∧
      ‖response s 0‖ ≤ (findPeak s).2 ∧ ‖response s Real.pi‖ ≤ (findPeak s).2 := by
  obtain ⟨g1, g2, g3⟩ := findPeak_attained (s := s)
  obtain ⟨h1, _, _⟩ := search_spec (gainAt s) (extrema s) (0, 0)
  exact ⟨g1, g2, g3, h1 0 (zero_mem_extrema s), h1 _ (pi_mem_extrema s)⟩

/-- The filter of `C72_peak_violation`: a pole pair and a zero pair of the same radius at angles that differ by
about `1e-8`. -/
noncomputable def dipole : Stage ℝ :=
  ⟨[1, -(3 / 2) - 1 / 2 ^ 25, 1 - 1 / 2 ^ 26], [1, -(3 / 2), 1 - 1 / 2 ^ 26]⟩

theorem dipole_gain (y : ℝ) (h1 : -1 ≤ y) (h2 : y ≤ 1) :
    gainAt dipole (Real.arccos y) ^ 2 = poly dipole.b y / poly dipole.a y := by
  rw [gainAt_sq, Real.cos_arccos h1 h2]

theorem dipole_extrema : ∃ m : ℝ, extrema dipole = [0, Real.arccos m, Real.arccos m, Real.pi] ∧ -1 ≤ m ∧ m ≤ 1 ∧
    poly dipole.b m / poly dipole.a m ≤ 2 := by
  obtain ⟨d0, d1, d2, hd, hd0, h1, h2, h3, h4⟩ : ∃ d0 d1 d2 : ℝ, derivCoeffs dipole = (d0, d1, d2) ∧ d0 ≠ 0 ∧
      |d1 * d1 - 4 * d0 * d2| ≤ eps * (2 * d1 * d1) ∧ -1 < -d1 / 2 / d0 ∧ -d1 / 2 / d0 < 1 ∧
      poly dipole.b (-d1 / 2 / d0) / poly dipole.a (-d1 / 2 / d0) ≤ 2 := by
    refine ⟨_, _, _, rfl, ?_, ?_, ?_, ?_, ?_⟩ <;> norm_num [dipole, derivCoeffs, squareCoeffs, eps, poly, abs_of_pos]
  refine ⟨-d1 / 2 / d0, ?_, h2.le, h3.le, h4⟩
  unfold extrema
  simp only [hd]
  unfold realRoots
  rw [if_neg hd0]
  dsimp only
  rw [if_pos (h1.trans (mul_le_mul_of_nonneg_left (le_max_left _ _) eps_pos.le))]
  simp only [Roots.inOrder]
  have : |(-d1 / 2 / d0)| < 1 := abs_lt.mpr ⟨h2, h3⟩
  simp [this]

theorem root_lt_one {c : ℝ} (h1 : 9 / 16 < c) (h2 : c < 1) {z : ℂ} (hz : z ^ 2 - 3 / 2 * z + c = 0) : ‖z‖ < 1 := by
  have hre := congrArg Complex.re hz
  have him := congrArg Complex.im hz
  simp [pow_two] at hre him
  have hzn : ‖z‖ ^ 2 = z.re * z.re + z.im * z.im := by
    rw [← Complex.normSq_eq_norm_sq, Complex.normSq_apply]
  have : ‖z‖ ^ 2 < 1 := by
    rw [hzn]
    by_cases h : z.im = 0
    · rw [h] at hre
      nlinarith [sq_nonneg (z.re - 3 / 4)]
    · have : z.re = 3 / 4 := by
        have h2 : z.im * (2 * z.re - 3 / 2) = 0 := by linarith
        rcases mul_eq_zero.mp h2 with h3 | h3
        · exact absurd h3 h
        · linarith
      rw [this] at hre ⊢
      nlinarith
  nlinarith [norm_nonneg z]

/-- **C72 violation** (`FindPeakFrequencyRadiansPerSample`). A stable filter whose peak gain is greater than 3
although the gain returned is less than 3/2: the maximum and the minimum of the gain are merged into one candidate
between them. -/
theorem C72_peak_violation :
    (∀ z : ℂ, (1 : ℂ) * z ^ 2 + (-(3 / 2) : ℝ) * z + (1 - 1 / 2 ^ 26 : ℝ) = 0 → ‖z‖ < 1) ∧
    (findPeak dipole).2 < 3 / 2 ∧ ∃ ω, 3 < ‖response dipole ω‖ := by
  refine ⟨?_, ?_, Real.arccos (3 / 4 + 41 / 10 ^ 10), ?_⟩
  · intro z hz
    refine root_lt_one (c := 1 - 1 / 2 ^ 26) (by norm_num) (by norm_num) ?_
    rw [← hz]
    push_cast
    ring
  · obtain ⟨m, hm, hm1, hm2, hmg⟩ := dipole_extrema
    obtain ⟨h1, h2, h3⟩ := search_spec (gainAt dipole) (extrema dipole) (0, 0)
    change findPeak dipole = (0, 0) ∨ ∃ l1 l2, extrema dipole = l1 ++ (findPeak dipole).1 :: l2 ∧
      (findPeak dipole).2 = gainAt dipole (findPeak dipole).1 ∧ _ at h3
    rcases h3 with h3 | ⟨l1, l2, e, hg, _⟩
    · rw [h3]; norm_num
    · have hmem : (findPeak dipole).1 ∈ extrema dipole := by rw [e]; simp
      have key : ∀ x ∈ extrema dipole, gainAt dipole x ^ 2 ≤ 2 := by
        intro x hx
        rw [hm] at hx
        simp only [List.mem_cons, List.not_mem_nil, or_false] at hx
        rcases hx with rfl | rfl | rfl | rfl
        · rw [gainAt_sq, Real.cos_zero]
          norm_num [dipole, squareCoeffs, poly]
        · rw [dipole_gain _ hm1 hm2]; exact hmg
        · rw [dipole_gain _ hm1 hm2]; exact hmg
        · rw [gainAt_sq, Real.cos_pi]
          norm_num [dipole, squareCoeffs, poly]
      have := key _ hmem
      rw [← hg] at this
      nlinarith
  · have h := dipole_gain (3 / 4 + 41 / 10 ^ 10) (by norm_num) (by norm_num)
    have h9 : (9 : ℝ) < poly dipole.b (3 / 4 + 41 / 10 ^ 10) / poly dipole.a (3 / 4 + 41 / 10 ^ 10) := by
      norm_num [dipole, squareCoeffs, poly]
    rw [← h] at h9
    have h0 : 0 ≤ gainAt dipole (Real.arccos (3 / 4 + 41 / 10 ^ 10)) := norm_nonneg _
    change 3 < gainAt dipole (Real.arccos (3 / 4 + 41 / 10 ^ 10))
    nlinarith

/-- **C72** (`SetGainAtFrequency`). The gain at the frequency becomes the magnitude of the gain asked for, unless
it was zero. -/
theorem C72_set_gain (s : Stage ℝ) (g ω : ℝ) (h : ‖response s ω‖ ≠ 0) :
    ‖response (setGainAt s g ω) ω‖ = |g| := by
  change gainAt (adjustStage s (g / gainAt s ω)) ω = |g|
  change gainAt s ω ≠ 0 at h
  rw [gainAt_adjust, abs_div, abs_of_nonneg (show 0 ≤ gainAt s ω from norm_nonneg _), div_mul_cancel₀ _ h]

/-- **C72 (part)** (`SetPeakGain`). After it the largest gain is the magnitude of the gain asked for. Missing: as
for `C72_peak_partial`. -/
theorem C72_set_peak_gain_partial {b a : List ℝ} {a0 a1 a2 : ℝ} (ha : a = [a0, a1, a2])
    (hp : ∀ z : ℂ, ‖z‖ = 1 → (a0 : ℂ) * z ^ 2 + a1 * z + a2 ≠ 0) (hr : Resolved ⟨b, a⟩) (g : ℝ)
    (hnz : ∃ t : ℝ, response ⟨b, a⟩ t ≠ 0) :
    (∀ t : ℝ, ‖response (setPeakGain ⟨b, a⟩ g) t‖ ≤ |g|) ∧
      ‖response (setPeakGain ⟨b, a⟩ g) (findPeak ⟨b, a⟩).1‖ = |g| := by
  obtain ⟨ω, p, e, _, _, hg, hmax, _⟩ := C72_peak_partial ha hp hr
  obtain ⟨t0, ht0⟩ := hnz
  have hpos : 0 < p := (norm_pos_iff.mpr ht0).trans_le (hmax t0)
  have hg0 : gainAt ⟨b, a⟩ ω = p := hg.symm
  refine ⟨fun t => ?_, ?_⟩
  · change gainAt (adjustStage ⟨b, a⟩ (g / gainAt ⟨b, a⟩ (findPeak ⟨b, a⟩).1)) t ≤ |g|
    rw [gainAt_adjust, e, hg0, abs_div, abs_of_pos hpos, div_mul_eq_mul_div, div_le_iff₀ hpos]
    exact mul_le_mul_of_nonneg_left (hmax t) (abs_nonneg g)
  · refine C72_set_gain ⟨b, a⟩ g _ ?_
    rw [e]
    dsimp only
    rw [← hg]
    exact hpos.ne'

/-! ## C72: decay time -/

/-- **C72** (`EstimateDecayTime`). The result is infinite exactly if a reported pole is on or outside the unit
circle. -/
theorem C72_decay_infinite (s : Stage ℝ) (decayDb : ℝ) :
    decayTime s decayDb = none ↔ 1 ≤ ‖(getPoles s).1‖ ∨ 1 ≤ ‖(getPoles s).2‖ := by
  unfold decayTime
  dsimp only
  rw [← le_max_iff]
  split_ifs with h1 h2
  · simpa using h1
  · simpa using h1
  · simpa using h1

open Verif.LinearFilter.Spec in
/-- **C72 (part)** (`EstimateDecayTime`). Let the discriminant of the denominator be outside the tolerance zone.
From the returned number of samples on, the impulse response is at most
`(|b0| + |b1| + |b2|) / |a0| * (n + 1) * 10^(-decayDb/20)`: it has decayed by the requested amount up to the linear
factor of a double pole. Missing: a bound without the linear factor, which is false (`C72_decay_violation`). -/
theorem C72_decay_partial {b0 b1 b2 a0 a1 a2 decayDb T : ℝ} (h0 : a0 ≠ 0) (hdb : 0 ≤ decayDb)
    (hd : a1 ^ 2 - 4 * a0 * a2 = 0 ∨
      1 / 2 ^ 52 * max (2 * a1 ^ 2) |4 * a0 * a2| < |a1 ^ 2 - 4 * a0 * a2|)
    (hT : decayTime ⟨[b0, b1, b2], [a0, a1, a2]⟩ decayDb = some T)
    {m : ℕ} {ys : List ℝ}
    (hy : DiffEq [b0, b1, b2] [a0, a1, a2] (1 :: List.replicate m 0) ys) {n : ℕ} (hn : n < m + 1) (hnT : T < n) :
    |ys.getD n 0| ≤ (|b0| + |b1| + |b2|) / |a0| * (n + 1) * (10 : ℝ) ^ (-decayDb / 20) := by
  have hf := C72_poles_partial (b := [b0, b1, b2]) rfl h0 hd
  unfold decayTime at hT
  dsimp only at hT
  obtain ⟨r, hr⟩ : ∃ r, r = max ‖(getPoles ⟨[b0, b1, b2], [a0, a1, a2]⟩).1‖
    ‖(getPoles ⟨[b0, b1, b2], [a0, a1, a2]⟩).2‖ := ⟨_, rfl⟩
  rw [← hr] at hT
  have hp : ‖(getPoles ⟨[b0, b1, b2], [a0, a1, a2]⟩).1‖ ≤ r := hr ▸ le_max_left _ _
  have hq : ‖(getPoles ⟨[b0, b1, b2], [a0, a1, a2]⟩).2‖ ≤ r := hr ▸ le_max_right _ _
  have hr0 : 0 ≤ r := (norm_nonneg _).trans hp
  by_cases h1 : 1 ≤ r
  · rw [if_pos h1] at hT
    exact absurd hT (by simp)
  rw [if_neg h1] at hT
  rw [not_le] at h1
  have hb := impulse_bound h0 hf hp hq h1.le hy hn
  have hK : 0 ≤ (|b0| + |b1| + |b2|) / |a0| := by positivity
  suffices hdec : r ^ (n - 2) ≤ (10 : ℝ) ^ (-decayDb / 20) by
    calc |ys.getD n 0| ≤ (n + 1) * ((|b0| + |b1| + |b2|) / |a0| * r ^ (n - 2)) := hb
      _ = (|b0| + |b1| + |b2|) / |a0| * (n + 1) * r ^ (n - 2) := by ring
      _ ≤ _ := mul_le_mul_of_nonneg_left hdec (mul_nonneg hK (by positivity))
  by_cases hz : r = 0
  · rw [if_pos hz] at hT
    have hT2 : T = 2 := by simpa using hT.symm
    rw [hT2] at hnT
    have hn2 : 2 < n := by exact_mod_cast hnT
    rw [hz, zero_pow (by omega)]
    positivity
  · rw [if_neg hz] at hT
    have hT2 : decayDb / (-20 * Real.logb 10 r) + 2 = T := by simpa using hT
    have hrpos : 0 < r := lt_of_le_of_ne hr0 (Ne.symm hz)
    have hlog : Real.logb 10 r < 0 := Real.logb_neg (by norm_num) hrpos h1
    have hdn : 0 ≤ decayDb / (-20 * Real.logb 10 r) := div_nonneg hdb (by linarith)
    have hn2 : 2 ≤ n := by
      have : (2 : ℝ) < n := by linarith
      exact_mod_cast this.le
    have e1 : r ^ (n - 2) = r ^ ((n : ℝ) - 2) := by
      rw [← Real.rpow_natCast, Nat.cast_sub hn2]
      norm_num
    have e2 : (10 : ℝ) ^ (-decayDb / 20) = r ^ (T - 2) := by
      have : (10 : ℝ) ^ (Real.logb 10 r) = r := Real.rpow_logb (by norm_num) (by norm_num) hrpos
      conv_rhs => rw [← this]
      rw [← Real.rpow_mul (by norm_num), ← hT2]
      congr 1
      have hlne : Real.logb 10 r ≠ 0 := hlog.ne
      field_simp
      ring
    rw [e1, e2]
    exact Real.rpow_le_rpow_of_exponent_ge hrpos h1.le (by linarith)

theorem double_pole : getPoles ⟨[1, 0, 0], [1, -1, 1 / 4]⟩ = (1 / 2, 1 / 2) := by
  unfold getPoles
  simp only [List.getD_cons_zero, List.getD_cons_succ]
  rw [if_pos]
  · norm_num
  · rw [show ((-1) * (-1) - 4 * 1 * (1 / 4) : ℝ) = 0 by norm_num, abs_zero]
    exact mul_nonneg eps_pos.le (le_max_of_le_right (abs_nonneg _))

theorem double_pole_decay (k : ℕ) :
    decayTime ⟨[1, 0, 0], [1, -1, 1 / 4]⟩ (20 * Real.logb 10 2 * k) = some ((k : ℝ) + 2) := by
  unfold decayTime
  dsimp only
  have hn : ‖(1 / 2 : ℂ)‖ = 1 / 2 := by norm_num
  rw [double_pole]
  dsimp only
  rw [hn, max_self, if_neg (by norm_num), if_neg (by norm_num)]
  congr 2
  have : Real.logb 10 (1 / 2) = -Real.logb 10 2 := by rw [one_div, Real.logb_inv]
  rw [this]
  have hl : Real.logb 10 2 ≠ 0 := (Real.logb_pos (by norm_num) (by norm_num)).ne'
  field_simp

open Verif.LinearFilter.Spec in
theorem double_pole_response {m : ℕ} {ys : List ℝ}
    (hy : DiffEq [1, 0, 0] [1, -1, 1 / 4] (1 :: List.replicate m 0) ys) (n : ℕ) (hn : n < m + 1) :
    ys.getD n 0 = (n + 1) / 2 ^ n := by
  obtain ⟨_, hd⟩ := hy
  have hx : ∀ k, (1 :: List.replicate m (0 : ℝ)).getD k 0 = if k = 0 then 1 else 0 := by
    intro k
    cases k with
    | zero => simp
    | succ k =>
      rw [List.getD_cons_succ, if_neg (Nat.succ_ne_zero k)]
      rcases Nat.lt_or_ge k m with h | h
      · rw [List.getD_eq_getElem _ _ (by simpa using h), List.getElem_replicate]
      · rw [List.getD_eq_default _ _ (by simpa using h)]
  have hd' : ∀ k, k < m + 1 → past ys k 0 + -1 * past ys k 1 + 1 / 4 * past ys k 2 = if k = 0 then 1 else 0 := by
    intro k hk
    have := hd k (by simpa using hk)
    simp only [List.length_cons, List.length_nil, Finset.sum_range_succ, Finset.sum_range_zero, List.getD_cons_zero,
      List.getD_cons_succ, zero_add, zero_mul, add_zero, one_mul] at this
    rw [this]
    unfold past
    simp only [Nat.zero_le, if_true, Nat.sub_zero]
    exact hx k
  induction n using Nat.strongRecOn with
  | ind n ih =>
    rcases n with _ | _ | n
    · have := hd' 0 (by omega)
      simp [past] at this ⊢
      exact this
    · have h1 := hd' 1 (by omega)
      have h0 := ih 0 (by omega) (by omega)
      simp [past] at h1 h0 ⊢
      linarith
    · have h2 := hd' (n + 2) (by omega)
      have h1 := ih (n + 1) (by omega) (by omega)
      have h0 := ih n (by omega) (by omega)
      simp only [past, show (0 : ℕ) ≤ n + 2 from Nat.zero_le _, show 1 ≤ n + 2 by omega, show 2 ≤ n + 2 by omega,
        if_true, Nat.sub_zero, show n + 2 - 1 = n + 1 by omega, show n + 2 - 2 = n by omega,
        show n + 2 ≠ 0 by omega, if_false] at h2
      rw [h1, h0] at h2
      have e : ys.getD (n + 2) 0 = ((n + 1 : ℕ) + 1) / 2 ^ (n + 1) - 1 / 4 * ((n + 1) / 2 ^ n) := by linarith
      rw [e]
      push_cast
      field_simp
      ring

open Verif.LinearFilter.Spec in
/-- **C72 violation** (`EstimateDecayTime`). For the double pole 1/2 and a decay of 20 log10(2^10) (60.2) dB the
returned time is 12 samples, but later, at sample 13, the impulse response is still above that level: its first
and largest sample is 1 and sample 13 is `14 / 2^13 > 2^-10`. -/
theorem C72_decay_violation {ys : List ℝ}
    (hy : DiffEq [1, 0, 0] [1, -1, 1 / 4] (1 :: List.replicate 13 0) ys) :
    decayTime ⟨[1, 0, 0], [1, -1, 1 / 4]⟩ (20 * Real.logb 10 (2 ^ 10)) = some 12 ∧
      ys.getD 0 0 = 1 ∧ (10 : ℝ) ^ (-(20 * Real.logb 10 (2 ^ 10)) / 20) < ys.getD 13 0 := by
  have hl : Real.logb 10 (2 ^ 10) = 10 * Real.logb 10 2 := by
    rw [Real.logb_pow]
    norm_num
  refine ⟨?_, ?_, ?_⟩
  · have := double_pole_decay 10
    rw [hl]
    push_cast at this
    rw [show 20 * (10 * Real.logb 10 2) = 20 * Real.logb 10 2 * 10 by ring, this]
    norm_num
  · rw [double_pole_response hy 0 (by norm_num)]
    norm_num
  · rw [double_pole_response hy 13 (by norm_num)]
    have e : -(20 * Real.logb 10 (2 ^ 10)) / 20 = -Real.logb 10 (2 ^ 10) := by ring
    rw [e, Real.rpow_neg (by norm_num), Real.rpow_logb (by norm_num) (by norm_num) (by norm_num)]
    norm_num

open Verif.LinearFilter.Spec in
/-- The hypotheses of `C72_decay_partial`, for the same filter. -/
example {m : ℕ} {ys : List ℝ} (hy : DiffEq [1, 0, 0] [1, -1, 1 / 4] (1 :: List.replicate m 0) ys) {n : ℕ}
    (hn : n < m + 1) (h : 12 < n) :
    |ys.getD n 0| ≤ (|1| + |0| + |0|) / |1| * (n + 1) * (10 : ℝ) ^ (-(20 * Real.logb 10 2 * (10 : ℕ)) / 20) := by
  refine C72_decay_partial (T := (10 : ℕ) + 2) one_ne_zero ?_ (Or.inl (by norm_num)) (double_pole_decay 10) hy hn ?_
  · have : 0 < Real.logb 10 2 := Real.logb_pos (by norm_num) (by norm_num)
    positivity
  · have : (12 : ℝ) < n := by exact_mod_cast h
    push_cast
    linarith

/-! ## C73: the peak of a cascade, found on a grid and refined by bisection -/

/-- **C73** (`FindPeakByBisection`). If the function is positive at one of the 98 inner grid points, the gain
returned is the value at the frequency returned, which is inside the interval, and it is at least the value at
every grid point. -/
theorem C73_bisection_grid {fn : ℝ → ℝ} {lo hi : ℝ} (hlh : lo < hi)
    (hpos : ∃ k : ℕ, 1 ≤ k ∧ k ≤ 98 ∧ 0 < fn (lo + k * ((hi - lo) / 99))) :
    ∃ x, bisection fn lo hi = some (x, fn x) ∧ lo < x ∧ x < hi ∧
      ∀ j : ℕ, 1 ≤ j → j ≤ 98 → fn (lo + j * ((hi - lo) / 99)) ≤ fn x := by
  obtain ⟨k, hk1, hk2, hs, hall⟩ := grid_spec hpos
  obtain ⟨r, hr⟩ : ∃ r, r = refine fn 20 ((hi - lo) / 99) (lo + k * ((hi - lo) / 99),
    fn (lo + k * ((hi - lo) / 99))) := ⟨_, rfl⟩
  have hstep : 0 < (hi - lo) / 99 := by linarith
  obtain ⟨h1, h2, h3⟩ := refine_basic fn 20 ((hi - lo) / 99) _ hstep
    (show (lo + k * ((hi - lo) / 99), fn (lo + k * ((hi - lo) / 99))).2 = _ from rfl)
  rw [← hr] at h1 h2 h3
  dsimp only at h2 h3
  have h3' := abs_lt.mp h3
  have hk1' : (1 : ℝ) ≤ k := by exact_mod_cast hk1
  have hk2' : (k : ℝ) ≤ 98 := by exact_mod_cast hk2
  refine ⟨r.1, ?_, ?_, ?_, ?_⟩
  · unfold bisection
    rw [if_pos hlh]
    dsimp only
    rw [hs, ← hr, ← h1]
  · nlinarith
  · nlinarith
  · intro j hj1 hj2
    rw [← h1]
    exact (hall j hj1 hj2).trans h2

/-- **C73** (`FindPeakByBisection`). If the function increases strictly up to `p` and decreases strictly after it,
and is positive in between, the frequency returned is within `(hi - lo) / (99 * 2^20)` of `p`, or within the
tolerance `1e-9 + 5e-6 x` of the loop. -/
theorem C73_bisection_unimodal {fn : ℝ → ℝ} {lo hi p : ℝ} (hlh : lo < hi) (hp1 : lo ≤ p) (hp2 : p ≤ hi)
    (hinc : StrictMonoOn fn (Set.Icc lo p)) (hdec : StrictAntiOn fn (Set.Icc p hi))
    (hpos : ∀ x, lo < x → x < hi → 0 < fn x) :
    ∃ x, bisection fn lo hi = some (x, fn x) ∧
      |x - p| ≤ max ((hi - lo) / 99 / 2 ^ 20) (1 / 10 ^ 9 + 5 / 10 ^ 6 * x) := by
  have hstep : 0 < (hi - lo) / 99 := by linarith
  have hnn : ∃ k : ℕ, 1 ≤ k ∧ k ≤ 98 ∧ 0 < fn (lo + k * ((hi - lo) / 99)) := by
    refine ⟨1, le_refl _, by norm_num, hpos _ ?_ ?_⟩ <;> push_cast <;> linarith
  obtain ⟨k, hk1, hk2, hs, hall⟩ := grid_spec hnn
  obtain ⟨h1, h2, h3⟩ := refine_basic fn 20 ((hi - lo) / 99) _ hstep
    (show (lo + k * ((hi - lo) / 99), fn (lo + k * ((hi - lo) / 99))).2 = _ from rfl)
  have hk1' : (1 : ℝ) ≤ k := by exact_mod_cast hk1
  have hk2' : (k : ℝ) ≤ 98 := by exact_mod_cast hk2
  obtain ⟨st, hst⟩ : ∃ st, st = (hi - lo) / 99 := ⟨_, rfl⟩
  rw [← hst] at hs hall h1 h2 h3 hstep ⊢
  have hhi : hi = lo + 99 * st := by rw [hst]; ring
  have hx1 : lo ≤ lo + k * st - st := by nlinarith
  have hx2 : lo + k * st + st ≤ hi := by rw [hhi]; nlinarith
  have hub : p ≤ lo + k * st + st := by
    by_contra h
    rw [not_le] at h
    by_cases hk : k = 98
    · rw [hk] at h
      push_cast at h
      linarith
    · have := hall (k + 1) (by omega) (by omega)
      have hlt := hinc ⟨by nlinarith, by linarith⟩ ⟨by nlinarith, h.le⟩ (show lo + k * st < lo + k * st + st by linarith)
      push_cast at this
      rw [show lo + ((k : ℝ) + 1) * st = lo + k * st + st by ring] at this
      linarith
  have hlb : lo + k * st - st ≤ p := by
    by_contra h
    rw [not_le] at h
    by_cases hk : k = 1
    · rw [hk] at h
      push_cast at h
      linarith
    · have := hall (k - 1) (by omega) (by omega)
      have hlt := hdec ⟨h.le, by linarith⟩ ⟨by linarith, by linarith⟩ (show lo + k * st - st < lo + k * st by linarith)
      rw [Nat.cast_sub hk1] at this
      push_cast at this
      rw [show lo + ((k : ℝ) - 1) * st = lo + k * st - st by ring] at this
      linarith
  have := refine_unimodal hinc hdec 20 st (lo + k * st, fn (lo + k * st)) hstep rfl hx1 hx2
    (abs_le.mpr ⟨by dsimp only; linarith, by dsimp only; linarith⟩)
  refine ⟨_, ?_, this⟩
  unfold bisection
  rw [if_pos hlh]
  dsimp only
  rw [← hst, hs, ← h1]

example : ∃ x, bisection (fun x => 4 - (x - 1 / 3) ^ 2) 0 2 = some (x, 4 - (x - 1 / 3) ^ 2) ∧
    |x - 1 / 3| ≤ max ((2 - 0) / 99 / 2 ^ 20) (1 / 10 ^ 9 + 5 / 10 ^ 6 * x) := by
  refine C73_bisection_unimodal (fn := fun x => 4 - (x - 1 / 3) ^ 2) (by norm_num) (by norm_num) (by norm_num)
    ?_ ?_ ?_
  · rintro x ⟨_, hx⟩ y ⟨_, hy⟩ hxy
    dsimp only
    nlinarith
  · rintro x ⟨hx, _⟩ y ⟨hy, _⟩ hxy
    dsimp only
    nlinarith
  · intro x hx1 hx2
    nlinarith

theorem refine_const (c : ℝ) (n : ℕ) : ∀ (step : ℝ) (best : ℝ × ℝ), best.2 = c →
    refine (fun _ => c) n step best = best := by
  induction n with
  | zero => intros; rfl
  | succ n ih =>
    intro step best h
    unfold refine
    dsimp only
    rw [if_neg (show ¬ best.2 < c by rw [h]; exact lt_irrefl _),
      if_neg (show ¬ best.2 < c by rw [h]; exact lt_irrefl _), ih _ _ h, ite_self]

theorem search_const (c : ℝ) (l : List ℝ) (best : ℝ × ℝ) (h : best.2 = c) : search (fun _ => c) best l = best := by
  induction l with
  | nil => rfl
  | cons x xs ih =>
    unfold search
    rw [if_neg (by rw [h]; exact lt_irrefl _)]
    exact ih

/-- **C73 violation** (`BiquadFilterCascadeCoefficients::FindPeakFrequencyRadiansPerSample`, "if multiple
frequencies have the same gain, the lowest frequency is returned", and "for identity filter, this [0] will be the
answer"). For the identity filter, of gain 1 at every frequency, the frequency returned is `pi / 99`, not 0. -/
theorem C73_identity_violation :
    findCascadePeak [⟨[1, 0, 0], [1, 0, 0]⟩] = some (Real.pi / 99, 1) ∧
      ∀ ω : ℝ, ‖evalCascade Complex.ofRealHom [⟨[1, 0, 0], [1, 0, 0]⟩] (Complex.exp (ω * Complex.I))‖ = 1 := by
  have h : ∀ ω : ℝ, ‖evalCascade Complex.ofRealHom [⟨[1, 0, 0], [1, 0, 0]⟩] (Complex.exp (ω * Complex.I))‖ = 1 := by
    intro ω
    unfold evalCascade evalStage
    simp
  refine ⟨?_, h⟩
  unfold findCascadePeak
  simp only [h]
  unfold bisection
  rw [if_pos Real.pi_pos]
  dsimp only
  rw [List.range_succ_eq_map (n := 97), List.map_cons]
  unfold search
  rw [if_pos (by norm_num), search_const 1 _ _ rfl, refine_const 1 20 _ _ rfl]
  simp

/-- A lowpass, and a resonance at `pi / 2`, half way between two grid points. -/
noncomputable def twoPeaks : List (Stage ℝ) :=
  [⟨[1, 1 / 2, 0], [1, 0, 0]⟩, ⟨[1, 0, 99 / 100], [1, 0, 999 / 1000]⟩]

theorem twoPeaks_gain (ω : ℝ) :
    ‖evalCascade Complex.ofRealHom twoPeaks (Complex.exp (ω * Complex.I))‖ ^ 2 =
      (5 / 4 + Real.cos ω) * ((1 / 10000 + 99 / 25 * Real.cos ω ^ 2) /
        (1 / 1000000 + 999 / 250 * Real.cos ω ^ 2)) := by
  have e : ‖evalCascade Complex.ofRealHom twoPeaks (Complex.exp (ω * Complex.I))‖ =
      gainAt ⟨[1, 1 / 2, 0], [1, 0, 0]⟩ ω * gainAt ⟨[1, 0, 99 / 100], [1, 0, 999 / 1000]⟩ ω := by
    unfold gainAt response evalCascade twoPeaks
    simp only [List.foldl_cons, List.foldl_nil, one_mul, norm_mul]
  rw [e, mul_pow, gainAt_sq, gainAt_sq]
  norm_num [poly, squareCoeffs]
  ring_nf

/-- **C73 violation** (`BiquadFilterCascadeCoefficients::FindPeakFrequencyRadiansPerSample`). For this
cascade of two stages (all poles of magnitude below one) the gain returned is less than 2, although the gain at the frequency `pi / 2` is more
than 11. -/
theorem C73_peak_violation :
    (∃ ω g, findCascadePeak twoPeaks = some (ω, g) ∧ g < 2) ∧
      11 < ‖evalCascade Complex.ofRealHom twoPeaks (Complex.exp ((Real.pi / 2 : ℝ) * Complex.I))‖ := by
  obtain ⟨fn, hfn⟩ : ∃ fn : ℝ → ℝ, fn = fun ω : ℝ =>
    ‖evalCascade Complex.ofRealHom twoPeaks (Complex.exp (ω * Complex.I))‖ := ⟨_, rfl⟩
  have hsq : ∀ ω, fn ω ^ 2 = (5 / 4 + Real.cos ω) * ((1 / 10000 + 99 / 25 * Real.cos ω ^ 2) /
        (1 / 1000000 + 999 / 250 * Real.cos ω ^ 2)) := by
    intro ω
    rw [hfn]
    exact twoPeaks_gain ω
  have hnn : ∀ ω, 0 ≤ fn ω := by
    intro ω
    rw [hfn]
    exact norm_nonneg _
  have hpi4 := Real.pi_le_four
  obtain ⟨st, hst⟩ : ∃ st, st = Real.pi / 99 := ⟨_, rfl⟩
  have hst0 : 0 < st := by rw [hst]; positivity
  have hst4 : st ≤ 4 / 99 := by rw [hst]; linarith
  -- the first grid point
  have hfirst : 2 < fn st ^ 2 := by
    rw [hsq]
    have hc : 1 - st ^ 2 / 2 ≤ Real.cos st := Real.one_sub_sq_div_two_le_cos
    have hc1 := Real.cos_le_one st
    generalize Real.cos st = y at *
    have hy : (99 / 100 : ℝ) ≤ y := by nlinarith
    have hD : 0 < 1 / 1000000 + 999 / 250 * y ^ 2 := by positivity
    rw [← mul_div_assoc, lt_div_iff₀ hD]
    nlinarith
  -- the grid points at which the cosine is not large
  have hlow : ∀ x, 1 / 99 ≤ |Real.cos x| → Real.cos x < 18 / 25 → fn x ^ 2 < 2 := by
    intro x h1 h2
    rw [hsq]
    generalize Real.cos x = y at *
    have hy2 : (1 / 99 : ℝ) ^ 2 ≤ y ^ 2 := by rw [← sq_abs y]; exact pow_le_pow_left₀ (by norm_num) h1 2
    have hD : 0 < 1 / 1000000 + 999 / 250 * y ^ 2 := by positivity
    rw [← mul_div_assoc, div_lt_iff₀ hD]
    by_cases hy : y < 1 / 10
    · nlinarith
    · nlinarith
  have hgridcos : ∀ k : ℕ, k ≤ 49 → 1 / 99 ≤ Real.cos (k * st) := by
    intro k hk
    have hk' : (k : ℝ) ≤ 49 := by exact_mod_cast hk
    have h1 : (k : ℝ) * st ≤ 49 * st := mul_le_mul_of_nonneg_right hk' hst0.le
    have h2 : 0 ≤ (k : ℝ) * st := by positivity
    have hpi : Real.pi = 99 * st := by rw [hst]; ring
    have h3 := Real.mul_le_sin (x := Real.pi / 2 - k * st) (by linarith) (by linarith)
    rw [Real.sin_pi_div_two_sub] at h3
    refine le_trans ?_ h3
    rw [div_mul_eq_mul_div, le_div_iff₀ Real.pi_pos]
    linarith
  have hgridabs : ∀ k : ℕ, k ≤ 99 → 1 / 99 ≤ |Real.cos (k * st)| := by
    intro k hk
    rcases Nat.lt_or_ge k 50 with h | h
    · exact (hgridcos k (by omega)).trans (le_abs_self _)
    · have h1 := hgridcos (99 - k) (by omega)
      have e : (((99 - k : ℕ) : ℝ)) * st = Real.pi - k * st := by
        rw [Nat.cast_sub hk, hst]
        push_cast
        ring
      rw [e, Real.cos_pi_sub] at h1
      exact h1.trans (neg_le_abs _)
  have hpos : ∃ k : ℕ, 1 ≤ k ∧ k ≤ 98 ∧ 0 < fn (0 + k * st) := by
    refine ⟨1, le_refl _, by norm_num, ?_⟩
    push_cast
    rw [zero_add, one_mul]
    nlinarith [hnn st]
  obtain ⟨k, hk1, hk2, hs, hall⟩ := grid_spec hpos
  simp only [zero_add] at hs hall
  have hyk : 18 / 25 ≤ Real.cos (k * st) := by
    by_contra h
    have h1 := hlow _ (hgridabs k (by omega)) (not_le.mp h)
    have h2 := hall 1 (le_refl _) (by norm_num)
    push_cast at h2
    rw [one_mul] at h2
    have := pow_le_pow_left₀ (hnn st) h2 2
    linarith
  obtain ⟨h1, h2, h3⟩ := refine_basic fn 20 st (k * st, fn (k * st)) hst0 rfl
  obtain ⟨r, hr⟩ : ∃ r, r = refine fn 20 st (k * st, fn (k * st)) := ⟨_, rfl⟩
  rw [← hr] at h1 h2 h3
  refine ⟨⟨r.1, r.2, ?_, ?_⟩, ?_⟩
  · unfold findCascadePeak bisection
    rw [if_pos Real.pi_pos]
    dsimp only
    rw [← hfn, sub_zero, ← hst]
    simp only [zero_add]
    rw [hs, ← hr]
  · have hc : |Real.cos r.1 - Real.cos (k * st)| ≤ |r.1 - k * st| := Real.abs_cos_sub_cos_le _ _
    dsimp only at h3
    have hc2 := abs_le.mp (hc.trans h3.le)
    have hy : 33 / 50 ≤ Real.cos r.1 := by linarith
    have hy1 := Real.cos_le_one r.1
    have : fn r.1 ^ 2 < 4 := by
      rw [hsq]
      generalize Real.cos r.1 = y at *
      have hD : 0 < 1 / 1000000 + 999 / 250 * y ^ 2 := by positivity
      rw [← mul_div_assoc, div_lt_iff₀ hD]
      nlinarith
    rw [h1]
    nlinarith [hnn r.1]
  · have h := hsq (Real.pi / 2)
    rw [Real.cos_pi_div_two] at h
    norm_num at h
    have e : fn (Real.pi / 2) = ‖evalCascade Complex.ofRealHom twoPeaks
      (Complex.exp ((Real.pi / 2 : ℝ) * Complex.I))‖ := by rw [hfn]
    rw [← e]
    nlinarith [hnn (Real.pi / 2)]

end Verif.BiquadAnalysis
