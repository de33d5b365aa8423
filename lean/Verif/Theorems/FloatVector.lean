import Verif.Proof.FloatVector
import Verif.Proof.Ieee
import Verif.Theorems.FloatAgc

/-!
# C108: vector statistics in floating point
-/

namespace Verif.FloatVector
open Verif.Rounding

/-- The mean of a vector. -/
noncomputable def exactMean (x : List ℝ) : ℝ := x.sum / x.length

/-- The mean of the absolute values. -/
noncomputable def meanAbs (x : List ℝ) : ℝ := (x.map (|·|)).sum / x.length

/-- The mean of the squares. -/
noncomputable def meanSquare (x : List ℝ) : ℝ := (x.map (· ^ 2)).sum / x.length

/-- The mean of the squared differences from the mean. -/
noncomputable def exactVariance (x : List ℝ) : ℝ := (x.map fun v => (v - exactMean x) ^ 2).sum / x.length

section
variable {rnd rndE : ℝ → ℝ} {u η : ℝ} {x : List ℝ}

/-- **C108.** `Sum` is accurate for vectors that are not too long for the precision. -/
theorem C108_sum (hr : Accurate rnd u η) (u0 : 0 ≤ u) (hu : 2 * (x.length * u) ≤ 1) :
    |sum rnd x - x.sum| ≤ 2 * (x.length * u) * (x.map (|·|)).sum + 2 * x.length * η := by
  have e := sum_error hr u0 x
  have p := FloatLadder.pow_linear u0 x.length hu
  have η0 := hr.eta_nonneg
  have A0 := sum_abs_nonneg x
  have n0 : (0 : ℝ) ≤ x.length := Nat.cast_nonneg _
  have e1 := mul_le_mul_of_nonneg_right (by linarith : (1 + u) ^ x.length - 1 ≤ 2 * (x.length * u)) A0
  have e2 := mul_le_mul_of_nonneg_right (mul_le_mul_of_nonneg_left (by linarith : (1 + u) ^ x.length ≤ 2) n0) η0
  linarith

/-- **C108.** The same for `SumSquaredMagnitudes` and `RealDotProduct`. -/
theorem C108_dot_product (hr : Accurate rnd u η) (u0 : 0 ≤ u) {l : List (ℝ × ℝ)} (hu : 2 * ((l.length + 1) * u) ≤ 1) {s : ℝ}
    (h : DotProduct rnd l s) :
    |s - (l.map fun p => p.1 * p.2).sum| ≤
      2 * ((l.length + 1) * u) * (l.map fun p => |p.1 * p.2|).sum + 4 * l.length * η := by
  have e := h.error hr u0
  have p := FloatLadder.pow_linear u0 (l.length + 1) (by push_cast; exact hu)
  push_cast at p
  have η0 := hr.eta_nonneg
  have A0 := sum_abs_nonneg (l.map fun p => p.1 * p.2)
  rw [List.map_map] at A0
  have n0 : (0 : ℝ) ≤ 2 * l.length := by positivity
  have e1 := mul_le_mul_of_nonneg_right (by linarith : (1 + u) ^ (l.length + 1) - 1 ≤ 2 * ((l.length + 1) * u)) A0
  have e2 := mul_le_mul_of_nonneg_right (mul_le_mul_of_nonneg_left (by linarith : (1 + u) ^ (l.length + 1) ≤ 2) n0) η0
  simp only [Function.comp_def] at e1
  linarith

theorem variance_eq (hx : x ≠ []) : exactVariance x = meanSquare x - exactMean x ^ 2 := by
  have n0 : (0 : ℝ) < x.length := by exact_mod_cast List.length_pos_iff.2 hx
  have key : ∀ (m : ℝ) (y : List ℝ), (y.map fun v => (v - m) ^ 2).sum =
      (y.map (· ^ 2)).sum - 2 * m * y.sum + y.length * m ^ 2 := by
    intro m y
    induction y with
    | nil => simp
    | cons v y ih => simp only [List.map_cons, List.sum_cons, ih, List.length_cons]; push_cast; ring
  unfold exactVariance meanSquare
  rw [key]
  unfold exactMean
  field_simp
  ring

theorem meanAbs_sq_le (hx : x ≠ []) : meanAbs x ^ 2 ≤ meanSquare x := by
  have n0 : (0 : ℝ) < x.length := by exact_mod_cast List.length_pos_iff.2 hx
  unfold meanAbs meanSquare
  rw [div_pow, div_le_div_iff₀ (by positivity) n0]
  have := mul_le_mul_of_nonneg_right (abs_mean_sq_le x) n0.le
  nlinarith

/-- **C108.** The mean that `ComputeSecondOrderStats` computes is accurate. -/
theorem C108_mean (hr : Accurate rnd u η) (u0 : 0 ≤ u) (hn : rnd x.length = x.length) (hu : 8 * ((x.length + 3) * u) ≤ 1)
    {mean variance : ℝ} (h : IsStats rnd x mean variance) :
    |mean - exactMean x| ≤ 2 * ((x.length + 1) * u) * meanAbs x + 4 * η := by
  obtain ⟨hx, a, b, hm, rfl, -⟩ := h
  have n1 : (1 : ℝ) ≤ x.length := by exact_mod_cast List.length_pos_iff.2 hx
  have n0 : (0 : ℝ) < x.length := by linarith
  have η0 := hr.eta_nonneg
  rw [hn, hm.fst]
  have hu' : 2 * (x.length * u) ≤ 1 := by nlinarith
  have d := div_error hr n0 u0 (C108_sum hr u0 hu')
  have A0 := sum_abs_nonneg x
  have hA := abs_sum_le x
  unfold exactMean meanAbs
  have e1 : |x.sum| / x.length ≤ (x.map (|·|)).sum / x.length := div_le_div_of_nonneg_right hA n0.le
  have e2 : (2 * (x.length * u) * (x.map (|·|)).sum + 2 * x.length * η) / x.length =
      2 * (x.length * u) * ((x.map (|·|)).sum / x.length) + 2 * η := by field_simp
  rw [e2] at d
  have B0 : 0 ≤ (x.map (|·|)).sum / x.length := by positivity
  generalize (x.map (|·|)).sum / x.length = B at *
  generalize (x.length : ℝ) = n at *
  have e3 := mul_le_mul_of_nonneg_left e1 u0
  have u1 : u ≤ 1 / 32 := by nlinarith
  have e4 : n * u * u * B ≤ 1 / 8 * u * B := by
    apply mul_le_mul_of_nonneg_right _ B0
    apply mul_le_mul_of_nonneg_right _ u0
    nlinarith
  nlinarith [mul_nonneg u0 B0]

theorem meanSquare_error (hr : Accurate rnd u η) (u0 : 0 ≤ u) (hx : x ≠ []) (hu : 8 * ((x.length + 3) * u) ≤ 1) {a b : ℝ}
    (hm : Moments rnd x a b) :
    |rnd (b / x.length) - meanSquare x| ≤ 2 * ((x.length + 2) * u) * meanSquare x + 4 * η := by
  have n1 : (1 : ℝ) ≤ x.length := by exact_mod_cast List.length_pos_iff.2 hx
  have n0 : (0 : ℝ) < x.length := by linarith
  have η0 := hr.eta_nonneg
  have p := FloatLadder.pow_linear u0 (x.length + 1) (by push_cast; nlinarith)
  push_cast at p
  have hb := hm.snd_error hr u0
  have Q0 := sum_sq_nonneg x
  have hb' : |b - (x.map (· ^ 2)).sum| ≤ 2 * ((x.length + 1) * u) * (x.map (· ^ 2)).sum + 5 / 2 * x.length * η := by
    have e1 := mul_le_mul_of_nonneg_right (by linarith : (1 + u) ^ (x.length + 1) - 1 ≤ 2 * ((x.length + 1) * u)) Q0
    have e2 := mul_le_mul_of_nonneg_right (mul_le_mul_of_nonneg_left
      (by nlinarith : (1 + u) ^ (x.length + 1) ≤ 5 / 4) (by positivity : (0 : ℝ) ≤ 2 * x.length)) η0
    linarith
  have d := div_error hr n0 u0 hb'
  rw [abs_of_nonneg Q0] at d
  have e2 : (2 * ((x.length + 1) * u) * (x.map (· ^ 2)).sum + 5 / 2 * x.length * η) / x.length =
      2 * ((x.length + 1) * u) * meanSquare x + 5 / 2 * η := by unfold meanSquare; field_simp
  rw [e2] at d
  change |rnd (b / x.length) - meanSquare x| ≤ u * meanSquare x + _ + _ at d
  have Q1 : 0 ≤ meanSquare x := by unfold meanSquare; positivity
  generalize meanSquare x = Q at *
  generalize (x.length : ℝ) = n at *
  have u1 : u ≤ 1 / 32 := by nlinarith
  have e4 : (n + 1) * u * u * Q ≤ 1 / 8 * u * Q := by
    apply mul_le_mul_of_nonneg_right _ Q1
    apply mul_le_mul_of_nonneg_right _ u0
    nlinarith
  nlinarith [mul_nonneg u0 Q1]

/-- The square of the rounded mean. -/
theorem square_of_mean {n w Q μ mean : ℝ} (u0 : 0 ≤ u) (η0 : 0 ≤ η) (hη : 100 * η ≤ u) (n1 : 1 ≤ n)
    (hu : 8 * ((n + 3) * u) ≤ 1) (μA : |μ| ≤ w) (AQ : w ^ 2 ≤ Q)
    (em : |mean - μ| ≤ 2 * ((n + 1) * u) * w + 4 * η) :
    |mean ^ 2 - μ ^ 2| ≤ 9 / 2 * ((n + 1) * u) * Q + 1 / 20 * (u * Q) + 6 * η ∧ mean ^ 2 ≤ 2 * Q + η := by
  have A0 : 0 ≤ w := (abs_nonneg _).trans μA
  have Q0 : 0 ≤ Q := (sq_nonneg w).trans AQ
  have nu : (n + 1) * u ≤ 1 / 8 := by nlinarith
  have u1 : u ≤ 1 / 32 := by nlinarith
  have η1 : η ≤ 1 / 3200 := by linarith
  have ηQ : η * Q ≤ u / 100 * Q := mul_le_mul_of_nonneg_right (by linarith) Q0
  have uQ := mul_nonneg u0 Q0
  have ηw : 2 * (η * w) ≤ η + η * Q := by nlinarith [mul_nonneg η0 (sq_nonneg (w - 1)), mul_le_mul_of_nonneg_left AQ η0]
  have ηη : η * η ≤ 1 / 3200 * η := mul_le_mul_of_nonneg_right η1 η0
  obtain ⟨d, hd⟩ : ∃ d, |mean - μ| = d := ⟨_, rfl⟩
  rw [hd] at em
  have d0 : 0 ≤ d := hd ▸ abs_nonneg _
  have nuw : 0 ≤ (n + 1) * u * w := by positivity
  have dw : d ≤ 1 / 4 * w + 4 * η := by
    have := mul_le_mul_of_nonneg_right nu A0
    linarith
  have m0 : |mean| ≤ w + d := by
    have := abs_add_le (mean - μ) μ
    rw [sub_add_cancel, hd] at this
    linarith
  have sq : |mean ^ 2 - μ ^ 2| ≤ d * (2 * w + d) := by
    rw [show mean ^ 2 - μ ^ 2 = (mean - μ) * (mean + μ) by ring, abs_mul, hd]
    apply mul_le_mul_of_nonneg_left _ d0
    have := abs_add_le mean μ
    linarith
  refine ⟨sq.trans ?_, ?_⟩
  · have s1 : d * (2 * w + d) ≤ (2 * ((n + 1) * u) * w + 4 * η) * (9 / 4 * w + 4 * η) :=
      mul_le_mul em (by linarith) (by positivity) (by positivity)
    have s2 : (n + 1) * u * w ^ 2 ≤ (n + 1) * u * Q := mul_le_mul_of_nonneg_left AQ (by positivity)
    have s3 : (n + 1) * u * (η * w) ≤ 1 / 8 * (η * w) := mul_le_mul_of_nonneg_right nu (by positivity)
    have s4 : (2 * ((n + 1) * u) * w + 4 * η) * (9 / 4 * w + 4 * η) =
      9 / 2 * ((n + 1) * u * w ^ 2) + 8 * ((n + 1) * u * (η * w)) + 9 * (η * w) + 16 * (η * η) := by ring
    linarith
  · have s1 : mean ^ 2 ≤ (5 / 4 * w + 4 * η) ^ 2 := by
      rw [← sq_abs mean]
      exact pow_le_pow_left₀ (abs_nonneg _) (by linarith) 2
    have h3 : 10 * (η * w) ≤ 1 / 10 * w ^ 2 + 250 * (η * η) := by nlinarith [sq_nonneg (w - 50 * η)]
    nlinarith

/-- **C108.** The one-pass variance is accurate relative to the mean square (not to the variance). -/
theorem C108_variance (hr : Accurate rnd u η) (u0 : 0 ≤ u) (hη : 100 * η ≤ u) (hn : rnd x.length = x.length)
    (hu : 8 * ((x.length + 3) * u) ≤ 1) {mean variance : ℝ} (h : IsStats rnd x mean variance) :
    |variance - exactVariance x| ≤ 7 * ((x.length + 3) * u) * meanSquare x + 20 * η := by
  have em := C108_mean hr u0 hn hu h
  obtain ⟨hx, a, b, hm, hmean, hv⟩ := h
  have n1 : (1 : ℝ) ≤ x.length := by exact_mod_cast List.length_pos_iff.2 hx
  have n0 : (0 : ℝ) < x.length := by linarith
  have η0 := hr.eta_nonneg
  rw [variance_eq hx]
  rw [hn] at hv
  have μA : |exactMean x| ≤ meanAbs x := by
    unfold exactMean meanAbs
    rw [abs_div, abs_of_pos n0]
    exact div_le_div_of_nonneg_right (abs_sum_le x) n0.le
  have AQ := meanAbs_sq_le hx
  have eq := meanSquare_error hr u0 hx hu hm
  have e := hv.error hr u0
  obtain ⟨sq, msq⟩ := square_of_mean u0 η0 hη n1 hu μA AQ em
  have Q0 : 0 ≤ meanSquare x := (sq_nonneg _).trans AQ
  clear hmean hm hn hv em μA AQ hr
  generalize rnd (b / x.length) = q at *
  generalize exactMean x = μ at *
  generalize meanSquare x = Q at *
  generalize (x.length : ℝ) = n at *
  have u1 : u ≤ 1 / 32 := by nlinarith
  have uQ := mul_nonneg u0 Q0
  have qq : |q| ≤ 5 / 4 * Q + Q / 4 + 4 * η := by
    have := abs_add_le (q - Q) Q
    rw [sub_add_cancel, abs_of_nonneg Q0] at this
    have : (n + 2) * u * Q ≤ 1 / 8 * Q := mul_le_mul_of_nonneg_right (by nlinarith) Q0
    linarith
  rw [show -mean * mean = -(mean ^ 2) by ring, abs_neg, abs_of_nonneg (sq_nonneg mean)] at e
  have t1 := abs_add_le (variance - (-(mean ^ 2) + q)) (-(mean ^ 2) + q - (Q - μ ^ 2))
  rw [sub_add_sub_cancel] at t1
  have t2 := abs_sub (q - Q) (mean ^ 2 - μ ^ 2)
  rw [show q - Q - (mean ^ 2 - μ ^ 2) = -(mean ^ 2) + q - (Q - μ ^ 2) by ring] at t2
  have t3 : (2 * u + u ^ 2) * mean ^ 2 ≤ (2 * u + u ^ 2) * (2 * Q + η) := mul_le_mul_of_nonneg_left msq (by positivity)
  have t4 : (2 * u + u ^ 2) * (2 * Q + η) ≤ 9 / 2 * (u * Q) + η := by
    have : u ^ 2 ≤ 1 / 32 * u := by nlinarith
    have a1 := mul_le_mul_of_nonneg_right this Q0
    have a2 := mul_le_mul_of_nonneg_right this η0
    have a3 := mul_le_mul_of_nonneg_right u1 η0
    linarith
  have t5 := mul_le_mul_of_nonneg_left qq u0
  have a3 := mul_le_mul_of_nonneg_right u1 η0
  have nuQ : u * Q ≤ n * (u * Q) := le_mul_of_one_le_left uQ n1
  clear hu hη
  linarith

/-- **C108.** `ZScoreNormalize` gives numbers whenever the variance exceeds that error and the floor is positive. -/
theorem C108_zscore_partial (hr : Accurate rnd u η) (u0 : 0 ≤ u) (hη : 100 * η ≤ u) (hR : Regular rnd) (hE : Regular rndE)
    (hn : rnd x.length = x.length) (hu : 8 * ((x.length + 3) * u) ≤ 1) {floor : ℝ} (hf : 0 < rndE (rnd floor))
    (hv : 7 * ((x.length + 3) * u) * meanSquare x + 20 * η ≤ exactVariance x) {r : Option (List ℝ)}
    (h : ZScore rnd rndE floor x r) : ∃ y, r = some y ∧ y.length = x.length := by
  unfold ZScore at h
  split at h
  · rename_i h'; exact ⟨[], h, by simp [h']⟩
  · obtain ⟨mean, variance, hs, h⟩ := h
    have e := (abs_le.1 (C108_variance hr u0 hη hn hu hs)).1
    rw [if_neg (by linarith)] at h
    have : 0 < rndE (rnd (floor + rnd √variance)) := by
      refine hf.trans_le (hE.mono (hR.mono ?_))
      have := hR.nonneg (Real.sqrt_nonneg variance)
      linarith
    rw [if_neg this.ne'] at h
    exact ⟨_, h, by simp⟩

/-- The root of the mean of the squared differences. -/
noncomputable def exactRmsError (x : List (ℝ × ℝ)) : ℝ := √((x.map fun p => (p.1 - p.2) ^ 2).sum / x.length)

theorem SquaredErrors.dot {x : List (ℝ × ℝ)} {s : ℝ} (h : SquaredErrors rnd x s) :
    DotProduct rnd (x.map fun p => (rnd (p.1 - p.2), rnd (p.1 - p.2))) s := by
  induction h with
  | nil => exact .nil
  | snoc _ h2 ih => rw [List.map_append]; exact .snoc ih h2

theorem SquaredErrors.nonneg (hR : Regular rnd) {x : List (ℝ × ℝ)} {s : ℝ} (h : SquaredErrors rnd x s) : 0 ≤ s := by
  induction h with
  | nil => exact le_rfl
  | snoc _ h2 ih =>
    rcases h2 with rfl | rfl
    · exact hR.nonneg (add_nonneg (hR.nonneg (mul_self_nonneg _)) ih)
    · exact hR.nonneg (add_nonneg (mul_self_nonneg _) ih)

/-- The squares of rounded differences. -/
theorem sum_rounded_squares (hr : Accurate rnd u η) (u0 : 0 ≤ u) (hη : 100 * η ≤ u) (u1 : u ≤ 1 / 32) (x : List (ℝ × ℝ)) :
    |(x.map fun p => rnd (p.1 - p.2) * rnd (p.1 - p.2)).sum - (x.map fun p => (p.1 - p.2) ^ 2).sum| ≤
      3 * u * (x.map fun p => (p.1 - p.2) ^ 2).sum + 2 * x.length * η := by
  have η0 := hr.eta_nonneg
  induction x with
  | nil => simp
  | cons p x ih =>
    simp only [List.map_cons, List.sum_cons, List.length_cons]
    push_cast
    have step : |rnd (p.1 - p.2) * rnd (p.1 - p.2) - (p.1 - p.2) ^ 2| ≤ 3 * u * (p.1 - p.2) ^ 2 + 2 * η := by
      have e := hr (p.1 - p.2)
      generalize p.1 - p.2 = d at *
      generalize rnd d = r at *
      rw [show r * r - d ^ 2 = (r - d) * (2 * d + (r - d)) by ring, abs_mul]
      have t := abs_add_le (2 * d) (r - d)
      rw [abs_mul, abs_two] at t
      rw [← sq_abs d]
      have D0 := abs_nonneg d
      generalize |d| = D at *
      have s1 : |r - d| * |2 * d + (r - d)| ≤ (u * D + η) * (2 * D + (u * D + η)) :=
        mul_le_mul e (by linarith) (abs_nonneg _) (by positivity)
      have s2 : 2 * (η * D) ≤ η + η * D ^ 2 := by nlinarith [mul_nonneg η0 (sq_nonneg (D - 1))]
      have s3 : η * D ^ 2 ≤ u / 100 * D ^ 2 := mul_le_mul_of_nonneg_right (by linarith) (sq_nonneg D)
      have s4 : u * (u * D ^ 2) ≤ 1 / 32 * (u * D ^ 2) := mul_le_mul_of_nonneg_right u1 (by positivity)
      have s5 : u * (η * D) ≤ 1 / 32 * (η * D) := mul_le_mul_of_nonneg_right u1 (by positivity)
      have s6 : η * η ≤ 1 / 3200 * η := mul_le_mul_of_nonneg_right (by linarith) η0
      have s7 : 0 ≤ u * D ^ 2 := by positivity
      have s8 : (u * D + η) * (2 * D + (u * D + η)) =
        2 * (u * D ^ 2) + u * (u * D ^ 2) + 2 * (u * (η * D)) + 2 * (η * D) + η * η := by ring
      linarith
    have t := abs_add_le (rnd (p.1 - p.2) * rnd (p.1 - p.2) - (p.1 - p.2) ^ 2)
      ((x.map fun p => rnd (p.1 - p.2) * rnd (p.1 - p.2)).sum - (x.map fun p => (p.1 - p.2) ^ 2).sum)
    rw [show ∀ a b c d : ℝ, a - b + (c - d) = a + c - (b + d) by intros; ring] at t
    linarith

theorem sqrt_error {q M ε δ : ℝ} (q0 : 0 ≤ q) (M0 : 0 ≤ M) (ε0 : 0 ≤ ε) (ε1 : ε ≤ 1) (δ0 : 0 ≤ δ) (h : |q - M| ≤ ε * M + δ ^ 2) :
    |√q - √M| ≤ ε * √M + δ := by
  rw [abs_le] at h ⊢
  have hM := Real.sq_sqrt M0
  have hq := Real.sq_sqrt q0
  have m0 := Real.sqrt_nonneg M
  have r0 := Real.sqrt_nonneg q
  constructor
  · have : (1 - ε) * √M ≤ √q + δ := by
      refine le_of_sq_le_sq ?_ (by positivity)
      have : (1 - ε) ^ 2 * M ≤ (1 - ε) * M := mul_le_mul_of_nonneg_right (by nlinarith) M0
      nlinarith [mul_nonneg r0 δ0]
    linarith
  · have : √q ≤ (1 + ε) * √M + δ := by
      refine le_of_sq_le_sq ?_ (by positivity)
      have : 0 ≤ (1 + ε) * √M * δ := by positivity
      nlinarith [mul_nonneg ε0 M0, mul_nonneg (mul_nonneg ε0 ε0) M0]
    linarith

/-- **C108.** `RootMeanSquareError` is a number, and accurate. -/
theorem C108_rms_error (hr : Accurate rnd u η) (u0 : 0 ≤ u) (hη : 100 * η ≤ u) (hR : Regular rnd) {x : List (ℝ × ℝ)}
    (hn : rnd x.length = x.length) (hu : 8 * ((x.length + 3) * u) ≤ 1) {r : Option ℝ} (h : IsRmsError rnd x r) :
    ∃ v, r = some v ∧ |v - exactRmsError x| ≤ 2 * ((x.length + 5) * u) * exactRmsError x + 4 * √η := by
  obtain ⟨hx, s, hs, h⟩ := h
  have n1 : (1 : ℝ) ≤ x.length := by exact_mod_cast List.length_pos_iff.2 hx
  have n0 : (0 : ℝ) < x.length := by linarith
  have η0 := hr.eta_nonneg
  have u1 : u ≤ 1 / 32 := by nlinarith
  rw [hn] at h
  have q0 : 0 ≤ rnd (s / x.length) := hR.nonneg (div_nonneg (hs.nonneg hR) n0.le)
  rw [if_neg (not_lt.2 q0)] at h
  refine ⟨_, h, ?_⟩
  have e1 := C108_dot_product hr u0 (by rw [List.length_map]; nlinarith) hs.dot
  simp only [List.map_map, Function.comp_def, List.length_map, abs_mul_self] at e1
  have e2 := sum_rounded_squares hr u0 hη u1 x
  have E0 : 0 ≤ (x.map fun p => (p.1 - p.2) ^ 2).sum := List.sum_nonneg (by
    simp only [List.mem_map, forall_exists_index, and_imp]; rintro _ p - rfl; positivity)
  have e3 : |s - (x.map fun p => (p.1 - p.2) ^ 2).sum| ≤
      2 * ((x.length + 3) * u) * (x.map fun p => (p.1 - p.2) ^ 2).sum + 7 * x.length * η := by
    have t := abs_add_le (s - (x.map fun p => rnd (p.1 - p.2) * rnd (p.1 - p.2)).sum)
      ((x.map fun p => rnd (p.1 - p.2) * rnd (p.1 - p.2)).sum - (x.map fun p => (p.1 - p.2) ^ 2).sum)
    rw [sub_add_sub_cancel] at t
    have b := (abs_le.1 e2).2
    clear hs
    generalize (x.map fun p => rnd (p.1 - p.2) * rnd (p.1 - p.2)).sum = S at *
    generalize (x.map fun p => (p.1 - p.2) ^ 2).sum = E at *
    generalize (x.length : ℝ) = n at *
    have nu : 2 * ((n + 1) * u) ≤ 1 / 4 := by nlinarith
    have c1 := mul_le_mul_of_nonneg_left (by linarith : S ≤ E + (3 * u * E + 2 * n * η)) (by positivity : 0 ≤ 2 * ((n + 1) * u))
    have c2 := mul_le_mul_of_nonneg_right nu (by positivity : 0 ≤ 3 * u * E + 2 * n * η)
    have c3 : 0 ≤ u * E := mul_nonneg u0 E0
    have c4 : 0 ≤ n * η := mul_nonneg n0.le η0
    linarith
  have d := div_error hr n0 u0 e3
  have f : |rnd √(rnd (s / x.length)) - √(rnd (s / x.length))| ≤ u * √(rnd (s / x.length)) + η := by
    have := hr √(rnd (s / x.length))
    rwa [abs_of_nonneg (Real.sqrt_nonneg (rnd (s / x.length)))] at this
  unfold exactRmsError
  rw [abs_of_nonneg E0, add_div, mul_div_assoc, mul_right_comm 7, mul_div_assoc, div_self n0.ne', mul_one] at d
  clear h e1 e2 e3 hs hn hr
  generalize rnd (s / x.length) = q at *
  have M0 : (0 : ℝ) ≤ (x.map fun p : ℝ × ℝ => (p.1 - p.2) ^ 2).sum / x.length := by positivity
  generalize (x.map fun p : ℝ × ℝ => (p.1 - p.2) ^ 2).sum / (x.length : ℝ) = M at *
  generalize (x.length : ℝ) = n at *
  have g : |√q - √M| ≤ 2 * ((n + 4) * u) * √M + 3 * √η := by
    apply sqrt_error q0 M0 (by positivity) (by nlinarith) (by positivity)
    rw [mul_pow, Real.sq_sqrt η0]
    have c1 : u * ((n + 3) * u * M) ≤ 1 / 8 * (u * M) := by
      have : (n + 3) * u * (u * M) ≤ 1 / 8 * (u * M) := mul_le_mul_of_nonneg_right (by linarith) (mul_nonneg u0 M0)
      linarith
    have c2 := mul_le_mul_of_nonneg_right u1 η0
    have c3 : 0 ≤ u * M := mul_nonneg u0 M0
    linarith
  have t := abs_add_le (rnd √q - √q) (√q - √M)
  rw [sub_add_sub_cancel] at t
  have m0 := Real.sqrt_nonneg M
  have η2 := Real.sqrt_nonneg η
  have c1 : √q ≤ (1 + 1 / 3) * √M + 3 * √η := by
    have := (abs_le.1 g).2
    have := mul_le_mul_of_nonneg_right (by nlinarith : 2 * ((n + 4) * u) ≤ 1 / 3) m0
    linarith
  have c2 := mul_le_mul_of_nonneg_left c1 u0
  have c3 : η ≤ 1 / 50 * √η := by
    have : √η ≤ 1 / 50 := by
      rw [Real.sqrt_le_left (by norm_num)]
      linarith
    have h2 := Real.mul_self_sqrt η0
    nlinarith
  have c4 := mul_le_mul_of_nonneg_right u1 η2
  have c5 := mul_nonneg u0 m0
  linarith

/-! ### A container of equal numbers that `ZScoreNormalize` turns into NaN -/

theorem Moments.snoc_inv {x : List ℝ} {v a b : ℝ} (h : Moments rnd (x ++ [v]) a b) :
    ∃ a' b', Moments rnd x a' b' ∧ IsMulAdd rnd v v b' b ∧ a = rnd (a' + v) := by
  generalize hl : x ++ [v] = l at h
  cases h with
  | nil => simp at hl
  | snoc h1 h2 =>
    obtain ⟨rfl, h⟩ := List.append_inj' hl rfl
    obtain rfl : v = _ := by simpa using h
    exact ⟨_, _, h1, h2, rfl⟩

theorem Moments.nil_inv {a b : ℝ} (h : Moments rnd [] a b) : a = 0 ∧ b = 0 := by
  generalize hl : ([] : List ℝ) = l at h
  cases h with
  | nil => exact ⟨rfl, rfl⟩
  | snoc h1 h2 => simp at hl

/-- The double nearest to 0.1. -/
noncomputable def tenth : ℝ := 7205759403792794 / 2 ^ 56

theorem tenth_eq : tenth = binary64 (1 / 10) := by
  unfold tenth binary64
  rw [ieee_eq (e := -56) (m := 7205759403792794) (by norm_num) (by norm_num) (by norm_num)
    (by left; rw [abs_lt]; norm_num)]
  norm_num

local macro "ev" e:term:max m:term:max : tactic => `(tactic|
  (unfold binary64; (try unfold tenth); rw [ieee_eq (e := $e) (m := $m) (by norm_num) (by norm_num) (by norm_num) (by rw [abs_lt, abs_le]; norm_num)]; norm_num))

theorem tenth_stats {mean variance : ℝ} (h : IsStats binary64 [tenth, tenth, tenth] mean variance) : variance < 0 := by
  obtain ⟨-, a, b, hm, rfl, hv⟩ := h
  obtain ⟨a2, b2, hm2, hb, rfl⟩ := Moments.snoc_inv (x := [tenth, tenth]) hm
  obtain ⟨a1, b1, hm1, hb2, rfl⟩ := Moments.snoc_inv (x := [tenth]) hm2
  obtain ⟨a0, b0, hm0, hb1, rfl⟩ := Moments.snoc_inv (x := []) hm1
  obtain ⟨rfl, rfl⟩ := hm0.nil_inv
  have n3 : binary64 (([tenth, tenth, tenth] : List ℝ).length : ℝ) = 3 := by
    rw [show ((([tenth, tenth, tenth] : List ℝ).length : ℕ) : ℝ) = 3 by norm_num]
    exact ieee_of_representable (by norm_num) ⟨3, 0, by norm_num, by norm_num, by norm_num⟩
  have s1 : binary64 (0 + tenth) = tenth := by ev (-56) 7205759403792794
  have s2 : binary64 (tenth + tenth) = 7205759403792794 / 2 ^ 55 := by ev (-55) 7205759403792794
  have s3 : binary64 (7205759403792794 / 2 ^ 55 + tenth) = 5404319552844596 / 2 ^ 54 := by ev (-54) 5404319552844596
  have q1 : binary64 (tenth * tenth) = 5764607523034236 / 2 ^ 59 := by ev (-59) 5764607523034236
  have q1' : binary64 (5764607523034236 / 2 ^ 59) = 5764607523034236 / 2 ^ 59 := by ev (-59) 5764607523034236
  have q2 : binary64 (5764607523034236 / 2 ^ 59 + 5764607523034236 / 2 ^ 59) = 5764607523034236 / 2 ^ 58 := by
    ev (-58) 5764607523034236
  have q2' : binary64 (tenth * tenth + 5764607523034236 / 2 ^ 59) = 5764607523034236 / 2 ^ 58 := by
    ev (-58) 5764607523034236
  have q3 : binary64 (5764607523034236 / 2 ^ 59 + 5764607523034236 / 2 ^ 58) = 8646911284551354 / 2 ^ 58 := by
    ev (-58) 8646911284551354
  have q3' : binary64 (tenth * tenth + 5764607523034236 / 2 ^ 58) = 8646911284551354 / 2 ^ 58 := by
    ev (-58) 8646911284551354
  have d : binary64 (8646911284551354 / 2 ^ 58 / 3) = 5764607523034236 / 2 ^ 59 := by ev (-59) 5764607523034236
  have m : binary64 (5404319552844596 / 2 ^ 54 / 3) = 7205759403792795 / 2 ^ 56 := by ev (-56) 7205759403792795
  have mm : binary64 (7205759403792795 / 2 ^ 56 * (7205759403792795 / 2 ^ 56)) = 5764607523034237 / 2 ^ 59 := by
    ev (-59) 5764607523034237
  rw [s1, s2, s3, n3, m] at hv
  have e1 : b1 = 5764607523034236 / 2 ^ 59 := by
    rcases hb1 with h | h
    · rw [h, add_zero, q1, q1']
    · rw [h, add_zero, q1]
  subst e1
  have e2 : b2 = 5764607523034236 / 2 ^ 58 := by
    rcases hb2 with h | h
    · rw [h, q1, q2]
    · rw [h, q2']
  subst e2
  have e3 : b = 8646911284551354 / 2 ^ 58 := by
    rcases hb with h | h
    · rw [h, q1, q3]
    · rw [h, q3']
  subst e3
  rw [d] at hv
  have neg : ∀ y : ℝ, y ≤ -1 / 2 ^ 60 → binary64 y < 0 := by
    intro y hy
    have r : binary64 (-1 / 2 ^ 60) = -1 / 2 ^ 60 :=
      ieee_of_representable (by norm_num) ⟨-1, -60, by norm_num, by norm_num, by norm_num⟩
    have := binary64_regular.mono hy
    rw [r] at this
    exact this.trans_lt (by norm_num)
  have nm : ∀ y : ℝ, binary64 (-y) = -binary64 y := ieee_neg 53 (-1074)
  rcases hv with h | h
  · rw [h]
    apply neg
    rw [neg_mul, nm, mm]
    norm_num
  · rw [h]
    apply neg
    norm_num

/-- **C108 is violated.** `ZScoreNormalize` of `{0.1, 0.1, 0.1}` in `double` yields NaN, whatever the floor of the standard
deviation and wherever the compiler contracts: the one-pass variance is negative. -/
theorem C108_zscore_violation (floor : ℝ) {r : Option (List ℝ)}
    (h : ZScore binary64 binary64 floor [tenth, tenth, tenth] r) : r = none := by
  unfold ZScore at h
  rw [if_neg (by simp)] at h
  obtain ⟨mean, variance, hs, h⟩ := h
  rwa [if_pos (tenth_stats hs)] at h

/-- **C108 is violated.** `Sum` of a container of `float` adds in `float`: the sum of any number of ones, from `2 ^ 24` on, is
`2 ^ 24`. -/
theorem C108_sum_violation (n : ℕ) (h : 2 ^ 24 ≤ n) : sum binary32 (List.replicate n 1) = 2 ^ 24 := by
  have key : ∀ n, sum binary32 (List.replicate n 1) = (min n (2 ^ 24) : ℕ) := by
    intro n
    induction n with
    | zero => simp [sum]
    | succ n ih =>
      rw [List.replicate_succ', sum_append, ih]
      rcases Nat.lt_or_ge n (2 ^ 24) with h | h
      · rw [min_eq_left h.le, min_eq_left (by omega)]
        have := FloatAgc.binary32_int (m := (n + 1 : ℕ)) (by rw [abs_of_nonneg (by positivity)]; exact_mod_cast h)
        push_cast at this ⊢
        exact this
      · rw [min_eq_right h, min_eq_right (by omega)]
        have := FloatAgc.binary32_stuck
        norm_num at this ⊢
        exact this
  rw [key, min_eq_right h]
  norm_num

/-! ### The hypotheses are met -/

theorem Moments.exists (rnd : ℝ → ℝ) (x : List ℝ) : ∃ a b, Moments rnd x a b := by
  induction x using List.reverseRecOn with
  | nil => exact ⟨0, 0, .nil⟩
  | append_singleton x v ih =>
    obtain ⟨a, b, h⟩ := ih
    exact ⟨_, _, .snoc h (Or.inl rfl)⟩

theorem ZScore.exists (rnd rndE : ℝ → ℝ) (floor : ℝ) (x : List ℝ) : ∃ r, ZScore rnd rndE floor x r := by
  unfold ZScore
  by_cases hx : x = []
  · simp only [if_pos hx]; exact ⟨_, rfl⟩
  · simp only [if_neg hx]
    obtain ⟨a, b, h⟩ := Moments.exists rnd x
    by_cases hv : rnd (rnd (-rnd (a / rnd x.length) * rnd (a / rnd x.length)) + rnd (b / rnd x.length)) < 0
    · exact ⟨none, _, _, ⟨hx, a, b, h, rfl, Or.inl rfl⟩, by rw [if_pos hv]⟩
    · by_cases hd : rndE (rnd (floor + rnd √(rnd (rnd (-rnd (a / rnd x.length) * rnd (a / rnd x.length)) + rnd (b / rnd x.length))))) = 0
      · exact ⟨none, _, _, ⟨hx, a, b, h, rfl, Or.inl rfl⟩, by rw [if_neg hv, if_pos hd]⟩
      · exact ⟨_, _, _, ⟨hx, a, b, h, rfl, Or.inl rfl⟩, by rw [if_neg hv, if_neg hd]⟩

/-- The container of the violation has a result, NaN. -/
example : ZScore binary64 binary64 (1 / 1000) [tenth, tenth, tenth] none := by
  obtain ⟨r, h⟩ := ZScore.exists binary64 binary64 (1 / 1000) [tenth, tenth, tenth]
  exact C108_zscore_violation _ h ▸ h

/-- `{1, 2, 3, 4}` in `double` satisfies the hypotheses of `C108_variance` and `C108_zscore_partial`. -/
example : ∃ y, ZScore binary64 binary64 (1 / 2) [1, 2, 3, 4] (some y) ∧ y.length = 4 := by
  have i : ∀ k : ℤ, |k| ≤ 2 ^ 53 → ∀ e : ℤ, -1074 ≤ e → binary64 (k * 2 ^ e) = k * 2 ^ e := fun k hk e he =>
    ieee_of_representable (by norm_num) ⟨k, e, hk, he, rfl⟩
  have i4 := i 4 (by norm_num) 0 (by norm_num)
  have ih := i 1 (by norm_num) (-1) (by norm_num)
  norm_num at i4 ih
  have hη : (1 : ℝ) / 2 ^ 1075 ≤ 1 / 2 ^ 100 :=
    one_div_le_one_div_of_le (by positivity) (pow_le_pow_right₀ (by norm_num) (by norm_num))
  obtain ⟨r, h⟩ := ZScore.exists binary64 binary64 (1 / 2) [1, 2, 3, 4]
  obtain ⟨y, rfl, hy⟩ := C108_zscore_partial binary64_accurate (by positivity)
    (by refine (mul_le_mul_of_nonneg_left hη (by norm_num)).trans (by norm_num)) binary64_regular binary64_regular
    (by norm_num [i4]) (by norm_num) (floor := 1 / 2) (by rw [ih, ih]; norm_num)
    (by
      have : exactVariance [1, 2, 3, 4] = 5 / 4 := by norm_num [exactVariance, exactMean]
      have : meanSquare [1, 2, 3, 4] = 15 / 2 := by norm_num [meanSquare]
      norm_num [*] at hη ⊢
      linarith) h
  exact ⟨y, h, hy⟩

theorem IsRmsError.of_sum {x : List (ℝ × ℝ)} {s : ℝ} (hx : x ≠ []) (h : SquaredErrors rnd x s) :
    ∃ r, IsRmsError rnd x r := by
  by_cases c : rnd (s / rnd x.length) < 0
  · exact ⟨none, hx, s, h, by rw [if_pos c]⟩
  · exact ⟨_, hx, s, h, by rw [if_neg c]⟩

/-- Vectors of two elements have a root mean square error in `double`; its hypotheses hold. -/
example : ∃ v, IsRmsError binary64 [(1, 2), (3, 5)] (some v) ∧
    |v - exactRmsError [(1, 2), (3, 5)]| ≤ 1 / 2 ^ 40 := by
  have hη : (1 : ℝ) / 2 ^ 1075 ≤ 1 / 2 ^ 100 :=
    one_div_le_one_div_of_le (by positivity) (pow_le_pow_right₀ (by norm_num) (by norm_num))
  have i2 : binary64 2 = 2 := ieee_of_representable (by norm_num) ⟨2, 0, by norm_num, by norm_num, by norm_num⟩
  obtain ⟨r, h⟩ : ∃ r, IsRmsError binary64 [(1, 2), (3, 5)] r := by
    have m : SquaredErrors binary64 ([] ++ [(1, 2)] ++ [(3, 5)]) _ := .snoc (.snoc .nil (Or.inl rfl)) (Or.inr rfl)
    simp only [List.nil_append, List.cons_append] at m
    exact IsRmsError.of_sum (by simp) m
  obtain ⟨v, rfl, hv⟩ := C108_rms_error binary64_accurate (by positivity)
    (by refine (mul_le_mul_of_nonneg_left hη (by norm_num)).trans (by norm_num)) binary64_regular
    (by norm_num [i2]) (by norm_num) h
  refine ⟨v, h, hv.trans ?_⟩
  have a : √((1 : ℝ) / 2 ^ 1075) ≤ 1 / 2 ^ 50 := by
    rw [Real.sqrt_le_left (by positivity)]
    exact hη.trans (by norm_num)
  have b : exactRmsError [(1, 2), (3, 5)] ≤ 2 := by
    unfold exactRmsError
    rw [Real.sqrt_le_left (by norm_num)]
    norm_num
  have c := mul_le_mul_of_nonneg_left b (by norm_num : (0 : ℝ) ≤ 2 * ((([(1, 2), (3, 5)] : List (ℝ × ℝ)).length + 5) * (1 / 2 ^ 53)))
  refine (add_le_add c (mul_le_mul_of_nonneg_left a (by norm_num))).trans ?_
  norm_num

/-- The hypothesis of `C108_sum` in `float` allows vectors of up to `2 ^ 23` elements. -/
example (x : List ℝ) (h : x.length ≤ 2 ^ 23) :
    |sum binary32 x - x.sum| ≤ 2 * (x.length * (1 / 2 ^ 24)) * (x.map (|·|)).sum + 2 * x.length * (1 / 2 ^ 150) := by
  apply C108_sum binary32_accurate (by positivity)
  have : (x.length : ℝ) ≤ 2 ^ 23 := by exact_mod_cast h
  rw [← mul_assoc, mul_one_div, div_le_one (by positivity)]
  linarith

end

end Verif.FloatVector
