import Verif.Model.VectorUtil
import Verif.Proof.Stream
import Mathlib.Analysis.SpecialFunctions.Trigonometric.Basic
import Mathlib.Analysis.SpecialFunctions.Complex.Log
import Mathlib.Tactic.Linarith
import Mathlib.Tactic.FieldSimp
import Mathlib.Tactic.NormNum

/-!
# C67, C68: generated sinusoids and circular averages
-/

namespace Verif.VectorUtil
open Verif.Stream

theorem rotate_run {β : Type} (w p : ℂ) (F : ℂ → β) (n i : ℕ) (hi : i < n) :
    (runSamples (fun (p : ℂ) (_ : Unit) => (p * w, F p)) p (List.replicate n ())).2[i]? =
      some (F (p * w ^ i)) := by
  induction n generalizing p i with
  | zero => omega
  | succ n ih =>
    rw [List.replicate_succ, runSamples]
    cases i with
    | zero => simp
    | succ i =>
      rw [List.getElem?_cons_succ, ih _ i (by omega), pow_succ']
      congr 2
      ring

theorem rotate_list {β : Type} (w p : ℂ) (F : ℂ → β) (n : ℕ) :
    (runSamples (fun (p : ℂ) (_ : Unit) => (p * w, F p)) p (List.replicate n ())).2 =
      (List.range n).map fun i : ℕ => F (p * w ^ i) := by
  apply List.ext_getElem?
  intro i
  by_cases hi : i < n
  · rw [rotate_run w p F n i hi, List.getElem?_map, List.getElem?_range hi]
    rfl
  · rw [List.getElem?_eq_none (by simp; omega), List.getElem?_eq_none (by simp; omega)]

theorem exp_mk (θ : ℝ) : Complex.exp ⟨0, θ⟩ = Complex.exp (θ * Complex.I) := by
  congr 1
  apply Complex.ext <;> simp

theorem polar_eq (r θ : ℝ) : polar r θ = r * Complex.exp (θ * Complex.I) := by
  apply Complex.ext
  · rw [Complex.re_ofReal_mul, Complex.exp_ofReal_mul_I_re]; rfl
  · rw [Complex.im_ofReal_mul, Complex.exp_ofReal_mul_I_im]; rfl

theorem exp_pow (θ : ℝ) (i : ℕ) : Complex.exp (θ * Complex.I) ^ i = Complex.exp ((i * θ : ℝ) * Complex.I) := by
  rw [← Complex.exp_nat_mul]
  congr 1
  push_cast
  ring

theorem exp_im (θ : ℝ) : (Complex.exp (θ * Complex.I)).im = Real.sin θ := Complex.exp_ofReal_mul_I_im θ

/-- **C67.** `ComputePhasorVector`: sample `n` is `exp(i · n · step)`. -/
theorem C67_phasor (step : ℝ) (n : ℕ) :
    phasorVector step n = (List.range n).map fun k : ℕ => Complex.exp ((k * step : ℝ) * Complex.I) := by
  unfold phasorVector
  dsimp only
  rw [rotate_list (Complex.exp ⟨0, step⟩) ⟨1, 0⟩ (fun p => p) n]
  apply List.map_congr_left
  intro i _
  rw [exp_mk, exp_pow, show (⟨1, 0⟩ : ℂ) = 1 from rfl, one_mul]

/-- **C67.** `ComputeSineWaveVector`: sample `k` is `sin(2π f k / rate + phase)`. -/
theorem C67_sine_wave (f rate phase : ℝ) (n : ℕ) :
    sineWaveVector f rate phase n =
      (List.range n).map fun k : ℕ => Real.sin (2 * Real.pi * f / rate * k + phase) := by
  unfold sineWaveVector
  dsimp only
  rw [rotate_list _ _ (fun p => p.im) n]
  apply List.map_congr_left
  intro i _
  rw [exp_mk, exp_mk, exp_pow, ← Complex.exp_add, ← exp_im]
  congr 2
  push_cast
  ring

/-- **C67.** `GenerateSine`: sample `k` is `amplitude · sin(2π f k / rate + phase)`. -/
theorem C67_generate_sine (n : ℕ) (rate f amplitude phase : ℝ) :
    generateSine n rate f amplitude phase =
      (List.range n).map fun k : ℕ => amplitude * Real.sin (2 * Real.pi * f / rate * k + phase) := by
  unfold generateSine
  dsimp only
  rw [rotate_list _ _ (fun p => p.im) n]
  apply List.map_congr_left
  intro i _
  rw [polar_eq, polar_eq, Complex.ofReal_one, one_mul, exp_pow, mul_assoc, ← Complex.exp_add,
    Complex.im_ofReal_mul, ← exp_im]
  congr 3
  push_cast
  ring

example : generateSine 5 4 1 3 0 = [0, 3, 0, -3, 0] := by
  rw [C67_generate_sine]
  have h : ∀ k : ℕ, 2 * Real.pi * 1 / 4 * (k : ℝ) + 0 = k * Real.pi / 2 := fun k => by ring
  simp only [h]
  have e3 : Real.sin (3 * Real.pi / 2) = -1 := by
    rw [show 3 * Real.pi / 2 = Real.pi / 2 + Real.pi by ring, Real.sin_add_pi, Real.sin_pi_div_two]
  have e4 : Real.sin (4 * Real.pi / 2) = 0 := by
    rw [show 4 * Real.pi / 2 = 2 * Real.pi by ring, Real.sin_two_pi]
  simp [List.range_succ, e3, e4]

/-- **C67.** `GenerateSineEigen` without a phase is `GenerateSine`. -/
theorem C67_eigen_partial (n : ℕ) (rate f amplitude : ℝ) :
    generateSineEigen n rate f amplitude 0 = generateSine n rate f amplitude 0 := by
  rw [C67_generate_sine]
  unfold generateSineEigen
  apply List.map_congr_left
  intro i _
  rw [mul_comm]
  congr 2
  ring

/-- **C67 (violation).** With a phase the two generators disagree: `GenerateSineEigen` applies the phase
with the opposite sign, at every sample where the cosine does not vanish. -/
theorem C67_eigen_phase_violation (n : ℕ) (rate f amplitude phase : ℝ) (k : ℕ) (hk : k < n) :
    (generateSine n rate f amplitude phase).getD k 0 - (generateSineEigen n rate f amplitude phase).getD k 0
      = 2 * amplitude * Real.cos (2 * Real.pi * f / rate * k) * Real.sin phase := by
  rw [C67_generate_sine]
  unfold generateSineEigen
  rw [List.getD_eq_getElem?_getD, List.getD_eq_getElem?_getD, List.getElem?_map, List.getElem?_map,
    List.getElem?_range hk]
  simp only [Option.map_some, Option.getD_some]
  rw [Real.sin_add, Real.sin_sub, mul_comm (k : ℝ)]
  ring

/-! ### Circular averages -/

/-- The point of the unit circle that stands for `v` modulo `period`. -/
noncomputable def onCircle (period v : ℝ) : ℂ := Complex.exp ((2 * Real.pi * v / period : ℝ) * Complex.I)

theorem averageOfSum_spec (s : ℂ) (period : ℝ) (hp : 0 < period) :
    0 ≤ averageOfSum s period ∧ averageOfSum s period < period ∧
      s = ‖s‖ * onCircle period (averageOfSum s period) := by
  have hpi := Real.pi_pos
  have h1 := Complex.neg_pi_lt_arg s
  have h2 := Complex.arg_le_pi s
  have e : s = ‖s‖ * Complex.exp (Complex.arg s * Complex.I) := (Complex.norm_mul_exp_arg_mul_I s).symm
  unfold averageOfSum
  dsimp only
  by_cases hneg : Complex.arg s / (2 * Real.pi) < 0
  · rw [if_pos hneg]
    have hlo : 0 < Complex.arg s / (2 * Real.pi) + 1 := by
      have : -1 < Complex.arg s / (2 * Real.pi) := by
        rw [lt_div_iff₀ (by linarith)]; linarith
      linarith
    refine ⟨by positivity, by nlinarith, ?_⟩
    have : onCircle period ((Complex.arg s / (2 * Real.pi) + 1) * period) =
        Complex.exp (Complex.arg s * Complex.I) := by
      unfold onCircle
      have h : 2 * Real.pi * ((Complex.arg s / (2 * Real.pi) + 1) * period) / period
          = Complex.arg s + 2 * Real.pi := by
        field_simp
      rw [h]
      push_cast
      rw [add_mul, Complex.exp_add, Complex.exp_two_pi_mul_I, mul_one]
    rw [this]
    exact e
  · rw [if_neg hneg]
    have hge := not_lt.1 hneg
    have hlt : Complex.arg s / (2 * Real.pi) < 1 := by
      rw [div_lt_one (by linarith)]; linarith
    refine ⟨by positivity, by nlinarith, ?_⟩
    have : onCircle period (Complex.arg s / (2 * Real.pi) * period) =
        Complex.exp (Complex.arg s * Complex.I) := by
      unfold onCircle
      have h : 2 * Real.pi * (Complex.arg s / (2 * Real.pi) * period) / period = Complex.arg s := by
        field_simp
      rw [h]
    rw [this]
    exact e

theorem polar_circle (w period v : ℝ) : polar w (2 * Real.pi / period * v) = w * onCircle period v := by
  rw [polar_eq, onCircle]
  congr 3
  ring_nf

/-- **C68.** `ComputeWeightedCircularAverage` accepts exactly non-empty values, as many weights, and a
positive period. The result lies in `[0, period)` and is the direction of the weighted sum of the points
of the circle. -/
theorem C68_weighted (values weights : List ℝ) (period : ℝ) :
    (¬ (values ≠ [] ∧ values.length = weights.length ∧ 0 < period) →
      weightedCircularAverage values weights period = .error .check) ∧
    (values ≠ [] → values.length = weights.length → 0 < period →
      ∃ r, weightedCircularAverage values weights period = .ok r ∧ 0 ≤ r ∧ r < period ∧
        ((values.zip weights).map fun p => p.2 * onCircle period p.1).sum =
          ‖((values.zip weights).map fun p => (p.2 : ℂ) * onCircle period p.1).sum‖ * onCircle period r) := by
  constructor
  · intro h
    unfold weightedCircularAverage
    by_cases h1 : values = []
    · rw [if_pos (by simp [h1])]
    · rw [if_neg (by simpa using h1)]
      by_cases h2 : values.length = weights.length
      · rw [if_neg (not_not.2 h2), if_pos (by tauto)]
      · rw [if_pos h2]
  · intro h1 h2 h3
    unfold weightedCircularAverage
    rw [if_neg (by simpa using h1), if_neg (not_not.2 h2), if_neg (not_not.2 h3)]
    dsimp only
    have hf : ∀ (l : List (ℝ × ℝ)) (a : ℂ),
        l.foldl (fun s p => s + polar p.2 (2 * Real.pi / period * p.1)) a =
          a + (l.map fun p => (p.2 : ℂ) * onCircle period p.1).sum := by
      intro l
      induction l with
      | nil => simp
      | cons p l ih => intro a; rw [List.foldl_cons, ih, List.map_cons, List.sum_cons, polar_circle, add_assoc]
    rw [hf, zero_add]
    exact ⟨_, rfl, averageOfSum_spec _ period h3⟩

/-- **C68.** `ComputeCircularAverage` is the weighted average with weights one. -/
theorem C68_unweighted (values : List ℝ) (period : ℝ) :
    circularAverage values period = weightedCircularAverage values (values.map fun _ => 1) period := by
  unfold circularAverage weightedCircularAverage
  by_cases h1 : values.isEmpty = true
  · rw [if_pos h1, if_pos h1]
  · rw [if_neg h1, if_neg h1, if_neg (by simp : ¬ values.length ≠ (values.map fun _ => (1 : ℝ)).length)]
    by_cases h2 : period > 0
    · rw [if_neg (not_not.2 h2), if_neg (not_not.2 h2)]
      dsimp only
      have : ∀ (l : List ℝ) (a : ℂ), l.foldl (fun s v => s + polar 1 (2 * Real.pi / period * v)) a =
          (l.zip (l.map fun _ => (1 : ℝ))).foldl (fun s p => s + polar p.2 (2 * Real.pi / period * p.1)) a := by
        intro l
        induction l with
        | nil => intro a; rfl
        | cons v l ih => intro a; rw [List.foldl_cons, ih, List.map_cons, List.zip_cons_cons, List.foldl_cons]
      rw [this]
    · rw [if_pos h2, if_pos h2]

theorem re_sum (l : List (ℝ × ℝ)) (period t : ℝ) :
    ((l.map fun p => (p.2 : ℂ) * onCircle period p.1).sum * onCircle period (-t)).re =
      (l.map fun p => p.2 * Real.cos (2 * Real.pi * (p.1 - t) / period)).sum := by
  induction l with
  | nil => simp
  | cons p l ih =>
    simp only [List.map_cons, List.sum_cons]
    rw [add_mul, Complex.add_re, ih]
    congr 1
    rw [mul_assoc, Complex.re_ofReal_mul, onCircle, onCircle, ← Complex.exp_add, ← add_mul,
      ← Complex.ofReal_add, Complex.exp_ofReal_mul_I_re]
    congr 2
    ring

theorem norm_onCircle (period t : ℝ) : ‖onCircle period t‖ = 1 := Complex.norm_exp_ofReal_mul_I _

/-- **C68.** The circular average is the best representative: it maximises the weighted sum of the cosines
of the angular distances to the values. -/
theorem C68_best (values weights : List ℝ) (period r : ℝ)
    (h : weightedCircularAverage values weights period = .ok r) (t : ℝ) :
    ((values.zip weights).map fun p => p.2 * Real.cos (2 * Real.pi * (p.1 - t) / period)).sum ≤
      ((values.zip weights).map fun p => p.2 * Real.cos (2 * Real.pi * (p.1 - r) / period)).sum := by
  by_cases hc : values ≠ [] ∧ values.length = weights.length ∧ 0 < period
  swap
  · rw [(C68_weighted values weights period).1 hc] at h; cases h
  obtain ⟨r', h1, -, -, h4⟩ := (C68_weighted values weights period).2 hc.1 hc.2.1 hc.2.2
  rw [h] at h1
  obtain rfl := Except.ok.inj h1
  rw [← re_sum, ← re_sum]
  generalize ((values.zip weights).map fun p => (p.2 : ℂ) * onCircle period p.1).sum = s at h4 ⊢
  have hr : (s * onCircle period (-r)).re = ‖s‖ := by
    have h5 : onCircle period r * onCircle period (-r) = 1 := by
      rw [onCircle, onCircle, ← Complex.exp_add, ← add_mul, ← Complex.ofReal_add]
      have : 2 * Real.pi * r / period + 2 * Real.pi * -r / period = 0 := by ring
      rw [this]
      simp
    have h6 : s * onCircle period (-r) = (‖s‖ : ℂ) := by
      calc s * onCircle period (-r) = ‖s‖ * onCircle period r * onCircle period (-r) := by rw [← h4]
        _ = ‖s‖ := by rw [mul_assoc, h5, mul_one]
    rw [h6, Complex.ofReal_re]
  rw [hr]
  refine (Complex.re_le_norm _).trans ?_
  rw [norm_mul, norm_onCircle, mul_one]

/-- **C68.** The average of equal values, with weights of positive sum, is that value modulo the period. -/
theorem C68_equal (v period : ℝ) (hp : 0 < period) (weights : List ℝ) (hw : 0 < weights.sum) :
    ∃ r, weightedCircularAverage (weights.map fun _ => v) weights period = .ok r ∧
      0 ≤ r ∧ r < period ∧ ∃ n : ℤ, v = r + n * period := by
  have hne : weights ≠ [] := by rintro rfl; simp at hw
  obtain ⟨r, h1, h2, h3, h4⟩ := (C68_weighted (weights.map fun _ => v) weights period).2
    (by simpa using hne) (by simp) hp
  refine ⟨r, h1, h2, h3, ?_⟩
  have e : ∀ l : List ℝ, (((l.map fun _ => v).zip l).map fun p => (p.2 : ℂ) * onCircle period p.1).sum
      = (l.sum : ℂ) * onCircle period v := by
    intro l
    induction l with
    | nil => simp
    | cons w l ih =>
      simp only [List.map_cons, List.zip_cons_cons, List.sum_cons, ih]
      push_cast
      ring
  rw [e, norm_mul, norm_onCircle, Complex.norm_real, mul_one, Real.norm_of_nonneg hw.le] at h4
  have h5 := mul_left_cancel₀ (by exact_mod_cast hw.ne') h4
  unfold onCircle at h5
  rw [Complex.exp_eq_exp_iff_exists_int] at h5
  obtain ⟨n, hn⟩ := h5
  refine ⟨n, ?_⟩
  have h6 : ((2 * Real.pi * v / period : ℝ) : ℂ) = ((2 * Real.pi * r / period + n * (2 * Real.pi) : ℝ) : ℂ) := by
    apply mul_right_cancel₀ Complex.I_ne_zero
    rw [hn]
    push_cast
    ring
  have h7 := Complex.ofReal_injective h6
  have hpi := Real.pi_ne_zero
  field_simp at h7
  linarith

example : ∃ r, weightedCircularAverage [23, 23] [1, 2] 12 = .ok r ∧ 0 ≤ r ∧ r < 12 ∧
    ∃ n : ℤ, (23 : ℝ) = r + n * 12 := C68_equal 23 12 (by norm_num) [1, 2] (by norm_num)

end Verif.VectorUtil
