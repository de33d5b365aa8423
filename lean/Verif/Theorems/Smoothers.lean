import Verif.Model.VectorUtil
import Verif.Proof.Stream
import Mathlib.Analysis.SpecificLimits.Normed
import Mathlib.Data.List.GetD
import Mathlib.Data.Nat.Choose.Cast
import Mathlib.Tactic.Linarith
import Mathlib.Tactic.FieldSimp
import Mathlib.Tactic.NormNum
import Mathlib.Tactic.Positivity

/-!
# C64: the one-pole smoothers
-/

namespace Verif.VectorUtil
open Verif.Stream Verif.LinearFilter.Spec Finset

section Field
variable {K : Type} [Field K]

/-- The exponential average of the reversed history `r`, starting from `s`. -/
def expAvg (c s : K) : List K → K
  | [] => s
  | x :: r => expAvg c s r + c * (x - expAvg c s r)

theorem expAvg_eq (c s : K) (r : List K) : expAvg c s r =
    (1 - c) ^ r.length * s + ∑ k ∈ range r.length, c * (1 - c) ^ k * r.getD k 0 := by
  induction r with
  | nil => simp [expAvg]
  | cons x r ih =>
    rw [expAvg, ih, List.length_cons, sum_range_succ']
    simp only [List.getD_cons_succ, List.getD_cons_zero, pow_succ, pow_zero, mul_one]
    have : ∑ k ∈ range r.length, c * ((1 - c) ^ k * (1 - c)) * r.getD k 0
        = (1 - c) * ∑ k ∈ range r.length, c * (1 - c) ^ k * r.getD k 0 := by
      rw [mul_sum]
      exact sum_congr rfl fun k _ => by ring
    rw [this]
    ring

theorem forwardSmooth_hist (c s : K) (x : List K) :
    (forwardSmooth c s x).1 = expAvg c s x.reverse ∧
    ∀ n, n < x.length → (forwardSmooth c s x).2[n]? = some (expAvg c s (x.take (n + 1)).reverse) := by
  have := runSamples_hist (step := fun s v => let s' := s + c * (v - s); (s', s'))
    (Inv := fun t r => t = expAvg c s r) (F := expAvg c s)
    (by rintro t r v rfl; exact ⟨rfl, rfl⟩) x s [] rfl
  simpa [forwardSmooth] using this

@[simp] theorem forwardSmooth_length (c s : K) (x : List K) :
    (forwardSmooth c s x).2.length = x.length := by simp [forwardSmooth]

@[simp] theorem backwardSmooth_length (c s : K) (x : List K) :
    (backwardSmooth c s x).2.length = x.length := by simp [backwardSmooth]

/-- **C64.** `ForwardSmoothVector` is the exponential average of the past: its `n`-th output is
`(1-c)ⁿ⁺¹ s + Σ_{k ≤ n} c (1-c)ᵏ x[n-k]`, and the state left behind is the last output. -/
theorem C64_forward (c s : K) (x : List K) :
    (forwardSmooth c s x).2.length = x.length ∧
    (∀ n, n < x.length → (forwardSmooth c s x).2[n]? =
      some ((1 - c) ^ (n + 1) * s + ∑ k ∈ range (n + 1), c * (1 - c) ^ k * x.getD (n - k) 0)) ∧
    (forwardSmooth c s x).1 = (s :: (forwardSmooth c s x).2).getLast (by simp) := by
  obtain ⟨h1, h2⟩ := forwardSmooth_hist c s x
  refine ⟨by simp, ?_, ?_⟩
  · intro n hn
    rw [h2 n hn, expAvg_eq]
    have hl : (x.take (n + 1)).reverse.length = n + 1 := by simp; omega
    rw [hl]
    congr 2
    apply sum_congr rfl
    intro k hk
    rw [mem_range] at hk
    rw [← past_eq_reverse x n k hn, past, if_pos (by omega)]
  · rw [h1]
    cases hx : x.length with
    | zero =>
      rw [List.length_eq_zero_iff] at hx
      subst hx
      rfl
    | succ m =>
      have h3 := h2 m (by omega)
      rw [List.take_of_length_le (by omega)] at h3
      rw [List.getLast_eq_getElem]
      have hl : (s :: (forwardSmooth c s x).2).length - 1 = m + 1 := by simp [hx]
      have : (s :: (forwardSmooth c s x).2)[(s :: (forwardSmooth c s x).2).length - 1]? =
          some (expAvg c s x.reverse) := by
        rw [hl, List.getElem?_cons_succ, h3]
      rw [List.getElem?_eq_getElem (by simp)] at this
      exact (Option.some.inj this).symm

example : (forwardSmooth (1 / 2) 0 [4, 0, (8 : ℚ)]) = (9 / 2, [2, 1, 9 / 2]) := by decide +kernel

/-- **C64.** Smoothing block by block with the state carried over is smoothing the whole signal. -/
theorem C64_forward_blocks (c s : K) (blocks : List (List K)) :
    (runBlocks (forwardSmooth c) s blocks).2.flatten = (forwardSmooth c s blocks.flatten).2 ∧
    (runBlocks (forwardSmooth c) s blocks).1 = (forwardSmooth c s blocks.flatten).1 := by
  have := runBlocks_runSamples (fun (s : K) v => let s' := s + c * (v - s); (s', s')) blocks s
  exact ⟨this.2.1, this.1⟩

/-- **C64.** `BackwardSmoothVector` is the exponential average of the future. -/
theorem C64_backward (c s : K) (x : List K) (n : ℕ) (hn : n < x.length) :
    (backwardSmooth c s x).2[n]? = some ((1 - c) ^ (x.length - n) * s
      + ∑ k ∈ range (x.length - n), c * (1 - c) ^ k * x.getD (n + k) 0) := by
  unfold backwardSmooth
  dsimp only
  rw [List.getElem?_reverse (by simpa using hn)]
  have h := (C64_forward c s x.reverse).2.1 (x.length - 1 - n) (by simp; omega)
  simp only [forwardSmooth_length, List.length_reverse] at h ⊢
  rw [h, show x.length - 1 - n + 1 = x.length - n by omega]
  congr 2
  apply sum_congr rfl
  intro k hk
  rw [mem_range] at hk
  congr 1
  rw [List.getD_eq_getElem?_getD, List.getD_eq_getElem?_getD, List.getElem?_reverse (by omega)]
  congr 2
  omega

/-- **C64.** `SmoothVector` needs a first element; on the empty container it reads out of bounds. -/
theorem C64_smooth_empty_violation (c : K) : smoothVector c [] = .error .oob := rfl

/-- **C64.** `BlockDC` is the signal minus its exponential average with coefficient `1 / scale` and
initial state zero. -/
theorem C64_block_dc [DecidableEq K] (scale : K) (hs : scale ≠ 0) (x : List K) :
    ∃ y, blockDC scale x = .ok y ∧ y.length = x.length ∧ ∀ n, n < x.length →
      y[n]? = some (x.getD n 0 - ∑ k ∈ range (n + 1), 1 / scale * (1 - 1 / scale) ^ k * x.getD (n - k) 0) := by
  unfold blockDC
  rw [if_neg hs]
  refine ⟨_, rfl, by simp, ?_⟩
  intro n hn
  have := (runSamples_hist (step := fun s v => let s' := s + 1 / scale * (v - s); (s', v - s'))
    (Inv := fun t r => t = expAvg (1 / scale) 0 r)
    (F := fun r => r.getD 0 0 - expAvg (1 / scale) 0 r)
    (by rintro t r v rfl; exact ⟨rfl, rfl⟩) x 0 [] rfl).2 n hn
  rw [this]
  congr 1
  have hl : (x.take (n + 1)).reverse.length = n + 1 := by simp; omega
  simp only [List.append_nil]
  rw [expAvg_eq, hl, mul_zero, zero_add, ← past_eq_reverse x n 0 hn, past_zero]
  congr 1
  apply sum_congr rfl
  intro k hk
  rw [mem_range] at hk
  rw [← past_eq_reverse x n k hn, past, if_pos (by omega)]

/-- **C64.** A constant fed to `BlockDC` decays geometrically: `y[n] = v (1 - 1/scale)ⁿ⁺¹`. -/
theorem C64_block_dc_constant [DecidableEq K] (scale v : K) (hs : scale ≠ 0) (m : ℕ) :
    ∃ y, blockDC scale (List.replicate m v) = .ok y ∧ ∀ n, n < m →
      y[n]? = some (v * (1 - 1 / scale) ^ (n + 1)) := by
  obtain ⟨y, h1, -, h3⟩ := C64_block_dc scale hs (List.replicate m v)
  refine ⟨y, h1, fun n hn => ?_⟩
  rw [h3 n (by simpa using hn)]
  have e : ∀ j ≤ n, (List.replicate m v).getD j 0 = v := by
    intro j hj
    rw [List.getD_eq_getElem _ _ (by simp; omega), List.getElem_replicate]
  have e2 : ∑ k ∈ range (n + 1), 1 / scale * (1 - 1 / scale) ^ k * (List.replicate m v).getD (n - k) 0
      = v * (1 / scale * ∑ k ∈ range (n + 1), (1 - 1 / scale) ^ k) := by
    rw [mul_sum, mul_sum]
    apply sum_congr rfl
    intro k _
    rw [e _ (by omega)]
    ring
  have e3 : 1 / scale * ∑ k ∈ range (n + 1), (1 - 1 / scale) ^ k = 1 - (1 - 1 / scale) ^ (n + 1) := by
    have := mul_neg_geom_sum (1 - 1 / scale) (n + 1)
    rw [sub_sub_cancel] at this
    exact this
  rw [e _ le_rfl, e2, e3]
  congr 1
  ring

example : blockDC 2 [1, 1, (1 : ℚ)] = .ok [1 / 2, 1 / 4, 1 / 8] := by decide +kernel

/-- **C64.** A smoother that starts at the constant value of its input stays there. -/
theorem C64_constant (c v : K) (m : ℕ) :
    forwardSmooth c v (List.replicate m v) = (v, List.replicate m v) ∧
    backwardSmooth c v (List.replicate m v) = (v, List.replicate m v) := by
  have h : ∀ m, forwardSmooth c v (List.replicate m v) = (v, List.replicate m v) := by
    intro m
    induction m with
    | zero => rfl
    | succ m ih =>
      rw [List.replicate_succ]
      unfold forwardSmooth at ih ⊢
      rw [runSamples]
      simp only [sub_self, mul_zero, add_zero, ih]
  refine ⟨h m, ?_⟩
  unfold backwardSmooth
  rw [List.reverse_replicate, h m]
  simp

end Field

section Order
variable {K : Type} [Field K] [LinearOrder K] [IsStrictOrderedRing K]

theorem forward_range (c lo hi : K) (h0 : 0 ≤ c) (h1 : c ≤ 1) : ∀ (x : List K) (s : K), lo ≤ s → s ≤ hi →
    (∀ v ∈ x, lo ≤ v ∧ v ≤ hi) →
    (lo ≤ (forwardSmooth c s x).1 ∧ (forwardSmooth c s x).1 ≤ hi) ∧
      ∀ v ∈ (forwardSmooth c s x).2, lo ≤ v ∧ v ≤ hi
  | [], s, hl, hh, _ => ⟨⟨hl, hh⟩, by simp [forwardSmooth, runSamples]⟩
  | x :: xs, s, hl, hh, hx => by
    obtain ⟨hx1, hx2⟩ := hx x (by simp)
    have a1 : lo ≤ s + c * (x - s) := by
      nlinarith [mul_nonneg h0 (sub_nonneg.2 hx1), mul_nonneg (sub_nonneg.2 h1) (sub_nonneg.2 hl)]
    have a2 : s + c * (x - s) ≤ hi := by
      nlinarith [mul_nonneg h0 (sub_nonneg.2 hx2), mul_nonneg (sub_nonneg.2 h1) (sub_nonneg.2 hh)]
    obtain ⟨g1, g2⟩ := forward_range c lo hi h0 h1 xs _ a1 a2 (fun v hv => hx v (by simp [hv]))
    unfold forwardSmooth at g1 g2 ⊢
    simp only [runSamples]
    refine ⟨g1, ?_⟩
    intro v hv
    rcases List.mem_cons.1 hv with rfl | hv
    · exact ⟨a1, a2⟩
    · exact g2 v hv

theorem backward_range (c lo hi : K) (h0 : 0 ≤ c) (h1 : c ≤ 1) (x : List K) (s : K) (hl : lo ≤ s)
    (hh : s ≤ hi) (hx : ∀ v ∈ x, lo ≤ v ∧ v ≤ hi) :
    (lo ≤ (backwardSmooth c s x).1 ∧ (backwardSmooth c s x).1 ≤ hi) ∧
      ∀ v ∈ (backwardSmooth c s x).2, lo ≤ v ∧ v ≤ hi := by
  have := forward_range c lo hi h0 h1 x.reverse s hl hh (by simpa using hx)
  simpa [backwardSmooth] using this

/-- **C64.** With a coefficient in `[0, 1]` the forward and the backward smoother stay between the
bounds of the signal and of the initial state. -/
theorem C64_range (c lo hi s : K) (x : List K) (h0 : 0 ≤ c) (h1 : c ≤ 1) (hl : lo ≤ s) (hh : s ≤ hi)
    (hx : ∀ v ∈ x, lo ≤ v ∧ v ≤ hi) :
    (∀ v ∈ (forwardSmooth c s x).2, lo ≤ v ∧ v ≤ hi) ∧
    (∀ v ∈ (backwardSmooth c s x).2, lo ≤ v ∧ v ≤ hi) :=
  ⟨(forward_range c lo hi h0 h1 x s hl hh hx).2, (backward_range c lo hi h0 h1 x s hl hh hx).2⟩

theorem smoothPass_range (c lo hi : K) (h0 : 0 ≤ c) (h1 : c ≤ 1) (hlo : lo ≤ 0) (hhi : 0 ≤ hi)
    (p : K × List K) (hp : lo ≤ p.1 ∧ p.1 ≤ hi) (hx : ∀ v ∈ p.2, lo ≤ v ∧ v ≤ hi) :
    (lo ≤ (smoothPass c p).1 ∧ (smoothPass c p).1 ≤ hi) ∧
      (∀ v ∈ (smoothPass c p).2, lo ≤ v ∧ v ≤ hi) ∧ (smoothPass c p).2.length = p.2.length := by
  have sc : ∀ s, lo ≤ s → s ≤ hi → lo ≤ s * (1 - c) ∧ s * (1 - c) ≤ hi := by
    intro s h2 h3
    constructor
    · nlinarith [mul_nonneg (sub_nonneg.2 h2) (sub_nonneg.2 h1), mul_nonneg (neg_nonneg.2 hlo) h0]
    · nlinarith [mul_nonneg (sub_nonneg.2 h3) (sub_nonneg.2 h1), mul_nonneg hhi h0]
  obtain ⟨a1, a2⟩ := sc p.1 hp.1 hp.2
  have f := forward_range c lo hi h0 h1 p.2 _ a1 a2 hx
  obtain ⟨b1, b2⟩ := sc _ f.1.1 f.1.2
  have b := backward_range c lo hi h0 h1 (forwardSmooth c (p.1 * (1 - c)) p.2).2 _ b1 b2 f.2
  exact ⟨b.1, b.2, by simp [smoothPass]⟩

/-- **C64.** `SmoothVector` with a coefficient in `[0, 1]` keeps the size and never leaves the range
spanned by the signal and zero. -/
theorem C64_smooth_range (c lo hi : K) (x : List K) (hne : x ≠ []) (h0 : 0 ≤ c) (h1 : c ≤ 1)
    (hlo : lo ≤ 0) (hhi : 0 ≤ hi) (hx : ∀ v ∈ x, lo ≤ v ∧ v ≤ hi) :
    ∃ y, smoothVector c x = .ok y ∧ y.length = x.length ∧ ∀ v ∈ y, lo ≤ v ∧ v ≤ hi := by
  cases x with
  | nil => exact absurd rfl hne
  | cons x0 xs =>
    have p1 := smoothPass_range c lo hi h0 h1 hlo hhi (x0, x0 :: xs) (hx x0 (by simp)) hx
    have p2 := smoothPass_range c lo hi h0 h1 hlo hhi _ p1.1 p1.2.1
    exact ⟨_, rfl, p2.2.2.trans p1.2.2, p2.2.1⟩

example : ∃ y, smoothVector (1 / 2) [0, 8, (0 : ℚ)] = .ok y ∧ ∀ v ∈ y, 0 ≤ v ∧ v ≤ 8 := by
  obtain ⟨y, h1, -, h3⟩ := C64_smooth_range (1 / 2 : ℚ) 0 8 [0, 8, 0] (by simp) (by norm_num) (by norm_num)
    le_rfl (by norm_num) (by simp)
  exact ⟨y, h1, h3⟩

/-- **C64 (violation).** `SmoothVector` does not preserve constants: the edge states are shrunk by
`1 - c` before each pass. -/
theorem C64_smooth_constant_violation :
    ∃ y, smoothVector (1 / 2) [1, 1, (1 : ℚ)] = .ok y ∧ ∀ v ∈ y, v < 1 :=
  ⟨_, rfl, by decide +kernel⟩

end Order

/-- **C64.** `SmootherCoefficientFromScale` gives a coefficient in `(0, 1]`. Above scale 0.01 the impulse
response `a (1-a)ⁿ` of one pass has total weight 1 and a variance that is a quarter of `scale²`, so that
four passes have standard deviation `scale`. -/
theorem C64_coefficient (scale : ℝ) :
    (scale ≤ 0.01 → smootherCoefficient scale = 1) ∧
    (0.01 < scale → ∃ a, smootherCoefficient scale = a ∧ 0 < a ∧ a < 1 ∧
      ∃ mean var : ℝ, HasSum (fun n : ℕ => a * (1 - a) ^ n) 1 ∧
        HasSum (fun n : ℕ => n * (a * (1 - a) ^ n)) mean ∧
        HasSum (fun n : ℕ => (n - mean) ^ 2 * (a * (1 - a) ^ n)) var ∧
        4 * var = scale ^ 2) := by
  refine ⟨fun h => by simp [smootherCoefficient, h], fun h => ?_⟩
  obtain ⟨a, ha⟩ : ∃ a, a = smootherCoefficient scale := ⟨_, rfl⟩
  refine ⟨a, ha.symm, ?_⟩
  have hsc : 0 < scale := by linarith [show (0 : ℝ) < 0.01 by norm_num]
  obtain ⟨t, ht⟩ : ∃ t, t = scale * scale := ⟨_, rfl⟩
  have ht0 : 0 < t := ht ▸ mul_pos hsc hsc
  have hrad : (1 + 2 / t) * (1 + 2 / t) - 1 = 4 * (1 + t) / t ^ 2 := by field_simp; ring
  have hval : a = √((1 + 2 / t) * (1 + 2 / t) - 1) - 2 / t := by
    rw [ha, smootherCoefficient, if_neg (not_le.2 h)]
    dsimp only
    rw [← ht]
  have hq : t * a ^ 2 = 4 * (1 - a) := by
    have h2 : (a + 2 / t) ^ 2 = 4 * (1 + t) / t ^ 2 := by
      rw [hval, sub_add_cancel, Real.sq_sqrt, hrad]
      rw [hrad]; positivity
    field_simp at h2
    nlinarith
  have hpos : 0 < a := by
    rw [hval, sub_pos]
    apply Real.lt_sqrt_of_sq_lt
    rw [hrad, div_pow, div_lt_div_iff_of_pos_right (by positivity)]
    nlinarith
  have hlt : a < 1 := by
    have : 0 < t * a ^ 2 := by positivity
    linarith
  refine ⟨hpos, hlt, ?_⟩
  have hr : ‖1 - a‖ < 1 := by rw [Real.norm_eq_abs, abs_lt]; constructor <;> linarith
  have g0 := hasSum_geometric_of_norm_lt_one hr
  have g1 := hasSum_coe_mul_geometric_of_norm_lt_one hr
  have g2 := hasSum_choose_mul_geometric_of_norm_lt_one 2 hr
  rw [sub_sub_cancel] at g0 g1 g2
  refine ⟨(1 - a) / a, (1 - a) / a ^ 2, ?_, ?_, ?_, ?_⟩
  · have := g0.mul_left a
    rwa [mul_inv_cancel₀ hpos.ne'] at this
  · have := g1.mul_left a
    have e : a * ((1 - a) / a ^ 2) = (1 - a) / a := by field_simp
    rw [e] at this
    exact (congrArg (fun f => HasSum f ((1 - a) / a)) (funext fun n => by ring)).mp this
  · have := ((((g2.mul_left 2).sub (g1.mul_left (3 + 2 * ((1 - a) / a)))).add
      (g0.mul_left (((1 - a) / a) ^ 2 - 2))).mul_left a)
    have e : a * (2 * (1 / a ^ (2 + 1)) - (3 + 2 * ((1 - a) / a)) * ((1 - a) / a ^ 2)
        + (((1 - a) / a) ^ 2 - 2) * a⁻¹) = (1 - a) / a ^ 2 := by
      field_simp
      ring
    rw [e] at this
    refine (congrArg (fun f => HasSum f ((1 - a) / a ^ 2)) (funext fun n => ?_)).mp this
    rw [Nat.cast_choose_two]
    push_cast
    ring
  · have h1 : 4 * ((1 - a) / a ^ 2) = t := by
      field_simp
      linarith
    rw [h1, ht]; ring

section Hermitian
variable {K : Type} [RCLike K]

theorem forward_norm (c M : ℝ) (h0 : 0 ≤ c) (h1 : c ≤ 1) : ∀ (x : List K) (s : K), ‖s‖ ≤ M →
    (∀ v ∈ x, ‖v‖ ≤ M) →
    ‖(forwardSmooth (c : K) s x).1‖ ≤ M ∧ ∀ v ∈ (forwardSmooth (c : K) s x).2, ‖v‖ ≤ M
  | [], s, hs, _ => ⟨hs, by simp [forwardSmooth, runSamples]⟩
  | x :: xs, s, hs, hx => by
    have hx1 := hx x (by simp)
    have a1 : ‖s + (c : K) * (x - s)‖ ≤ M := by
      have e : s + (c : K) * (x - s) = ((1 - c : ℝ) : K) * s + (c : K) * x := by push_cast; ring
      rw [e]
      refine (norm_add_le _ _).trans ?_
      rw [norm_mul, norm_mul, RCLike.norm_ofReal, RCLike.norm_ofReal, abs_of_nonneg h0,
        abs_of_nonneg (sub_nonneg.2 h1)]
      nlinarith [mul_nonneg h0 (sub_nonneg.2 hx1), mul_nonneg (sub_nonneg.2 h1) (sub_nonneg.2 hs)]
    obtain ⟨g1, g2⟩ := forward_norm c M h0 h1 xs _ a1 (fun v hv => hx v (by simp [hv]))
    unfold forwardSmooth at g1 g2 ⊢
    simp only [runSamples]
    refine ⟨g1, ?_⟩
    intro v hv
    rcases List.mem_cons.1 hv with rfl | hv
    · exact a1
    · exact g2 v hv

theorem backward_norm (c M : ℝ) (h0 : 0 ≤ c) (h1 : c ≤ 1) (x : List K) (s : K) (hs : ‖s‖ ≤ M)
    (hx : ∀ v ∈ x, ‖v‖ ≤ M) :
    ‖(backwardSmooth (c : K) s x).1‖ ≤ M ∧ ∀ v ∈ (backwardSmooth (c : K) s x).2, ‖v‖ ≤ M := by
  have := forward_norm c M h0 h1 x.reverse s hs (by simpa using hx)
  simpa [backwardSmooth] using this

theorem hermitianPass_norm (c M : ℝ) (h0 : 0 ≤ c) (h1 : c ≤ 1) (hM : 0 ≤ M) (extra : ℕ)
    (p : List K × List K) (hx : ∀ v ∈ p.1, ‖v‖ ≤ M) (he : ∀ v ∈ p.2, ‖v‖ ≤ M) :
    (∀ v ∈ (hermitianPass c extra p).1, ‖v‖ ≤ M) ∧ (∀ v ∈ (hermitianPass c extra p).2, ‖v‖ ≤ M) ∧
      (hermitianPass c extra p).1.length = p.1.length := by
  have z : ‖(0 : K)‖ ≤ M := by simpa using hM
  have a := (forward_norm c M h0 h1 ((p.1.drop 1).take extra).reverse 0 z (by
    intro v hv
    exact hx v (List.mem_of_mem_drop (List.mem_of_mem_take (List.mem_reverse.1 hv))))).1
  have f := forward_norm c M h0 h1 p.1 (starRingEnd K
    (forwardSmooth (c : K) 0 ((p.1.drop 1).take extra).reverse).1) (by rwa [RCLike.norm_conj]) hx
  have fe := forward_norm c M h0 h1 p.2 _ f.1 he
  have be := backward_norm c M h0 h1 _ 0 z fe.2
  have b := backward_norm c M h0 h1 _ _ be.1 f.2
  exact ⟨b.2, be.2, by simp [hermitianPass]⟩

theorem realEnds_spec (x : List K) (M : ℝ) (hx : ∀ v ∈ x, ‖v‖ ≤ M) (hl : x ≠ []) :
    (realEnds x).length = x.length ∧ (∀ v ∈ realEnds x, ‖v‖ ≤ M) ∧
    (∀ v, (realEnds x)[0]? = some v → RCLike.im v = 0) ∧
    (∀ v, (realEnds x)[x.length - 1]? = some v → RCLike.im v = 0) := by
  have hre : ∀ v : K, ‖v‖ ≤ M → ‖((RCLike.re v : ℝ) : K)‖ ≤ M := by
    intro v hv
    rw [RCLike.norm_ofReal]
    exact (RCLike.abs_re_le_norm v).trans hv
  unfold realEnds
  dsimp only
  have hlen : (x.modify 0 fun v => (RCLike.re v : K)).length = x.length := by simp
  rw [hlen]
  have hget : ∀ i, ((x.modify 0 fun v => (RCLike.re v : K)).modify (x.length - 1)
      fun v => (RCLike.re v : K))[i]? = (fun v => if i = x.length - 1 then
        (if i = 0 then ((RCLike.re ((RCLike.re v : ℝ) : K) : ℝ) : K) else (RCLike.re v : K))
        else if i = 0 then (RCLike.re v : K) else v) <$> x[i]? := by
    intro i
    rw [List.getElem?_modify, List.getElem?_modify]
    cases x[i]? with
    | none => simp
    | some v =>
      by_cases h1 : x.length - 1 = i
      · by_cases h2 : (0 : ℕ) = i
        · simp [h1, h2]
        · simp [h1, h2, Ne.symm h2]
      · by_cases h2 : (0 : ℕ) = i
        · simp [h1, h2, Ne.symm h1]
        · simp [h1, h2, Ne.symm h2, Ne.symm h1]
  refine ⟨by simp, ?_, ?_, ?_⟩
  · intro v hv
    obtain ⟨i, hi⟩ := List.getElem?_of_mem hv
    rw [hget] at hi
    obtain ⟨w, hw, rfl⟩ := Option.map_eq_some_iff.1 hi
    have := hx w (List.mem_of_getElem? hw)
    split_ifs
    · exact hre _ (hre _ this)
    · exact hre _ this
    · exact hre _ this
    · exact this
  · intro v hv
    rw [hget] at hv
    obtain ⟨w, hw, rfl⟩ := Option.map_eq_some_iff.1 hv
    split_ifs <;> first | exact RCLike.ofReal_im _ | omega
  · intro v hv
    rw [hget] at hv
    obtain ⟨w, hw, rfl⟩ := Option.map_eq_some_iff.1 hv
    split_ifs <;> first | exact RCLike.ofReal_im _ | omega

/-- **C64.** `HermitianSmoothVector` accepts exactly non-negative scales and coefficients, leaves vectors
with less than two elements alone, and otherwise (coefficient at most 1) keeps the size, makes both ends
real and exceeds no bound of the magnitudes of the input. -/
theorem C64_hermitian (c scale : ℝ) (x : List K) :
    (¬ (0 ≤ scale ∧ 0 ≤ c) → hermitianSmooth c scale x = .error .check) ∧
    (0 ≤ scale → 0 ≤ c → x.length < 2 → hermitianSmooth c scale x = .ok x) ∧
    (0 ≤ scale → 0 ≤ c → c ≤ 1 → 2 ≤ x.length → ∀ M, (∀ v ∈ x, ‖v‖ ≤ M) →
      ∃ y, hermitianSmooth c scale x = .ok y ∧ y.length = x.length ∧ (∀ v ∈ y, ‖v‖ ≤ M) ∧
        (∀ v, y[0]? = some v → RCLike.im v = 0) ∧
        (∀ v, y[x.length - 1]? = some v → RCLike.im v = 0)) := by
  refine ⟨?_, ?_, ?_⟩
  · intro h
    unfold hermitianSmooth
    by_cases hs : 0 ≤ scale
    · rw [if_neg (not_not.2 hs), if_pos (by tauto)]
    · rw [if_pos hs]
  · intro hs hc hl
    unfold hermitianSmooth
    rw [if_neg (not_not.2 hs), if_neg (not_not.2 hc), if_pos hl]
  · intro hs hc hc1 hl M hx
    have hM : 0 ≤ M := by
      have : x ≠ [] := by rintro rfl; simp at hl
      obtain ⟨v, hv⟩ := List.exists_mem_of_ne_nil x this
      exact (norm_nonneg v).trans (hx v hv)
    unfold hermitianSmooth
    rw [if_neg (not_not.2 hs), if_neg (not_not.2 hc), if_neg (by omega)]
    dsimp only
    have p1 := hermitianPass_norm c M hc hc1 hM (min ⌊3 * (scale + 1)⌋.toNat (x.length - 1))
      (x, ((x.reverse.drop 1).take (min ⌊3 * (scale + 1)⌋.toNat (x.length - 1))).map (starRingEnd K)) hx (by
        intro v hv
        obtain ⟨w, hw, rfl⟩ := List.mem_map.1 hv
        rw [RCLike.norm_conj]
        exact hx w (List.mem_reverse.1 (List.mem_of_mem_drop (List.mem_of_mem_take hw))))
    have p2 := hermitianPass_norm c M hc hc1 hM (min ⌊3 * (scale + 1)⌋.toNat (x.length - 1)) _ p1.1 p1.2.1
    have hlen := p2.2.2.trans p1.2.2
    dsimp only at hlen
    have r := realEnds_spec _ M p2.1 (by rw [← List.length_pos_iff, hlen]; omega)
    rw [hlen] at r
    exact ⟨_, rfl, r.1, r.2.1, r.2.2.1, r.2.2.2⟩

example : ∃ y, hermitianSmooth (1 / 2) 1 [(3 : ℂ), Complex.I, 2] = .ok y ∧ ∀ v ∈ y, ‖v‖ ≤ 3 := by
  obtain ⟨y, h1, -, h3, -⟩ := (C64_hermitian (1 / 2) 1 [(3 : ℂ), Complex.I, 2]).2.2 (by norm_num)
    (by norm_num) (by norm_num) (by simp) 3 (by norm_num)
  exact ⟨y, h1, h3⟩

/-- **C64 (violation).** A smoother under a symmetric extension should preserve constants. With scale √8
and the coefficient ½ derived from it, `HermitianSmoothVector` turns the constant `1, 1` into values below
`7/8`: too few values are reflected for a short vector, and the state before them is zero. -/
theorem C64_hermitian_constant_violation :
    smootherCoefficient (√8) = 1 / 2 ∧
    ∃ y : List ℝ, hermitianSmooth (smootherCoefficient (√8)) (√8) [1, 1] = .ok y ∧ ∀ v ∈ y, v < 7 / 8 := by
  have h8 : √8 * √8 = (8 : ℝ) := Real.mul_self_sqrt (by norm_num)
  have hge : (2 : ℝ) ≤ √8 := by
    apply Real.le_sqrt_of_sq_le; norm_num
  have hc : smootherCoefficient (√8) = 1 / 2 := by
    rw [smootherCoefficient, if_neg (by rw [not_le]; linarith [show (0.01 : ℝ) < 2 by norm_num])]
    dsimp only
    rw [h8]
    have : ((1 + 2 / 8) * (1 + 2 / 8) - 1 : ℝ) = (3 / 4) ^ 2 := by norm_num
    rw [this, Real.sqrt_sq (by norm_num)]
    norm_num
  refine ⟨hc, ?_⟩
  rw [hc]
  unfold hermitianSmooth
  rw [if_neg (by rw [not_not]; linarith), if_neg (by norm_num), if_neg (by simp)]
  dsimp only
  have hfl : min ⌊3 * (√8 + 1)⌋.toNat (([1, 1] : List ℝ).length - 1) = 1 := by
    have h1 : (1 : ℤ) ≤ ⌊3 * (√8 + 1)⌋ := Int.le_floor.2 (by push_cast; linarith)
    simp only [List.length_cons, List.length_nil]
    omega
  rw [hfl]
  refine ⟨_, rfl, ?_⟩
  norm_num [hermitianPass, forwardSmooth, backwardSmooth, runSamples, realEnds, List.modify]

end Hermitian

end Verif.VectorUtil
