import Verif.Proof.Stability
import Verif.Theorems.Biquad
import Mathlib.Topology.Order.MonotoneConvergence
import Mathlib.Topology.Algebra.Order.Field
import Mathlib.Analysis.SpecificLimits.Basic
import Mathlib.Algebra.Order.BigOperators.Ring.Finset

/-!
# C23–C26: `IsStable` and the ladder filter

Numbers are exact reals. `cfg.eta` is `10 * epsilon` of the scalar type, `cfg.smoother` and
`cfg.maxSamples` are the coefficient smoother and its length.
-/

namespace Verif.Ladder
open Finset Verif.Stream Verif.Series Verif.LinearFilter.Spec _root_.Filter Topology PowerSeries

/-! ## C23 -/

theorem isStable_biquad {b0 b1 b2 a0 a1 a2 : ℝ} (h : a0 ≠ 0) :
    ∃ P : Prop, isStable [b0, b1, b2] [a0, a1, a2] = some P ∧
      (P ↔ (|a2 / a0| < 1 ∧ |a1 / a0| < 1 + a2 / a0)) := by
  have hm : makeLadder [b0, b1, b2] [a0, a1, a2] = some (2, makeLoop 2
      (fun j => [a0, a1, a2].getD j 0 / a0) (fun j => [b0, b1, b2].getD j 0 / a0)
      (fun _ => 0) (fun _ => 0)) := by
    unfold makeLadder
    rw [if_neg (by simp [h])]
    simp
  refine ⟨_, by rw [isStable, hm]; rfl, ?_⟩
  have h0 : a0 / a0 = 1 := div_self h
  have k1 : (makeLoop 2 (fun j => [a0, a1, a2].getD j 0 / a0) (fun j => [b0, b1, b2].getD j 0 / a0)
      (fun _ => 0) (fun _ => 0)).1 1 = a2 / a0 := by
    simp [makeLoop, put]
  have k0 : (makeLoop 2 (fun j => [a0, a1, a2].getD j 0 / a0) (fun j => [b0, b1, b2].getD j 0 / a0)
      (fun _ => 0) (fun _ => 0)).1 0
        = (a1 / a0 - a2 / a0 * (a1 / a0)) * (1 / (1 - a2 / a0 * (a2 / a0))) := by
    simp [makeLoop, put]
  generalize a2 / a0 = q at *
  generalize a1 / a0 = p at *
  have hk0 : |q| < 1 → (p - q * p) * (1 / (1 - q * q)) = p / (1 + q) := by
    intro hq
    rw [abs_lt] at hq
    have h1 : (1 + q) ≠ 0 := by linarith
    have h2 : (1 - q) ≠ 0 := by linarith
    have h3 : (1 - q * q) ≠ 0 := by
      have : 1 - q * q = (1 + q) * (1 - q) := by ring
      rw [this]; exact mul_ne_zero h1 h2
    have e : (1 - q * q) * (1 / (1 - q * q)) = 1 := by rw [mul_one_div, div_self h3]
    rw [eq_div_iff h1]
    linear_combination p * e
  simp only [not_le, ge_iff_le]
  constructor
  · intro hall
    have e1 := hall 1 (by omega)
    have e0 := hall 0 (by omega)
    rw [k1] at e1
    rw [k0, hk0 e1, abs_div] at e0
    have hpos : 0 < 1 + q := by rw [abs_lt] at e1; linarith
    rw [abs_of_pos hpos, div_lt_one hpos] at e0
    exact ⟨e1, e0⟩
  · rintro ⟨e1, e0⟩ i hi
    have hpos : 0 < 1 + q := by rw [abs_lt] at e1; linarith
    have : i = 0 ∨ i = 1 := by omega
    rcases this with rfl | rfl
    · rw [k0, hk0 e1, abs_div, abs_of_pos hpos, div_lt_one hpos]
      exact e0
    · rw [k1]; exact e1

/-- **C23**: `IsStable()` returns (no CHECK fails when `a0 ≠ 0`) and is true exactly when every
pole, i.e. every complex root of `a0 z² + a1 z + a2`, lies strictly inside the unit circle. -/
theorem C23_isStable_iff_poles {b0 b1 b2 a0 a1 a2 : ℝ} (h : a0 ≠ 0) :
    ∃ P : Prop, isStable [b0, b1, b2] [a0, a1, a2] = some P ∧
      (P ↔ ∀ z : ℂ, (a0 : ℂ) * z ^ 2 + a1 * z + a2 = 0 → ‖z‖ < 1) := by
  obtain ⟨P, h1, h2⟩ := isStable_biquad (b0 := b0) (b1 := b1) (b2 := b2) (a1 := a1) (a2 := a2) h
  refine ⟨P, h1, h2.trans (jury.trans ?_)⟩
  have hc : (a0 : ℂ) ≠ 0 := by exact_mod_cast h
  have : ∀ z : ℂ, z ^ 2 + ((a1 / a0 : ℝ) : ℂ) * z + ((a2 / a0 : ℝ) : ℂ) = 0 ↔
      (a0 : ℂ) * z ^ 2 + a1 * z + a2 = 0 := by
    intro z
    push_cast
    rw [← mul_right_inj' hc, mul_zero]
    have : (a0 : ℂ) * (z ^ 2 + (a1 : ℂ) / a0 * z + (a2 : ℂ) / a0) = a0 * z ^ 2 + a1 * z + a2 := by
      field_simp
    rw [this]
  simp only [this]

theorem diffEq_second_order {b0 b1 b2 a0 a1 a2 : ℝ} (h : a0 ≠ 0) {xs ys : List ℝ}
    (hd : DiffEq [b0, b1, b2] [a0, a1, a2] xs ys) : ∀ n, n < xs.length →
      ys.getD n 0 = (b0 * past xs n 0 + b1 * past xs n 1 + b2 * past xs n 2) / a0
        - a1 / a0 * past ys n 1 - a2 / a0 * past ys n 2 := by
  intro n hn
  have := hd.2 n hn
  simp only [List.length_cons, List.length_nil, sum_range_succ, sum_range_zero, zero_add] at this
  simp at this
  have e0 : past ys n 0 = ys.getD n 0 := by simp [past]
  rw [← e0]
  field_simp
  linarith

/-- **C23**: if `IsStable()` is true, every bounded input gives a bounded output: there is one gain
`K` such that any signal bounded by `B` is answered by a signal bounded by `K * B`. -/
theorem C23_bounded_output {b0 b1 b2 a0 a1 a2 : ℝ} (h : a0 ≠ 0) {P : Prop}
    (hP : isStable [b0, b1, b2] [a0, a1, a2] = some P) (hp : P) :
    ∃ K : ℝ, ∀ (B : ℝ) (xs ys : List ℝ), DiffEq [b0, b1, b2] [a0, a1, a2] xs ys →
      (∀ x ∈ xs, |x| ≤ B) → ∀ y ∈ ys, |y| ≤ K * B := by
  obtain ⟨P', h1, h2⟩ := isStable_biquad (b0 := b0) (b1 := b1) (b2 := b2) (a1 := a1) (a2 := a2) h
  rw [hP] at h1
  cases h1
  have hj := jury.mp (h2.mp hp)
  obtain ⟨z, w, hz, hw⟩ := exists_roots (a1 / a0) (a2 / a0)
  have nz := hj z ((isRoot_iff hz hw z).mpr (Or.inl rfl))
  have nw := hj w ((isRoot_iff hz hw w).mpr (Or.inr rfl))
  refine ⟨((|b0| + |b1| + |b2|) / |a0|) / (1 - ‖z‖) / (1 - ‖w‖), ?_⟩
  intro B xs ys hd hB y hy
  obtain ⟨n, hn, rfl⟩ := List.getElem_of_mem hy
  have hlen := hd.1
  have hB0 : 0 ≤ B := (abs_nonneg _).trans (hB xs[0] (List.getElem_mem (by omega)))
  have hpast : ∀ m k, |past xs m k| ≤ B := by
    intro m k
    unfold past
    split
    · by_cases hlt : m - k < xs.length
      · rw [getD_eq_getElem' _ _ hlt]; exact hB _ (List.getElem_mem _)
      · rw [List.getD_eq_getElem?_getD, List.getElem?_eq_none (by omega)]; simpa using hB0
    · simpa using hB0
  let Y : ℕ → ℝ := fun n => ys.getD n 0
  let g : ℕ → ℝ := fun n => if n < xs.length then
    (b0 * past xs n 0 + b1 * past xs n 1 + b2 * past xs n 2) / a0 else
      (Y n + a1 / a0 * past ys n 1 + a2 / a0 * past ys n 2)
  have hY : ∀ m, Y m = g m - a1 / a0 * past ys m 1 - a2 / a0 * past ys m 2 := by
    intro m
    simp only [g]
    split
    · rename_i hm; exact diffEq_second_order h hd m hm
    · ring
  have hzw : z + w = -((a1 / a0 : ℝ) : ℂ) := hz
  have bound := secondOrder_bound (z := z) (w := w) nz nw
    (G := (|b0| + |b1| + |b2|) / |a0| * B) (by positivity) (y := fun n => (Y n : ℂ))
    (g := fun n => (g n : ℂ)) (N := xs.length)
    (by have := hY 0; simp [past] at this; exact_mod_cast this)
    (by
      have := hY 1
      simp only [past, show ¬ (2 ≤ 1) by omega, if_false, le_refl, if_true, Nat.sub_self,
        mul_zero, sub_zero] at this
      rw [hzw, this]
      simp only [Y]
      push_cast; ring)
    (by
      intro n
      have := hY (n + 2)
      simp only [past, show 2 ≤ n + 2 by omega, show 1 ≤ n + 2 by omega, if_true,
        show n + 2 - 1 = n + 1 by omega, show n + 2 - 2 = n by omega] at this
      rw [hzw, hw, this]
      simp only [Y]
      push_cast; ring)
    (by
      intro m hm
      rw [Complex.norm_real, Real.norm_eq_abs]
      simp only [g, if_pos hm]
      rw [abs_div, div_mul_eq_mul_div]
      apply div_le_div_of_nonneg_right _ (abs_nonneg _)
      calc |b0 * past xs m 0 + b1 * past xs m 1 + b2 * past xs m 2|
          ≤ |b0 * past xs m 0| + |b1 * past xs m 1| + |b2 * past xs m 2| := abs_add_three _ _ _
        _ ≤ |b0| * B + |b1| * B + |b2| * B := by
            simp only [abs_mul]
            gcongr <;> apply hpast
        _ = (|b0| + |b1| + |b2|) * B := by ring)
    n (by omega)
  rw [Complex.norm_real, Real.norm_eq_abs] at bound
  simp only [Y] at bound
  rw [getD_eq_getElem' _ _ hn] at bound
  calc |ys[n]| ≤ _ := bound
    _ = _ := by ring

/-- A stable and an unstable instance. -/
example : (∃ P : Prop, isStable [1, 0, 0] [2, -1, 1/2] = some P ∧ P) ∧
    (∃ P : Prop, isStable [1, 0, 0] [1, 0, 1] = some P ∧ ¬ P) := by
  constructor
  · obtain ⟨P, h1, h2⟩ := isStable_biquad (b0 := 1) (b1 := 0) (b2 := 0) (a0 := 2) (a1 := -1)
      (a2 := 1/2) (by norm_num)
    exact ⟨P, h1, h2.mpr (by norm_num [abs_lt])⟩
  · obtain ⟨P, h1, h2⟩ := isStable_biquad (b0 := 1) (b1 := 0) (b2 := 0) (a0 := 1) (a1 := 0)
      (a2 := 1) (by norm_num)
    exact ⟨P, h1, fun hp => by simpa using (h2.mp hp).1⟩

/-! ## C24 -/

/-- What holds of a filter object after any history of calls. -/
structure Good (cfg : Config) (f : Filter) : Prop where
  k : ∀ i, |f.k i| < 1
  t : ∀ i, |f.kTarget i| < 1
  c : f.c = scattering cfg.eta f.k

theorem smooth_good {cfg : Config} (h0 : 0 < cfg.eta) (h1 : cfg.eta < 1) {f : Filter}
    (h : Good cfg f) : Good cfg (smooth cfg f) := by
  unfold smooth
  by_cases hs : f.smoothing > 0
  · rw [if_pos hs]
    by_cases hn : f.smoothing - 1 > 0
    · simp only [hn, if_true]
      exact ⟨fun i => force_abs h0 h1, h.t, rfl⟩
    · simp only [hn, if_false]
      exact ⟨h.t, h.t, rfl⟩
  · rw [if_neg hs]; exact h

theorem smooth_state (cfg : Config) (f : Filter) : (smooth cfg f).state = f.state ∧
    (smooth cfg f).order = f.order := by
  unfold smooth
  split
  · dsimp only
    split <;> exact ⟨rfl, rfl⟩
  · exact ⟨rfl, rfl⟩

theorem processSample_good {cfg : Config} (h0 : 0 < cfg.eta) (h1 : cfg.eta < 1) {f : Filter}
    (h : Good cfg f) (x : ℝ) : Good cfg (processSample cfg f x).1 := by
  have := smooth_good h0 h1 h
  exact ⟨this.k, this.t, this.c⟩

theorem apply_good {cfg : Config} (h0 : 0 < cfg.eta) (h1 : cfg.eta < 1) {f : Filter}
    (h : Good cfg f) (o : Op) : Good cfg (apply cfg f o).1 := by
  cases o with
  | sample x => exact processSample_good h0 h1 h x
  | changeCoeffs k v => exact ⟨h.k, fun i => force_abs h0 h1, h.c⟩
  | reset => exact ⟨h.k, h.t, h.c⟩

theorem init_good {cfg : Config} (h0 : 0 < cfg.eta) (h1 : cfg.eta < 1) {M : ℕ} {k v : ℕ → ℝ}
    {f : Filter} (h : init cfg M k v = some f) : Good cfg f := by
  unfold init at h
  split at h
  · cases h
  · cases h
    exact ⟨fun i => force_abs h0 h1, fun i => force_abs h0 h1, rfl⟩

theorem after_good {cfg : Config} (h0 : 0 < cfg.eta) (h1 : cfg.eta < 1) : ∀ (ops : List Op)
    {f : Filter}, Good cfg f → Good cfg (after cfg f ops)
  | [], _, h => h
  | o :: ops, _, h => after_good h0 h1 ops (apply_good h0 h1 h o)

/-- Energy of the samples in a history since the last `Reset`. -/
def inputEnergy : List Op → ℝ
  | [] => 0
  | .sample x :: ops => x ^ 2 + inputEnergy ops
  | _ :: ops => inputEnergy ops

/-- The state's energy, `Σ s_m²` over its `order + 1` elements. -/
def stateEnergy (f : Filter) : ℝ := ∑ m ∈ range (f.order + 1), f.state m ^ 2

theorem processSample_energy {cfg : Config} (h0 : 0 < cfg.eta) (h1 : cfg.eta < 1) {f : Filter}
    (h : Good cfg f) (x : ℝ) :
    stateEnergy (processSample cfg f x).1 + f.state f.order ^ 2 ≤ stateEnergy f + x ^ 2 := by
  have hg := smooth_good h0 h1 h
  obtain ⟨hs, ho⟩ := smooth_state cfg f
  have := stage_energy (k := (smooth cfg f).k) (c := (smooth cfg f).c) (M := (smooth cfg f).order)
    (fun i _ => by rw [hg.c]; exact (scattering_sq h0 h1 (hg.k i)).1) (smooth cfg f).state x
  have e1 : stateEnergy (processSample cfg f x).1 = energy ((smooth cfg f).order + 1)
      (stageLoop (smooth cfg f).k (smooth cfg f).c (smooth cfg f).order (smooth cfg f).state x) := rfl
  have e2 : stateEnergy f = energy f.order f.state + f.state f.order ^ 2 := by
    unfold stateEnergy energy; rw [sum_range_succ]
  rw [e1, e2]
  rw [hs, ho] at this ⊢
  linarith

/-- **C24**: after initialisation with any coefficients and any history of samples, coefficient
changes and resets, processing one more sample increases the state energy by at most the squared
input, minus the energy leaving the last stage. -/
theorem C24_energy_step {cfg : Config} (h0 : 0 < cfg.eta) (h1 : cfg.eta < 1) {M : ℕ} {k v : ℕ → ℝ}
    {f : Filter} (hf : init cfg M k v = some f) (ops : List Op) (x : ℝ) :
    stateEnergy (processSample cfg (after cfg f ops) x).1
        + (after cfg f ops).state (after cfg f ops).order ^ 2
      ≤ stateEnergy (after cfg f ops) + x ^ 2 :=
  processSample_energy h0 h1 (after_good h0 h1 ops (init_good h0 h1 hf)) x

theorem after_energy {cfg : Config} (h0 : 0 < cfg.eta) (h1 : cfg.eta < 1) : ∀ (ops : List Op)
    {f : Filter}, Good cfg f → stateEnergy (after cfg f ops) ≤ stateEnergy f + inputEnergy ops
  | [], f, _ => by simp [after, inputEnergy]
  | o :: ops, f, h => by
    have ih := after_energy h0 h1 ops (apply_good h0 h1 h o)
    have e : after cfg f (o :: ops) = after cfg (apply cfg f o).1 ops := rfl
    rw [e]
    refine ih.trans ?_
    cases o with
    | sample x =>
      have := processSample_energy h0 h1 h x
      have hsq := sq_nonneg (f.state f.order)
      simp only [inputEnergy, apply]
      linarith
    | changeCoeffs k v =>
      have : stateEnergy (apply cfg f (.changeCoeffs k v)).1 = stateEnergy f := rfl
      rw [this]; simp [inputEnergy]
    | reset =>
      have : stateEnergy (apply cfg f .reset).1 = 0 := by
        simp [stateEnergy, apply, reset]
      rw [this]
      have : 0 ≤ stateEnergy f := sum_nonneg (fun _ _ => sq_nonneg _)
      simp only [inputEnergy]
      linarith

/-- **C24**: for every history of samples, coefficient changes and resets the state energy is at
most the energy of the input. -/
theorem C24_bounded_state {cfg : Config} (h0 : 0 < cfg.eta) (h1 : cfg.eta < 1) {M : ℕ}
    {k v : ℕ → ℝ} {f : Filter} (hf : init cfg M k v = some f) (ops : List Op) :
    stateEnergy (after cfg f ops) ≤ inputEnergy ops := by
  have := after_energy h0 h1 ops (init_good h0 h1 hf)
  have hz : stateEnergy f = 0 := by
    unfold init at hf
    split at hf
    · cases hf
    · cases hf; simp [stateEnergy, reset]
  linarith

/-- **C24**: the output of a sample is bounded by the energy of the input so far and the current tap
gains. -/
theorem C24_bounded_output {cfg : Config} (h0 : 0 < cfg.eta) (h1 : cfg.eta < 1) {M : ℕ}
    {k v : ℕ → ℝ} {f : Filter} (hf : init cfg M k v = some f) (ops : List Op) (x : ℝ) :
    let r := processSample cfg (after cfg f ops) x
    r.2 ^ 2 ≤ (inputEnergy ops + x ^ 2) * ∑ m ∈ range (r.1.order + 1), r.1.v m ^ 2 := by
  intro r
  have hy : r.2 = ∑ m ∈ range (r.1.order + 1), r.1.state m * r.1.v m := rfl
  rw [hy]
  refine (sum_mul_sq_le_sq_mul_sq _ _ _).trans ?_
  apply mul_le_mul_of_nonneg_right _ (sum_nonneg (fun _ _ => sq_nonneg _))
  have hb := C24_bounded_state h0 h1 hf ops
  have hs := C24_energy_step h0 h1 hf ops x
  have hsq := sq_nonneg ((after cfg f ops).state (after cfg f ops).order)
  have : ∑ m ∈ range (r.1.order + 1), r.1.state m ^ 2 = stateEnergy r.1 := rfl
  rw [this]
  linarith

/-- Zero input with fixed coefficients: every state element tends to zero. -/
theorem decay {M : ℕ} {k c : ℕ → ℝ} (h : ∀ i, i < M → k i ^ 2 + c i ^ 2 ≤ 1)
    (hc : ∀ i, i < M → c i ≠ 0) {st : ℕ → ℕ → ℝ}
    (hst : ∀ n, st (n + 1) = stageLoop k c M (st n) 0) :
    ∀ i, i ≤ M → Tendsto (fun n => st n i) atTop (𝓝 0) := by
  have hE : ∀ n, energy (M + 1) (st (n + 1)) + st n M ^ 2 ≤ energy (M + 1) (st n) := by
    intro n
    have := stage_energy h (st n) 0
    rw [← hst] at this
    have e : energy (M + 1) (st n) = energy M (st n) + st n M ^ 2 := by
      unfold energy; rw [sum_range_succ]
    rw [e]; linarith
  have hanti : Antitone (fun n => energy (M + 1) (st n)) :=
    antitone_nat_of_succ_le (fun n => by have := hE n; nlinarith [sq_nonneg (st n M)])
  have hconv : ∃ L, Tendsto (fun n => energy (M + 1) (st n)) atTop (𝓝 L) :=
    ⟨_, tendsto_atTop_ciInf hanti ⟨0, by rintro _ ⟨n, rfl⟩; exact energy_nonneg _ _⟩⟩
  obtain ⟨L, hL⟩ := hconv
  have hdiff : Tendsto (fun n => energy (M + 1) (st n) - energy (M + 1) (st (n + 1))) atTop (𝓝 0) := by
    have := hL.sub (hL.comp (tendsto_add_atTop_nat 1))
    simpa using this
  have hM2 : Tendsto (fun n => st n M ^ 2) atTop (𝓝 0) :=
    squeeze_zero (fun n => sq_nonneg _) (fun n => by have := hE n; linarith) hdiff
  have hM : Tendsto (fun n => st n M) atTop (𝓝 0) := by
    have := (hM2.sqrt)
    simp only [Real.sqrt_sq_eq_abs, Real.sqrt_zero] at this
    exact (tendsto_zero_iff_abs_tendsto_zero _).mpr this
  choose f hf1 hf2 _ hf4 _ using fun n => stageLoop_spec k c M (st n) 0
  have key : ∀ j, j ≤ M → Tendsto (fun n => st n (M - j)) atTop (𝓝 0) ∧
      Tendsto (fun n => f n (M - j)) atTop (𝓝 0) := by
    intro j
    induction j with
    | zero => intro _; exact ⟨by simpa using hM, by simp [hf1]⟩
    | succ j ih =>
      intro hj
      obtain ⟨a, b⟩ := ih (by omega)
      have hi : M - (j + 1) < M := by omega
      have hi1 : M - (j + 1) + 1 = M - j := by omega
      have e : ∀ n, st n (M - (j + 1)) = (st (n + 1) (M - j) - k (M - (j + 1)) * f n (M - j))
          / c (M - (j + 1)) := by
        intro n
        have := hf4 n _ hi
        rw [← hst, hi1] at this
        rw [this, eq_div_iff (hc _ hi)]; ring
      have t1 : Tendsto (fun n => st n (M - (j + 1))) atTop (𝓝 0) := by
        have := ((a.comp (tendsto_add_atTop_nat 1)).sub (b.const_mul (k (M - (j + 1))))).div_const
          (c (M - (j + 1)))
        simp only [mul_zero, sub_zero, zero_div] at this
        exact this.congr (fun n => (e n).symm)
      refine ⟨t1, ?_⟩
      have := (b.const_mul (c (M - (j + 1)))).sub (t1.const_mul (k (M - (j + 1))))
      simp only [mul_zero, sub_zero] at this
      refine this.congr (fun n => ?_)
      rw [hf2 n _ hi, hi1]
  intro i hi
  have := (key (M - i) (by omega)).1
  rwa [show M - (M - i) = i by omega] at this

theorem smooth_zero {cfg : Config} {f : Filter} (h : f.smoothing = 0) : smooth cfg f = f := by
  unfold smooth; rw [if_neg (by omega)]

theorem processSample_smoothing (cfg : Config) (f : Filter) (x : ℝ) :
    (processSample cfg f x).1.smoothing = f.smoothing - 1 := by
  unfold processSample smooth
  by_cases hs : f.smoothing > 0
  · rw [if_pos hs]
    by_cases hn : f.smoothing - 1 > 0
    · simp only [hn, if_true]
    · simp only [hn, if_false]
  · rw [if_neg hs]
    simp only
    omega

/-- **C24**: after any history, feeding zeros makes the output die out. -/
theorem C24_dies_out {cfg : Config} (h0 : 0 < cfg.eta) (h1 : cfg.eta < 1) {M : ℕ} {k v : ℕ → ℝ}
    {f : Filter} (hf : init cfg M k v = some f) (ops : List Op) :
    Tendsto (fun n => outAt (processSample cfg) (after cfg f ops) (fun _ => 0) n) atTop (𝓝 0) := by
  have hg := after_good h0 h1 ops (init_good h0 h1 hf)
  generalize after cfg f ops = g at hg
  let s : ℕ → Filter := stateAt (processSample cfg) g (fun _ => 0)
  have hs : ∀ n, s (n + 1) = (processSample cfg (s n) 0).1 := fun n => rfl
  have hgood : ∀ n, Good cfg (s n) := by
    intro n
    induction n with
    | zero => exact hg
    | succ n ih => rw [hs]; exact processSample_good h0 h1 ih 0
  have hsm : ∀ n, (s n).smoothing = g.smoothing - n := by
    intro n
    induction n with
    | zero => rfl
    | succ n ih => rw [hs, processSample_smoothing, ih]; omega
  set N := g.smoothing
  have hz : ∀ n, (s (n + N)).smoothing = 0 := fun n => by rw [hsm]; omega
  have hfix : ∀ n, s (n + 1 + N) = { s (n + N) with
        state := (stageLoop (s (n + N)).k (s (n + N)).c (s (n + N)).order (s (n + N)).state 0) } := by
    intro n
    rw [show n + 1 + N = n + N + 1 by omega, hs]
    unfold processSample
    rw [smooth_zero (hz n)]
    rfl
  have hconst : ∀ n, (s (n + N)).k = (s N).k ∧ (s (n + N)).c = (s N).c ∧
      (s (n + N)).order = (s N).order ∧ (s (n + N)).v = (s N).v := by
    intro n
    induction n with
    | zero => rw [Nat.zero_add]; exact ⟨rfl, rfl, rfl, rfl⟩
    | succ n ih => rw [hfix]; exact ih
  have hdec := decay (M := (s N).order) (k := (s N).k) (c := (s N).c)
    (fun i _ => by rw [(hgood N).c]; exact (scattering_sq h0 h1 ((hgood N).k i)).1)
    (fun i _ => by rw [(hgood N).c]; exact ((scattering_sq h0 h1 ((hgood N).k i)).2).ne')
    (st := fun n => (s (n + N)).state)
    (fun n => by
      obtain ⟨a, b, c, _⟩ := hconst n
      rw [hfix n, a, b, c])
  rw [← tendsto_add_atTop_iff_nat N]
  have hout : ∀ n, outAt (processSample cfg) g (fun _ => 0) (n + N)
      = ∑ m ∈ range ((s N).order + 1), (s (n + 1 + N)).state m * (s N).v m := by
    intro n
    have e : outAt (processSample cfg) g (fun _ => 0) (n + N) = (processSample cfg (s (n + N)) 0).2 := rfl
    obtain ⟨a, b, c, d⟩ := hconst n
    rw [e, hfix n]
    unfold processSample
    rw [smooth_zero (hz n)]
    simp only [step, taps]
    rw [c, d]
  have : Tendsto (fun n => ∑ m ∈ range ((s N).order + 1), (s (n + 1 + N)).state m * (s N).v m)
      atTop (𝓝 (∑ m ∈ range ((s N).order + 1), 0 * (s N).v m)) := by
    apply tendsto_finset_sum
    intro m hm
    apply Tendsto.mul_const
    exact (hdec m (by rw [mem_range] at hm; omega)).comp (tendsto_add_atTop_nat 1)
  simp only [zero_mul, sum_const_zero] at this
  exact this.congr (fun n => (hout n).symm)

/-- The hypotheses of C24 are met by a second-order filter, with coefficients outside `(-1, 1)`
requested on the way. -/
example : ∃ f, init ⟨1/1000, ⟨1/16, 1/8, 1/16, -1, 1/4⟩, 3⟩ 2 (fun _ => 1/2) (fun _ => 1) = some f ∧
    inputEnergy [.sample 1, .changeCoeffs (fun _ => 2) (fun _ => 0), .sample (-2)] = 5 := by
  exact ⟨_, rfl, by norm_num [inputEnergy]⟩

end Verif.Ladder
