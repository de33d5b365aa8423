import Verif.Model.Agc
import Verif.Spec.Agc
import Mathlib.Analysis.SpecificLimits.Basic
import Mathlib.Analysis.SpecialFunctions.Pow.Continuity
import Mathlib.Tactic.Linarith
import Mathlib.Tactic.FieldSimp

/-!
# C33: automatic gain control
-/

namespace Verif.Agc
open Verif.AgcSpec _root_.Filter

/-- Feeding the samples `x 0, ..., x (n-1)`. -/
noncomputable def run (s : State) (x : ℕ → ℝ) : ℕ → State
  | 0 => s
  | n + 1 => process (run s x n) (x n)

/-- The constant fields, and the counter and power accumulator as functions of the history. -/
theorem run_eq (s : State) (w : ℕ) (hw : s.numWarmUp = w) (x : ℕ → ℝ) (n : ℕ) :
    run (reset s) x n = { s with
      smoothedPower := if n < w then 1 + ∑ k ∈ Finset.range n, x k
        else estimate w s.smootherCoeff x n
      counter := 1 + (min n w : ℕ) } := by
  induction n with
  | zero =>
    unfold run reset
    congr 1
    unfold estimate average
    simp
  | succ n ih =>
    rw [run, ih]
    unfold process warmUp
    dsimp only
    rw [hw]
    rcases lt_trichotomy (n + 1) w with h | h | h
    · rw [if_pos (by rw [min_eq_left (by omega)]; omega),
        if_neg (by rw [min_eq_left (by omega)]; omega), if_pos (by omega), if_pos h,
        Finset.sum_range_succ, min_eq_left (by omega), min_eq_left (by omega)]
      congr 1
      ring
    · rw [if_pos (by rw [min_eq_left (by omega)]; omega),
        if_pos (by rw [min_eq_left (by omega)]; omega), if_pos (by omega), if_neg (by omega),
        min_eq_left (by omega), min_eq_left (by omega)]
      congr 1
      · unfold estimate average
        rw [if_pos (by omega), Finset.sum_range_succ]
        push_cast
        rw [add_assoc 1 _ (x n), ← add_assoc (1 : ℝ) (n : ℝ) 1]
    · rw [if_neg (by rw [min_eq_right (by omega)]; omega), if_neg (by omega), if_neg (by omega),
        min_eq_right (by omega), min_eq_right (by omega)]
      congr 1
      have hE : estimate w s.smootherCoeff x (n + 1) =
          (1 - s.smootherCoeff) * ((1 - s.smootherCoeff) ^ (n - w) * average x w +
            s.smootherCoeff * ∑ k ∈ Finset.range (n - w), (1 - s.smootherCoeff) ^ k * x (n - 1 - k))
            + s.smootherCoeff * x n := by
        unfold estimate
        rw [if_neg (by omega), show n + 1 - w = (n - w) + 1 by omega, Finset.sum_range_succ']
        rw [mul_add, mul_add, ← mul_assoc (1 - s.smootherCoeff), ← pow_succ', Finset.mul_sum,
          Finset.mul_sum, Finset.mul_sum]
        have : ∀ k ∈ Finset.range (n - w), s.smootherCoeff * ((1 - s.smootherCoeff) ^ (k + 1) *
            x (n + 1 - 1 - (k + 1))) = (1 - s.smootherCoeff) * (s.smootherCoeff *
            ((1 - s.smootherCoeff) ^ k * x (n - 1 - k))) := by
          intro k _
          rw [show n + 1 - 1 - (k + 1) = n - 1 - k by omega, pow_succ]; ring
        rw [Finset.sum_congr rfl this]
        simp
        ring
      rw [hE]
      by_cases h2 : n = w
      · subst h2
        unfold estimate
        simp
        ring
      · unfold estimate
        rw [if_neg (by omega)]
        ring

/-- **C33.** The estimate used by the gain after `n` samples, for every `n`, is the specified one: the
average of 1 and the samples up to the end of the warm-up, the exponential moving average after. -/
theorem C33_power (s : State) (w : ℕ) (hw : s.numWarmUp = w) (x : ℕ → ℝ) (n : ℕ) :
    power (run (reset s) x n) = estimate w s.smootherCoeff x n := by
  rw [run_eq s w hw]
  unfold power
  dsimp only
  rw [hw]
  split_ifs with h1 h2 h3
  · unfold estimate average
    rw [if_pos h2.le, min_eq_left h2.le]
    push_cast
    rfl
  · exfalso; rw [min_eq_right (by omega)] at h1; omega
  · exfalso; rw [min_eq_left (by omega)] at h1; omega
  · rfl

/-- **C33.** A successful `Init` gives a warm-up of one time constant (rounded to samples), the
smoothing coefficient of the time constant, strictly between 0 and 1, and an estimate of 1. -/
theorem C33_init (g s : State) (rate tc strength floor : ℝ)
    (h : init g rate tc strength floor = .ok s) :
    0 < rate ∧ 0 < tc ∧ 0 ≤ strength ∧ strength ≤ 1 ∧ 0 < floor ∧ s = reset s ∧
    (∃ w : ℕ, s.numWarmUp = w ∧ |(w : ℝ) - rate * tc| ≤ 1 / 2 ∧ w < 2 ^ 31) ∧
    0 < s.smootherCoeff ∧ s.smootherCoeff < 1 ∧
    (1 - s.smootherCoeff) = Real.exp (-1 / (tc * rate)) ∧
    s.exponent = -strength / 2 ∧ s.powerFloor = floor := by
  unfold init at h
  split_ifs at h with h1 h2
  push Not at h1
  obtain ⟨a, b, ⟨c, d⟩, e⟩ := h1
  injection h with h
  subst h
  have hpos : 0 < rate * tc := mul_pos a b
  have hexp : Real.exp (-1 / (tc * rate)) < 1 := by
    rw [Real.exp_lt_one_iff]
    apply div_neg_of_neg_of_pos (by norm_num)
    rw [mul_comm]; exact hpos
  refine ⟨a, b, c, d, e, rfl, ?_, ?_, ?_, ?_, ?_, rfl⟩
  · have h0 : 0 ≤ ⌊rate * tc + 1 / 2⌋ := Int.floor_nonneg.2 (by linarith)
    have hcast : ((⌊rate * tc + 1 / 2⌋.toNat : ℕ) : ℝ) = (⌊rate * tc + 1 / 2⌋ : ℝ) := by
      exact_mod_cast Int.toNat_of_nonneg h0
    have f1 := Int.floor_le (rate * tc + 1 / 2)
    have f2 := Int.lt_floor_add_one (rate * tc + 1 / 2)
    refine ⟨⌊rate * tc + 1 / 2⌋.toNat, (Int.toNat_of_nonneg h0).symm, ?_, ?_⟩
    · rw [hcast, abs_le]; constructor <;> linarith
    · have : ((⌊rate * tc + 1 / 2⌋.toNat : ℕ) : ℝ) < 2 ^ 31 := by rw [hcast]; linarith
      exact_mod_cast this
  · show 0 < 1 - Real.exp (-1 / (tc * rate)); linarith
  · show 1 - Real.exp (-1 / (tc * rate)) < 1
    have := Real.exp_pos (-1 / (tc * rate)); linarith
  · show 1 - (1 - Real.exp (-1 / (tc * rate))) = Real.exp (-1 / (tc * rate)); ring
  · show -(1 / 2) * strength = -strength / 2; ring

/-- **C33.** `Init` returns 0 exactly for parameters outside the documented ranges. -/
theorem C33_init_fail (g : State) (rate tc strength floor : ℝ) :
    init g rate tc strength floor = .fail ↔
      ¬ (0 < rate ∧ 0 < tc ∧ 0 ≤ strength ∧ strength ≤ 1 ∧ 0 < floor) := by
  unfold init
  constructor
  · intro h
    split_ifs at h with h1
    rintro ⟨a, b, c, d, e⟩
    rcases h1 with h1 | h1 | h1 | h1
    · exact h1 a
    · exact h1 b
    · exact h1 ⟨c, d⟩
    · exact h1 e
  · intro h
    rw [if_pos]
    by_contra h1
    push Not at h1
    exact h ⟨h1.1, h1.2.1, h1.2.2.1.1, h1.2.2.1.2, h1.2.2.2⟩

theorem estimate_step (w : ℕ) (c : ℝ) (x : ℕ → ℝ) (n : ℕ) (h : w ≤ n) :
    estimate w c x (n + 1) = (1 - c) * estimate w c x n + c * x n := by
  have h1 := run_eq ⟨c, 0, 0, 0, w, 0⟩ w rfl x (n + 1)
  rw [run, run_eq ⟨c, 0, 0, 0, w, 0⟩ w rfl x n] at h1
  unfold process at h1
  dsimp only at h1
  rw [if_neg (by rw [min_eq_right h]; omega), if_neg (by omega), if_neg (by omega)] at h1
  injection h1 with _ _ h1
  rw [← h1]; ring

/-- **C33.** The estimate stays between any bounds that hold for 1 and for the samples seen. -/
theorem C33_bounds (w : ℕ) (c : ℝ) (hc0 : 0 ≤ c) (hc1 : c ≤ 1) (x : ℕ → ℝ) (n : ℕ) (lo hi : ℝ)
    (h1 : lo ≤ 1 ∧ 1 ≤ hi) (hx : ∀ k < n, lo ≤ x k ∧ x k ≤ hi) :
    lo ≤ estimate w c x n ∧ estimate w c x n ≤ hi := by
  have avg : ∀ m ≤ n, lo ≤ average x m ∧ average x m ≤ hi := by
    intro m hm
    unfold average
    have hpos : (0 : ℝ) < 1 + m := by positivity
    rw [le_div_iff₀ hpos, div_le_iff₀ hpos]
    have a : ∑ k ∈ Finset.range m, lo ≤ ∑ k ∈ Finset.range m, x k :=
      Finset.sum_le_sum fun k hk => (hx k (by have := Finset.mem_range.1 hk; omega)).1
    have b : ∑ k ∈ Finset.range m, x k ≤ ∑ k ∈ Finset.range m, hi :=
      Finset.sum_le_sum fun k hk => (hx k (by have := Finset.mem_range.1 hk; omega)).2
    rw [Finset.sum_const, Finset.card_range, nsmul_eq_mul] at a b
    constructor <;> nlinarith [h1.1, h1.2]
  induction n with
  | zero => rw [estimate, if_pos (by omega)]; exact avg 0 (by omega)
  | succ n ih =>
    by_cases h : n + 1 ≤ w
    · rw [estimate, if_pos h]; exact avg _ le_rfl
    · rw [estimate_step w c x n (by omega)]
      obtain ⟨i1, i2⟩ := ih (fun k hk => hx k (by omega)) (fun m hm => avg m (by omega))
      obtain ⟨x1, x2⟩ := hx n (by omega)
      constructor <;> nlinarith

/-- **C33.** After a successful `Init` and any number of nonnegative power samples the gain is
`(power_floor + estimate)^(-strength/2)`, positive and at most `power_floor^(-strength/2)`; it is at
least `(power_floor + max(1, largest sample))^(-strength/2)`. -/
theorem C33_gain (g s : State) (rate tc strength floor : ℝ)
    (h : init g rate tc strength floor = .ok s) (x : ℕ → ℝ) (n : ℕ) (hi : ℝ) (hhi : 1 ≤ hi)
    (hx : ∀ k < n, 0 ≤ x k ∧ x k ≤ hi) :
    ∃ w : ℕ, s.numWarmUp = w ∧
    gain (run s x n) = (floor + estimate w s.smootherCoeff x n) ^ (-strength / 2) ∧
    0 < gain (run s x n) ∧ gain (run s x n) ≤ floor ^ (-strength / 2) ∧
    (floor + hi) ^ (-strength / 2) ≤ gain (run s x n) := by
  obtain ⟨-, -, hs0, -, hf, hr, ⟨w, hw, -⟩, hc0, hc1, -, hexp, hfl⟩ := C33_init _ _ _ _ _ _ h
  have hp := C33_power s w hw x n
  rw [← hr] at hp
  have hfield : (run s x n).powerFloor = floor ∧ (run s x n).exponent = -strength / 2 := by
    rw [hr, run_eq s w hw]; exact ⟨hfl, hexp⟩
  have hg : gain (run s x n) = (floor + estimate w s.smootherCoeff x n) ^ (-strength / 2) := by
    unfold gain; rw [hp, hfield.1, hfield.2]
  obtain ⟨b1, b2⟩ := C33_bounds w s.smootherCoeff hc0.le hc1.le x n 0 hi ⟨zero_le_one, hhi⟩ hx
  refine ⟨w, hw, hg, ?_, ?_, ?_⟩
  · rw [hg]; exact Real.rpow_pos_of_pos (by linarith) _
  · rw [hg]; exact Real.rpow_le_rpow_of_nonpos hf (by linarith) (by linarith)
  · rw [hg]; exact Real.rpow_le_rpow_of_nonpos (by linarith) (by linarith) (by linarith)

/-- **C33.** Louder input never gives more gain: if all power samples of one history are at most those
of another then the estimate is at most the other. -/
theorem C33_monotone (w : ℕ) (c : ℝ) (hc0 : 0 ≤ c) (hc1 : c ≤ 1) (x y : ℕ → ℝ) (n : ℕ)
    (hxy : ∀ k < n, x k ≤ y k) : estimate w c x n ≤ estimate w c y n := by
  induction n with
  | zero => simp [estimate, average]
  | succ n ih =>
    by_cases h : n + 1 ≤ w
    · rw [estimate, estimate, if_pos h, if_pos h]
      unfold average
      apply div_le_div_of_nonneg_right _ (by positivity)
      have := Finset.sum_le_sum (s := Finset.range (n + 1)) (f := x) (g := y)
        fun k hk => hxy k (Finset.mem_range.1 hk)
      linarith
    · rw [estimate_step w c x n (by omega), estimate_step w c y n (by omega)]
      have := ih fun k hk => hxy k (by omega)
      have h2 := hxy n (by omega)
      nlinarith

/-- **C33.** For input of constant power `p` from some time on the estimate converges to `p`, whatever
came before, so that the output power converges to `p (power_floor + p)^(-strength)`. -/
theorem C33_converges (g s : State) (rate tc strength floor : ℝ)
    (h : init g rate tc strength floor = .ok s) (x : ℕ → ℝ) (p : ℝ) (hp : 0 ≤ p) (m : ℕ)
    (hx : ∀ k, m ≤ k → x k = p) :
    Tendsto (fun n => power (run s x n)) atTop (nhds p) ∧
    Tendsto (fun n => gain (run s x n) ^ 2 * p) atTop (nhds (p * (floor + p) ^ (-strength))) := by
  obtain ⟨-, -, hs0, -, hf, hr, ⟨w, hw, -⟩, hc0, hc1, -, hexp, hfl⟩ := C33_init _ _ _ _ _ _ h
  obtain ⟨c, hc⟩ : ∃ c, c = s.smootherCoeff := ⟨_, rfl⟩
  rw [← hc] at hc0 hc1
  have hpw : ∀ n, power (run s x n) = estimate w c x n := by
    intro n
    have := C33_power s w hw x n
    rw [← hr] at this
    rw [this, hc]
  have hgeo : ∀ j, estimate w c x (max m w + j) - p =
      (1 - c) ^ j * (estimate w c x (max m w) - p) := by
    intro j
    induction j with
    | zero => simp
    | succ j ih =>
      have e := estimate_step w c x (max m w + j) (by omega)
      rw [hx _ (by omega)] at e
      rw [← add_assoc, e, pow_succ]
      linear_combination (1 - c) * ih
  have hlim : Tendsto (fun n => power (run s x n)) atTop (nhds p) := by
    have t : Tendsto (fun j => (1 - c) ^ j * (estimate w c x (max m w) - p) + p) atTop (nhds p) := by
      have := tendsto_pow_atTop_nhds_zero_of_lt_one (r := 1 - c) (by linarith) (by linarith)
      simpa using (this.mul_const (estimate w c x (max m w) - p)).add_const p
    rw [← tendsto_add_atTop_iff_nat (max m w)]
    refine t.congr fun j => ?_
    rw [hpw, ← hgeo j, add_comm j]; ring
  refine ⟨hlim, ?_⟩
  have hfields : ∀ n, (run s x n).powerFloor = floor ∧ (run s x n).exponent = -strength / 2 := by
    intro n; rw [hr, run_eq s w hw]; exact ⟨hfl, hexp⟩
  have hcont : Tendsto (fun n => (floor + power (run s x n)) ^ (-strength / 2)) atTop
      (nhds ((floor + p) ^ (-strength / 2))) :=
    (tendsto_const_nhds.add hlim).rpow_const (Or.inl (by linarith))
  have hfin := (hcont.pow 2).mul_const p
  have e : ((floor + p) ^ (-strength / 2)) ^ 2 * p = p * (floor + p) ^ (-strength) := by
    rw [← Real.rpow_natCast, ← Real.rpow_mul (by linarith)]
    rw [show -strength / 2 * ((2 : ℕ) : ℝ) = -strength by push_cast; ring]; ring
  rw [← e]
  refine hfin.congr fun n => ?_
  unfold gain
  rw [(hfields n).1, (hfields n).2]

/-- The formula in the documentation, `(1 + x[0]^2 + ... + x[n]^2) / (1 + n)` "on the nth sample",
counts from `n = 0` and would divide the sum of `n + 2` terms by `n + 1`: the code divides by
`n + 2`. E.g. a first sample of power 1 gives the estimate 1, not 2. -/
theorem C33_documented_formula_violation :
    ∃ s, init ⟨0, 0, 0, 0, 0, 0⟩ 16000 (1 / 4) (1 / 2) (1 / 1000000) = .ok s ∧
      power (run s (fun _ => 1) 1) = 1 ∧
      (1 + ∑ k ∈ Finset.range (0 + 1), (fun _ : ℕ => (1 : ℝ)) k) / (1 + ((0 : ℕ) : ℝ)) = 2 := by
  refine ⟨_, by unfold init; rw [if_neg (by norm_num), if_neg (by norm_num)], ?_, by norm_num⟩
  rw [C33_power _ 4000 (by norm_num)]
  rw [estimate, if_pos (by norm_num)]
  unfold average
  norm_num

/-- The parameters of the header's example satisfy `C33_init` and `C33_gain`. -/
example (x : ℕ → ℝ) (hx : ∀ k, 0 ≤ x k ∧ x k ≤ 1) (n : ℕ) :
    ∃ s, init ⟨0, 0, 0, 0, 0, 0⟩ 16000 (1 / 4) (1 / 2) (1 / 1000000) = .ok s ∧
      gain (run s x n) ≤ (1 / 1000000 : ℝ) ^ (-(1 / 2 : ℝ) / 2) := by
  have e : ∃ s, init ⟨0, 0, 0, 0, 0, 0⟩ 16000 (1 / 4) (1 / 2) (1 / 1000000) = .ok s :=
    ⟨_, by unfold init; rw [if_neg (by norm_num), if_neg (by norm_num)]⟩
  obtain ⟨s, hs⟩ := e
  obtain ⟨w, -, -, -, h, -⟩ := C33_gain _ _ _ _ _ _ hs x n 1 le_rfl fun k _ => hx k
  exact ⟨s, hs, h⟩

end Verif.Agc
