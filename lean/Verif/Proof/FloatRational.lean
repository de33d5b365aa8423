import Verif.Model.FloatRational
import Verif.Proof.RationalApproximation
import Verif.Proof.FloatAuditory

/-! # Lemmas for `Verif.Theorems.FloatRational` -/

namespace Verif.FloatRational
open Verif.Rounding
open Verif.RationalApproximation (Frac append bound Exit ck_of bound_spec append_spec fib46)
open Verif.NumberUtil (ck intMin intMax)
open Verif.FloatAuditory (r64')

/-- The relative error of one operation. -/
noncomputable def ε : ℝ := 1 / 2 ^ 52

theorem ε_pos : 0 < ε := by unfold ε; positivity
theorem ε_small : ε ≤ 1 / 10 ^ 15 := by unfold ε; norm_num

theorem r64ε {x : ℝ} (h : 1 / 2 ^ 100 ≤ x) : x * (1 - ε) ≤ binary64 x ∧ binary64 x ≤ x * (1 + ε) := r64' h

theorem r64_one : binary64 1 = 1 := binary64_regular.one

/-- The reciprocal of a rounded number, rounded. -/
theorem recip_bounds {ρ : ℝ} (h0 : 1 / 2 ^ 40 ≤ ρ) (h1 : ρ ≤ 2) :
    (1 - 5 / 2 * ε) ≤ binary64 (1 / binary64 ρ) * ρ ∧ binary64 (1 / binary64 ρ) * ρ ≤ 1 + 5 / 2 * ε := by
  have e0 := ε_pos
  have e1 := ε_small
  have hρ : 0 < ρ := lt_of_lt_of_le (by positivity) h0
  obtain ⟨a, b⟩ := r64ε (le_trans (by norm_num) h0 : 1 / 2 ^ 100 ≤ ρ)
  generalize binary64 ρ = s at *
  have hs : 0 < s := lt_of_lt_of_le (by nlinarith) a
  have hs3 : s ≤ 3 := by nlinarith
  obtain ⟨c, d⟩ := r64ε (x := 1 / s) (by
    rw [le_div_iff₀ hs]; norm_num; linarith)
  generalize binary64 (1 / s) = w at *
  have c' : 1 - ε ≤ w * s := by
    have := mul_le_mul_of_nonneg_right c hs.le
    rwa [mul_right_comm, one_div_mul_cancel hs.ne', one_mul] at this
  have d' : w * s ≤ 1 + ε := by
    have := mul_le_mul_of_nonneg_right d hs.le
    rwa [mul_right_comm, one_div_mul_cancel hs.ne', one_mul] at this
  have hw : 0 < w := by
    by_contra hc
    have : w * s ≤ 0 := mul_nonpos_of_nonpos_of_nonneg (by linarith) hs.le
    linarith
  have f1 : w * s ≤ w * (ρ * (1 + ε)) := mul_le_mul_of_nonneg_left b hw.le
  have f2 : w * (ρ * (1 - ε)) ≤ w * s := mul_le_mul_of_nonneg_left a hw.le
  have hwρ : 0 < w * ρ := mul_pos hw hρ
  constructor
  · by_contra hc
    push Not at hc
    have : w * ρ * (1 + ε) < (1 - 5 / 2 * ε) * (1 + ε) := mul_lt_mul_of_pos_right hc (by linarith)
    nlinarith
  · by_contra hc
    push Not at hc
    have : (1 + 5 / 2 * ε) * (1 - ε) < w * ρ * (1 - ε) := mul_lt_mul_of_pos_right hc (by linarith)
    nlinarith

/-- One step of Euclid's algorithm: the error, scaled by the square of the denominator, grows only in second order and by the
rounding. -/
theorem step_error {ρ Q R D : ℝ} (hR : 1 ≤ R) (hQ : R + 1 ≤ Q) (hQM : Q ≤ 400000000) (hD : D ≤ 1 / 4)
    (h : |ρ * Q - R| * Q ≤ D) :
    |binary64 (1 / binary64 ρ) * R - Q| * R ≤ D + 2 * D ^ 2 * (1 / R - 1 / Q) + 3 * ε * (Q * R) ∧
      7 / 8 * R ≤ ρ * Q ∧ ρ ≤ 2 := by
  have e0 := ε_pos
  have e1 := ε_small
  have hQ0 : 0 < Q := by linarith
  have hR0 : 0 < R := by linarith
  have hD0 : 0 ≤ D := le_trans (by positivity) h
  obtain ⟨δ, hδ⟩ : ∃ δ, δ = ρ * Q - R := ⟨_, rfl⟩
  rw [← hδ] at h
  have hδ1 : |δ| ≤ 1 / 8 := by
    by_contra hc
    push Not at hc
    have : 1 / 8 * 2 < |δ| * Q := by
      have := mul_le_mul_of_nonneg_left (show (2 : ℝ) ≤ Q by linarith) (abs_nonneg δ)
      linarith
    linarith
  obtain ⟨a1, a2⟩ := abs_le.1 hδ1
  have hρQ : ρ * Q = R + δ := by linarith
  have p1 : 7 / 8 * R ≤ ρ * Q := by linarith
  have p2 : ρ ≤ 2 := by
    by_contra hc
    push Not at hc
    have := mul_lt_mul_of_pos_right hc hQ0
    linarith
  have p3 : 1 / 2 ^ 40 ≤ ρ := by
    by_contra hc
    push Not at hc
    have := mul_lt_mul_of_pos_right hc hQ0
    have : 1 / 2 ^ 40 * Q ≤ 1 / 2 ^ 40 * 400000000 := mul_le_mul_of_nonneg_left hQM (by positivity)
    norm_num at *
    linarith
  refine ⟨?_, p1, p2⟩
  obtain ⟨b1, b2⟩ := recip_bounds p3 p2
  generalize binary64 (1 / binary64 ρ) = w at *
  -- `w = θ Q / (R + δ)`
  have hS : 0 < R + δ := by linarith
  have key : (w * R - Q) * (R + δ) = Q * ((w * ρ - 1) * R - δ) := by
    rw [← hρQ]
    linear_combination (-Q) * hρQ
  have hT : |w * ρ - 1| ≤ 5 / 2 * ε := abs_le.2 ⟨by linarith, by linarith⟩
  have k2 : |w * R - Q| * (R + δ) ≤ Q * (5 / 2 * ε * R + |δ|) := by
    rw [← abs_of_pos hS, ← abs_mul, key, abs_mul, abs_of_pos hQ0]
    refine mul_le_mul_of_nonneg_left ?_ hQ0.le
    refine (abs_sub _ _).trans ?_
    rw [abs_mul, abs_of_pos hR0]
    have := mul_le_mul_of_nonneg_right hT hR0.le
    linarith
  have k3 : |w * R - Q| * R * (R + δ) ≤ R * (5 / 2 * ε * (Q * R) + D) := by
    have := mul_le_mul_of_nonneg_right k2 hR0.le
    nlinarith
  have hinv : 1 / R - 1 / Q = (Q - R) / (Q * R) := by field_simp
  have hge : 1 / (Q * R) ≤ 1 / R - 1 / Q := by
    rw [hinv]; exact div_le_div_of_nonneg_right (by linarith) (by positivity)
  have hδD : |δ| ≤ D / Q := by rw [le_div_iff₀ hQ0]; exact h
  -- lower bound of `R + δ`
  have hfin : R * (5 / 2 * ε * (Q * R) + D) ≤ (D + 2 * D ^ 2 * (1 / (Q * R)) + 3 * ε * (Q * R)) * (R + δ) := by
    have g1 : R * (5 / 2 * ε * (Q * R)) ≤ 3 * ε * (Q * R) * (R + δ) := by
      have : 5 / 2 * R ≤ 3 * (R + δ) := by linarith
      have := mul_le_mul_of_nonneg_right this (show 0 ≤ ε * (Q * R) by positivity)
      nlinarith
    have g2 : R * D ≤ (D + 2 * D ^ 2 * (1 / (Q * R))) * (R + δ) := by
      have q1 : D * (1 / (Q * R)) * R = D / Q := by field_simp
      have q2 : R - D / Q ≤ R + δ := by have := neg_abs_le δ; linarith
      have q3 : D / Q ≤ 1 / 8 := by rw [div_le_iff₀ hQ0]; linarith
      have q4 : 0 ≤ D / Q := by positivity
      have q5 : 0 ≤ D * (1 / (Q * R)) := by positivity
      have q6 : R ≤ (1 + 2 * (D * (1 / (Q * R)))) * (R + δ) := by
        have : (1 + 2 * (D * (1 / (Q * R)))) * (R - D / Q) ≤ (1 + 2 * (D * (1 / (Q * R)))) * (R + δ) :=
          mul_le_mul_of_nonneg_left q2 (by linarith)
        refine le_trans ?_ this
        have : D * (1 / (Q * R)) ≤ D / Q := by rw [← q1]; exact le_mul_of_one_le_right q5 hR
        have : D * (1 / (Q * R)) * (D / Q) ≤ D / Q * (1 / 8) := mul_le_mul this q3 q4 q4
        nlinarith
      have := mul_le_mul_of_nonneg_left q6 hD0
      nlinarith
    nlinarith
  have hle : |w * R - Q| * R ≤ D + 2 * D ^ 2 * (1 / (Q * R)) + 3 * ε * (Q * R) :=
    le_of_mul_le_mul_right (k3.trans hfin) hS
  refine hle.trans ?_
  have := mul_le_mul_of_nonneg_left hge (show 0 ≤ 2 * D ^ 2 by positivity)
  linarith

/-- The default tolerance. -/
noncomputable def tolD : ℝ := binary64 (1 / 10 ^ 9)

theorem tolD_bounds : 1 / 10 ^ 10 ≤ tolD ∧ tolD ≤ 2 / 10 ^ 9 := by
  have e0 := ε_pos
  have e1 := ε_small
  obtain ⟨a, b⟩ := r64ε (x := 1 / 10 ^ 9) (by norm_num)
  unfold tolD
  generalize binary64 (1 / 10 ^ 9) = w at *
  norm_num at *
  constructor <;> linarith

/-- The loop ends at once. -/
theorem run_converged {rnd : ℝ → ℝ} {tol : ℝ} {maxDen : ℤ} {left : ℕ} {r : ℝ} {t : ℤ} {p c : Frac} {value : ℝ}
    (h : |rnd (r - t)| ≤ tol) : run rnd tol maxDen left r t p c value = some c := by
  unfold run
  rw [loop]
  simp only
  rw [if_pos h, Option.bind_some]

/-- The last term is accepted. -/
theorem finish_accept {value : ℝ} {n : ℤ} {p c s : Frac} (hn : 1 ≤ n) (hs : append c p n = some s) :
    finish binary64 value n n p c = some s := by
  have e0 := ε_pos
  have e1 := ε_small
  have hn' : (1 : ℝ) ≤ n := by exact_mod_cast hn
  obtain ⟨_, b⟩ := r64ε (x := (n : ℝ) / 2) (le_trans (by norm_num) (show (1 / 2 : ℝ) ≤ n / 2 by linarith))
  have hl : binary64 ((n : ℝ) / 2) < n := by
    refine lt_of_le_of_lt b ?_
    nlinarith
  unfold finish
  simp only
  rw [if_pos hl.le, if_neg (lt_irrefl _), Option.bind_some, hs, Option.bind_some, if_pos (Or.inl hl)]

/-- The next term would be much too large: it is not used. -/
theorem finish_reject {value : ℝ} {n term : ℤ} {p c : Frac} (h : (n : ℝ) < binary64 ((term : ℝ) / 2)) :
    finish binary64 value n term p c = some c := by
  unfold finish
  simp only
  rw [if_neg (not_le.2 h)]

/-- The last convergent is the fraction, up to a small residual. -/
theorem run_last {maxDen : ℤ} {left : ℕ} {r K : ℝ} {t : ℤ} {p c : Frac} (value : ℝ) (hM : maxDen ≤ 2 ^ 31 - 1)
    (pb : 0 ≤ p.b) (pM : p.b ≤ maxDen) (cb : 1 ≤ c.b) (ca : 0 ≤ c.a) (pa : 0 ≤ p.a) (paM : p.a ≤ 2 ^ 31 - 1)
    (h0 : 0 ≤ r - t) (h1 : r - t ≤ K) (hK : K ≤ 1 / 4) (hKM : K * maxDen ≤ 1 / 4 * c.b) :
    run binary64 tolD maxDen left r t p c value = some c := by
  have e0 := ε_pos
  have e1 := ε_small
  obtain ⟨t0, t1⟩ := tolD_bounds
  unfold run
  rw [loop]
  simp only
  by_cases hc : |binary64 (r - t)| ≤ tolD
  · rw [if_pos hc, Option.bind_some]
  · rw [if_neg hc]
    push Not at hc
    have hρ0 : 0 ≤ binary64 (r - t) := binary64_regular.nonneg h0
    rw [abs_of_nonneg hρ0] at hc
    obtain ⟨n, en, n0, nb, na, nM, _⟩ := bound_spec hM pb pM cb ca pa paM
    -- the next term is large
    have big : (n : ℝ) < binary64 ((⌊binary64 (1 / binary64 (r - t))⌋ : ℝ) / 2) ∧
        n ≤ ⌊binary64 (1 / binary64 (r - t))⌋ := by
      generalize r - t = ρ at *
      have l1 : 1 / 2 ^ 40 ≤ ρ := by
        by_contra hcc
        push Not at hcc
        have := binary64_regular.mono hcc.le
        obtain ⟨_, b⟩ := r64ε (x := 1 / 2 ^ 40) (by norm_num)
        have : (1 / 2 ^ 40 : ℝ) * (1 + ε) ≤ 1 / 10 ^ 11 := by norm_num at *; linarith
        linarith
      obtain ⟨b1, _⟩ := recip_bounds l1 (by linarith)
      generalize binary64 (1 / binary64 ρ) = w at *
      have hw0 : 0 < w := by
        by_contra hcc
        have : w * ρ ≤ 0 := mul_nonpos_of_nonpos_of_nonneg (by linarith) h0
        linarith
      have hwK : 9 / 10 ≤ w * K := by
        have := mul_le_mul_of_nonneg_left h1 hw0.le
        linarith
      have hw3 : 36 / 10 ≤ w := by
        have := mul_le_mul_of_nonneg_left hK hw0.le
        linarith
      have hcb : (1 : ℝ) ≤ c.b := by exact_mod_cast cb
      have hnb : (n : ℝ) * c.b ≤ maxDen := by
        have : n * c.b ≤ maxDen := by omega
        exact_mod_cast this
      have hnw : 36 / 10 * (n : ℝ) ≤ w := by
        have a1 : w * K * maxDen ≤ w * (1 / 4 * c.b) := by
          rw [mul_assoc]; exact mul_le_mul_of_nonneg_left hKM hw0.le
        have a2 : 9 / 10 * (n * c.b : ℝ) ≤ w * K * maxDen := by
          have n0' : (0 : ℝ) ≤ n := by exact_mod_cast n0
          exact mul_le_mul hwK hnb (by positivity) (by linarith)
        have : 36 / 10 * (n : ℝ) * c.b ≤ w * c.b := by linarith
        exact le_of_mul_le_mul_right this (by linarith)
      have hf := Int.lt_floor_add_one w
      have hf3 : (3 : ℤ) ≤ ⌊w⌋ := Int.le_floor.2 (by push_cast; linarith)
      generalize ⌊w⌋ = k at *
      have hk3 : (3 : ℝ) ≤ k := by exact_mod_cast hf3
      have hkn : (2.1 : ℝ) * n < k := by
        rcases le_or_gt n 0 with hh | hh
        · have : (n : ℝ) ≤ 0 := by exact_mod_cast hh
          linarith
        · have : (1 : ℝ) ≤ n := by exact_mod_cast hh
          linarith
      constructor
      · obtain ⟨b, _⟩ := r64ε (x := (k : ℝ) / 2) (le_trans (by norm_num) (show (1 / 2 : ℝ) ≤ k / 2 by linarith))
        have n0' : (0 : ℝ) ≤ n := by exact_mod_cast n0
        nlinarith
      · have n0' : (0 : ℝ) ≤ n := by exact_mod_cast n0
        have : (n : ℝ) ≤ k := by linarith
        exact_mod_cast this
    rw [en, Option.bind_some]
    cases left with
    | zero => exact finish_reject big.1
    | succ left =>
      simp only
      rw [if_pos big.2]
      exact finish_reject big.1

/-- The last term was rounded down to the next integer: one more term, equal to 1, completes the fraction. -/
theorem run_almost {a b maxDen : ℤ} {left : ℕ} {r K : ℝ} {t : ℤ} {p c : Frac} (value : ℝ) (hM : maxDen ≤ 2 ^ 31 - 1)
    (hbM : b ≤ maxDen) (haM : a ≤ 2 ^ 31 - 1)
    (pb : 0 ≤ p.b) (cb : 1 ≤ c.b) (ca : 0 ≤ c.a) (pa : 0 ≤ p.a) (ea : c.a + p.a = a) (eb : c.b + p.b = b)
    (h0 : 1 - K ≤ r - t) (h1 : r - t ≤ 1) (hK0 : 10 * ε ≤ K) (hK : K ≤ 1 / 8) (hKM : 2 * K * maxDen ≤ 1 / 4 * b) :
    run binary64 tolD maxDen left r t p c value = some ⟨a, b⟩ := by
  have e0 := ε_pos
  have e1 := ε_small
  obtain ⟨t0, t1⟩ := tolD_bounds
  have ht : tolD ≤ 1 / 10 := t1.trans (by norm_num)
  obtain ⟨c1, c2⟩ := r64ε (x := r - t) (le_trans (by norm_num) (show (1 / 2 : ℝ) ≤ r - t by linarith))
  have hn : ¬ |binary64 (r - t)| ≤ tolD := by
    rw [not_le]
    refine lt_of_lt_of_le ?_ (le_abs_self _)
    refine lt_of_lt_of_le ?_ c1
    nlinarith
  obtain ⟨b1, b2⟩ := recip_bounds (ρ := r - t) (le_trans (by norm_num) (show (1 / 2 : ℝ) ≤ r - t by linarith)) (by linarith)
  have hw1 : 1 ≤ binary64 (1 / binary64 (r - t)) := by
    have s1 : binary64 (r - t) ≤ 1 := by
      have := binary64_regular.mono h1
      rwa [r64_one] at this
    have s0 : 0 < binary64 (r - t) := lt_of_lt_of_le (by nlinarith) c1
    have : 1 ≤ 1 / binary64 (r - t) := by rw [le_div_iff₀ s0]; linarith
    have := binary64_regular.mono this
    rwa [r64_one] at this
  have hw2 : binary64 (1 / binary64 (r - t)) ≤ 1 + 2 * K := by
    generalize binary64 (1 / binary64 (r - t)) = w at *
    by_contra hc
    push Not at hc
    have : (1 + 2 * K) * (1 - K) < w * (r - t) := mul_lt_mul hc h0 (by linarith) (by linarith)
    nlinarith
  have hfl : ⌊binary64 (1 / binary64 (r - t))⌋ = 1 := by
    rw [Int.floor_eq_iff]
    push_cast
    constructor <;> linarith
  have hap : append c p 1 = some ⟨a, b⟩ := by
    rw [append_spec (by norm_num) (by omega) ca pb pa (by omega) (by omega), one_mul, one_mul, ea, eb]
  obtain ⟨n, en, n0, nb, na, nM, hv⟩ := bound_spec (maxDen := maxDen) hM pb (by omega) cb ca pa (by omega)
  have hn1 : 1 ≤ n := by
    by_contra hc
    have : n = 0 := by omega
    subst this
    rcases hv with hv | hv <;> simp only [zero_add, one_mul] at hv <;> omega
  have hfin : finish binary64 value n 1 p c = some ⟨a, b⟩ := by
    rcases eq_or_lt_of_le hn1 with hn' | hn'
    · rw [← hn']; exact finish_accept le_rfl hap
    · have := finish_accept (value := value) le_rfl hap
      obtain ⟨_, b⟩ := r64ε (x := ((1 : ℤ) : ℝ) / 2) (by norm_num)
      have hl : binary64 (((1 : ℤ) : ℝ) / 2) < ((1 : ℤ) : ℝ) := by
        refine lt_of_le_of_lt b ?_
        push_cast; linarith
      have hl2 : binary64 (((1 : ℤ) : ℝ) / 2) ≤ (n : ℝ) := hl.le.trans (by exact_mod_cast hn1)
      unfold finish
      simp only
      rw [if_pos hl2, if_pos hn', ck_of (by norm_num) (by norm_num), Option.bind_some, hap, Option.bind_some, if_pos (Or.inl hl)]
  unfold run
  rw [loop]
  simp only
  rw [if_neg hn, en, Option.bind_some, hfl]
  cases left with
  | zero => exact hfin
  | succ left =>
    simp only
    by_cases h : (1 : ℤ) ≥ n
    · rw [if_pos h]; exact hfin
    · rw [if_neg h, hap, Option.bind_some]
      exact run_last (p := c) (c := ⟨a, b⟩) (K := 2 * K) value hM (by omega) (by omega) (by simp only; omega) (by simp only; omega) ca
        (by omega) (by push_cast; linarith) (by push_cast; linarith) (by linarith) hKM

set_option maxHeartbeats 1000000 in
/-- The loop, while Euclid's algorithm on the fraction is not at its end: `Q`, `R` are the next two remainders. -/
theorem run_general {a b maxDen : ℤ} {K : ℝ} (value : ℝ) (hM : maxDen ≤ 400000000) (hbM : b ≤ maxDen) (haM : a ≤ 2 ^ 31 - 1)
    (hK0 : 10 * ε ≤ K) (hK : K ≤ 1 / 8) (hKM : 2 * K * maxDen ≤ 1 / 4 * b)
    (left m : ℕ) (r : ℝ) (t : ℤ) (p c : Frac) (Q R : ℤ) (D : ℝ) (hR : 1 ≤ R) (hQ : R < Q) (cop : Int.gcd Q R = 1)
    (pb : 0 ≤ p.b) (cb : 1 ≤ c.b) (ca : 0 ≤ c.a) (pa : 0 ≤ p.a) (ea : c.a * Q + p.a * R = a) (eb : c.b * Q + p.b * R = b)
    (err : |(r - t) * Q - R| * Q ≤ D) (bud : D + 6 * ε * (Q * R) + 2 * K ^ 2 * (1 - 1 / Q) ≤ K)
    (hlm : 46 ≤ left + m) (hm : 1 ≤ m) (fibc : (Nat.fib m : ℤ) ≤ c.b) (fibp : (Nat.fib (m - 1) : ℤ) ≤ p.b) :
    run binary64 tolD maxDen left r t p c value = some ⟨a, b⟩ := by
  induction left generalizing m r t p c Q R D with
  | zero =>
    exfalso
    have f1 : (Nat.fib 46 : ℤ) ≤ Nat.fib m := by exact_mod_cast Nat.fib_mono (by omega)
    rw [fib46] at f1
    have : c.b ≤ c.b * Q := le_mul_of_one_le_right (by omega) (by omega)
    have : 0 ≤ p.b * R := mul_nonneg pb (by omega)
    push_cast at f1
    omega
  | succ left ih =>
    have e0 := ε_pos
    have e1 := ε_small
    obtain ⟨t0, t1⟩ := tolD_bounds
    have hcQ : Q ≤ c.b * Q := le_mul_of_one_le_left (by omega) cb
    have hcc : c.b ≤ c.b * Q := le_mul_of_one_le_right (by omega) (by omega)
    have hca : c.a ≤ c.a * Q := le_mul_of_one_le_right ca (by omega)
    have hpR : p.b ≤ p.b * R := le_mul_of_one_le_right pb hR
    have hpa : p.a ≤ p.a * R := le_mul_of_one_le_right pa hR
    have hQM : Q ≤ 400000000 := by omega
    have hR' : (1 : ℝ) ≤ R := by exact_mod_cast hR
    have hQ' : (R : ℝ) + 1 ≤ Q := by exact_mod_cast hQ
    have hQM' : (Q : ℝ) ≤ 400000000 := by exact_mod_cast hQM
    have hQ0 : (0 : ℝ) < Q := by linarith
    have hQR : (0 : ℝ) < (Q : ℝ) * R := by positivity
    have hD0 : 0 ≤ D := le_trans (by positivity) err
    have hQ1 : 0 ≤ 1 - 1 / (Q : ℝ) := by
      have : 1 / (Q : ℝ) ≤ 1 := by rw [div_le_one hQ0]; linarith
      linarith
    have hDK : D ≤ K := by
      have : 0 ≤ 6 * ε * ((Q : ℝ) * R) := by positivity
      have : 0 ≤ 2 * K ^ 2 * (1 - 1 / (Q : ℝ)) := mul_nonneg (by positivity) hQ1
      linarith
    obtain ⟨g1, g2, g3⟩ := step_error hR' hQ' hQM' (by linarith) err
    -- the residual is not within the tolerance
    have hρ : 7 / 8 / 400000000 ≤ r - t := by
      by_contra hc
      push Not at hc
      have := mul_lt_mul_of_pos_right hc hQ0
      have : (7 / 8 / 400000000 : ℝ) * Q ≤ 7 / 8 := by linarith
      linarith
    obtain ⟨c1, _⟩ := r64ε (x := r - t) (le_trans (by norm_num) hρ)
    have hn : ¬ |binary64 (r - t)| ≤ tolD := by
      rw [not_le]
      refine lt_of_lt_of_le ?_ (le_abs_self _)
      refine lt_of_lt_of_le ?_ c1
      refine lt_of_le_of_lt t1 ?_
      have : (7 / 8 / 400000000 : ℝ) * (1 - 1 / 10 ^ 15) ≤ (r - t) * (1 - ε) :=
        mul_le_mul hρ (by linarith) (by norm_num) (by linarith)
      refine lt_of_lt_of_le ?_ this
      norm_num
    -- the error of the next reciprocal
    obtain ⟨w, hw⟩ : ∃ w, w = binary64 (1 / binary64 (r - t)) := ⟨_, rfl⟩
    rw [← hw] at g1
    have hinv : 0 ≤ 1 / (R : ℝ) - 1 / Q := by
      have : 1 / (Q : ℝ) ≤ 1 / R := one_div_le_one_div_of_le (by linarith) (by linarith)
      linarith
    have herr : |w * R - Q| * R ≤ D + 2 * K ^ 2 * (1 / R - 1 / Q) + 3 * ε * (Q * R) := by
      refine g1.trans ?_
      have : D ^ 2 ≤ K ^ 2 := pow_le_pow_left₀ hD0 hDK 2
      have := mul_le_mul_of_nonneg_right this hinv
      nlinarith
    have hR1 : 0 ≤ 1 - 1 / (R : ℝ) := by
      have : 1 / (R : ℝ) ≤ 1 := by rw [div_le_one (by linarith)]; linarith
      linarith
    have herrK : |w * R - Q| * R ≤ K := by
      refine herr.trans ?_
      have : 0 ≤ 3 * ε * ((Q : ℝ) * R) := by positivity
      have := mul_nonneg (show 0 ≤ 2 * K ^ 2 by positivity) hR1
      nlinarith
    obtain ⟨n, en, n0, nb, na, nM, hv⟩ :=
      bound_spec (maxDen := maxDen) (p := p) (c := c) (by omega) pb (by omega) cb ca pa (by omega)
    unfold run
    rw [loop]
    simp only
    rw [if_neg hn, ← hw, en, Option.bind_some]
    rcases eq_or_lt_of_le hR with hR2 | hR2
    · -- the last remainder
      rw [← hR2] at herrK
      simp only [Int.cast_one, mul_one] at herrK
      rw [← hR2, mul_one] at ea eb
      obtain ⟨w1, w2⟩ := abs_le.1 herrK
      have hnQ : Q ≤ n := by
        by_contra hc
        have h1 : (n + 1) * c.b ≤ Q * c.b := mul_le_mul_of_nonneg_right (by omega) (by omega)
        have h2 : (n + 1) * c.a ≤ Q * c.a := mul_le_mul_of_nonneg_right (by omega) ca
        rw [mul_comm Q] at h1 h2
        omega
      have hQR2 : 2 ≤ Q := by omega
      have hapQ : append c p Q = some ⟨a, b⟩ := by
        rw [append_spec (by omega) (by omega) ca pb pa (by rw [mul_comm]; omega) (by rw [mul_comm]; omega), mul_comm Q, mul_comm Q,
          ea, eb]
      rcases le_or_gt (Q : ℝ) w with hq | hq
      · have hfl : ⌊w⌋ = Q := by rw [Int.floor_eq_iff]; constructor <;> linarith
        rw [hfl]
        by_cases h : Q ≥ n
        · rw [if_pos h]
          have : n = Q := by omega
          rw [this]
          exact finish_accept (by omega) hapQ
        · rw [if_neg h, hapQ, Option.bind_some]
          exact run_last (p := c) (c := ⟨a, b⟩) (K := K) value (by omega) (by omega) (by omega) (by simp only; omega)
            (by have := mul_nonneg ca (show 0 ≤ Q by omega); simp only; omega) ca (by omega) (by linarith) (by linarith) (by linarith)
            (by simp only; have : 0 ≤ K * (maxDen : ℝ) := mul_nonneg (by linarith) (by have : 0 ≤ maxDen := by omega
                                                                                       exact_mod_cast this)
                linarith)
      · have hfl : ⌊w⌋ = Q - 1 := by rw [Int.floor_eq_iff]; push_cast; constructor <;> linarith
        rw [hfl, if_neg (by omega)]
        have q1 : (Q - 1) * c.b = c.b * Q - c.b := by ring
        have q2 : (Q - 1) * c.a = c.a * Q - c.a := by ring
        have q3 : c.b * 2 ≤ c.b * Q := mul_le_mul_of_nonneg_left hQR2 (by omega)
        rw [append_spec (by omega) (by omega) ca pb pa (by omega) (by omega), Option.bind_some]
        exact run_almost (p := c) (K := K) value (by omega) hbM haM (by omega) (by simp only; omega)
          (by simp only; omega) ca (by simp only; omega) (by simp only; omega) (by push_cast; linarith) (by push_cast; linarith)
          hK0 hK hKM
    · -- another step
      obtain ⟨T, hT⟩ : ∃ T, T = Q / R := ⟨_, rfl⟩
      obtain ⟨R', hR'e⟩ : ∃ R', R' = Q % R := ⟨_, rfl⟩
      have hdiv : R * T + R' = Q := by rw [hT, hR'e]; exact Int.mul_ediv_add_emod Q R
      have hlt : R' < R := by rw [hR'e]; exact Int.emod_lt_of_pos _ (by omega)
      have hcop : Int.gcd R R' = 1 := by
        have h := Int.isCoprime_iff_gcd_eq_one.2 cop
        rw [← hdiv, add_comm] at h
        exact Int.isCoprime_iff_gcd_eq_one.1 h.of_add_mul_left_left.symm
      have h0 : 0 ≤ R' := by rw [hR'e]; exact Int.emod_nonneg _ (by omega)
      have h1 : 1 ≤ R' := by
        by_contra hc
        have : R' = 0 := by omega
        rw [this, Int.gcd_zero_right] at hcop
        omega
      have hT1 : 1 ≤ T := by rw [hT]; exact Int.le_ediv_of_mul_le (by omega) (by omega)
      have hTR : T + R' ≤ Q := by
        have : T ≤ R * T := le_mul_of_one_le_left (by omega) (by omega)
        omega
      have hRr : (2 : ℝ) ≤ R := by exact_mod_cast hR2
      have hdivr : (R : ℝ) * T + R' = Q := by exact_mod_cast hdiv
      have h1r : (1 : ℝ) ≤ R' := by exact_mod_cast h1
      have hltr : (R' : ℝ) + 1 ≤ R := by exact_mod_cast hlt
      have hfl : ⌊w⌋ = T := by
        have hwR : |w * R - Q| ≤ K := by
          have := le_mul_of_one_le_right (abs_nonneg (w * R - Q)) hR'
          linarith
        obtain ⟨w1, w2⟩ := abs_le.1 hwR
        rw [Int.floor_eq_iff]
        constructor
        · by_contra hc
          push Not at hc
          have := mul_lt_mul_of_pos_right hc (show (0 : ℝ) < R by linarith)
          linarith
        · by_contra hc
          push Not at hc
          have := mul_le_mul_of_nonneg_right hc (show (0 : ℝ) ≤ R by linarith)
          linarith
      rw [hfl]
      have d1 : c.b * Q = R * T * c.b + R' * c.b := by rw [← hdiv]; ring
      have d2 : c.a * Q = R * T * c.a + R' * c.a := by rw [← hdiv]; ring
      have hT2 : T + 1 ≤ Q := by omega
      have b1 : (T + 1) * c.b ≤ c.b * Q := by rw [mul_comm]; exact mul_le_mul_of_nonneg_left hT2 (by omega)
      have b2 : (T + 1) * c.a ≤ c.a * Q := by rw [mul_comm]; exact mul_le_mul_of_nonneg_left hT2 ca
      have hTn : T < n := by
        by_contra hc
        have k1 : (n + 1) * c.b ≤ (T + 1) * c.b := mul_le_mul_of_nonneg_right (by omega) (by omega)
        have k2 : (n + 1) * c.a ≤ (T + 1) * c.a := mul_le_mul_of_nonneg_right (by omega) ca
        omega
      rw [if_neg (by omega)]
      have b3 : (T + 1) * c.b = T * c.b + c.b := by ring
      have b4 : (T + 1) * c.a = T * c.a + c.a := by ring
      have b5 : c.b ≤ T * c.b := le_mul_of_one_le_left (by omega) hT1
      have b6 : 0 ≤ T * c.a := mul_nonneg (by omega) ca
      rw [append_spec (by omega) (by omega) ca pb pa (by omega) (by omega), Option.bind_some]
      refine ih (m + 1) w T c ⟨T * c.a + p.a, T * c.b + p.b⟩ R R' (D + 2 * K ^ 2 * (1 / R - 1 / Q) + 3 * ε * (Q * R)) h1 hlt hcop
        (by omega) (by simp only; omega) (by simp only; omega) ca ?_ ?_ ?_ ?_ (by omega) (by omega) ?_ ?_
      · simp only; rw [← ea, ← hdiv]; ring
      · simp only; rw [← eb, ← hdiv]; ring
      · refine le_trans (le_of_eq ?_) herr
        congr 2
        rw [← hdivr]; ring
      · have : 2 * ((R : ℝ) * R') ≤ Q * R := by
          have : 2 * (R' : ℝ) ≤ Q := by
            have : (R : ℝ) ≤ R * T := le_mul_of_one_le_right (by linarith) (by exact_mod_cast hT1)
            linarith
          have := mul_le_mul_of_nonneg_right this (show (0 : ℝ) ≤ R by linarith)
          linarith
        have := mul_le_mul_of_nonneg_left this (show 0 ≤ 3 * ε by positivity)
        linarith
      · have : Nat.fib (m + 1) = Nat.fib (m - 1) + Nat.fib m := by
          obtain ⟨k, rfl⟩ := Nat.exists_eq_add_of_le hm
          rw [show 1 + k + 1 = k + 2 by omega, show 1 + k - 1 = k by omega, show 1 + k = k + 1 by omega, Nat.fib_add_two]
        simp only
        rw [this]
        push_cast
        omega
      · rw [Nat.add_sub_cancel]
        exact fibc

/-- From the start of the loop. -/
theorem run_start {a b maxDen : ℤ} (ha : 1 ≤ a) (hb : 1 ≤ b) (hg : Int.gcd a b = 1) (hbM : b ≤ maxDen) (hM : maxDen ≤ 400000000)
    (haM : a * maxDen ≤ 2 ^ 45) (ha2 : a ≤ 2 ^ 31 - 2) {x : ℝ} (hx : |x - a / b| ≤ ε * (a / b)) :
    0 < x ∧ x ≤ (intMax : ℝ) - 1 / 2 ∧ ck ⌊x⌋ = some ⌊x⌋ ∧ run binary64 tolD maxDen 45 x ⌊x⌋ ⟨1, 0⟩ ⟨⌊x⌋, 1⟩ x = some ⟨a, b⟩ := by
  have e0 := ε_pos
  have e1 := ε_small
  have har : (1 : ℝ) ≤ a := by exact_mod_cast ha
  have hbr : (1 : ℝ) ≤ b := by exact_mod_cast hb
  have hb0 : (0 : ℝ) < b := by linarith
  have hMr : (b : ℝ) ≤ maxDen := by exact_mod_cast hbM
  have ha2r : (a : ℝ) ≤ 2 ^ 31 - 2 := by exact_mod_cast ha2
  have haMr : (a : ℝ) * maxDen ≤ 2 ^ 45 := by exact_mod_cast haM
  have hab : (a : ℝ) * b ≤ 2 ^ 45 := (mul_le_mul_of_nonneg_left hMr (by linarith)).trans haMr
  have hxb : |x * b - a| ≤ ε * a := by
    have := mul_le_mul_of_nonneg_right hx hb0.le
    rw [← abs_of_pos hb0, ← abs_mul, abs_of_pos hb0] at this
    have h1 : (x - a / b) * b = x * b - a := by field_simp
    have h2 : ε * ((a : ℝ) / b) * b = ε * a := by field_simp
    rwa [h1, h2] at this
  have hεa : ε * a ≤ 1 / 1000 := by
    have : ε * a ≤ 1 / 10 ^ 15 * 2 ^ 31 := mul_le_mul e1 (by linarith) (by linarith) (by norm_num)
    refine this.trans (by norm_num)
  obtain ⟨x1, x2⟩ := abs_le.1 hxb
  have hx0 : 0 < x := by
    by_contra hc
    have : x * b ≤ 0 := mul_nonpos_of_nonpos_of_nonneg (by linarith) hb0.le
    linarith
  have hxa : x ≤ a + 1 / 1000 := by
    have : x ≤ x * b := le_mul_of_one_le_right hx0.le hbr
    linarith
  have hf0 : 0 ≤ ⌊x⌋ := Int.floor_nonneg.2 hx0.le
  have hfa : ⌊x⌋ ≤ a := by
    have : ⌊x⌋ < a + 1 := Int.floor_lt.2 (by push_cast; linarith)
    omega
  refine ⟨hx0, ?_, ck_of (by omega) (by omega), ?_⟩
  · unfold intMax; push_cast; norm_num at *; linarith
  obtain ⟨K, hK⟩ : ∃ K, K = 14 * ε * (a * b) := ⟨_, rfl⟩
  have hεv : ε = 1 / 2 ^ 52 := rfl
  have hab1 : (1 : ℝ) ≤ a * b := by nlinarith
  have hK0 : 10 * ε ≤ K := by rw [hK]; nlinarith
  have hK1 : K ≤ 1 / 8 := by
    rw [hK]
    have := mul_le_mul_of_nonneg_left hab (show 0 ≤ 14 * ε by positivity)
    refine this.trans ?_
    rw [hεv]; norm_num
  have hKM : 2 * K * maxDen ≤ 1 / 4 * b := by
    have : 2 * K * maxDen = 28 * ε * (a * maxDen) * b := by rw [hK]; ring
    rw [this]
    refine mul_le_mul_of_nonneg_right ?_ hb0.le
    refine (mul_le_mul_of_nonneg_left haMr (show 0 ≤ 28 * ε by positivity)).trans ?_
    rw [hεv]; norm_num
  rcases eq_or_lt_of_le hb with hb1 | hb2
  · -- an integer
    rw [← hb1] at hxb
    simp only [Int.cast_one, mul_one] at hxb
    have hKa : ε * a ≤ K := by
      rw [hK, ← hb1]; push_cast; nlinarith
    obtain ⟨y1, y2⟩ := abs_le.1 hxb
    rw [← hb1] at hKM
    rcases le_or_gt (a : ℝ) x with h | h
    · have hfl : ⌊x⌋ = a := by rw [Int.floor_eq_iff]; constructor <;> linarith
      rw [hfl, ← hb1]
      exact run_last (K := K) x (by omega) (by simp only; omega) (by simp only; omega) (by simp only; omega) (by simp only; omega)
        (by simp only; omega) (by simp only; omega) (by linarith) (by linarith) (by linarith)
        (by simp only; have : 0 ≤ K * (maxDen : ℝ) := mul_nonneg (by linarith) (by linarith)
            linarith)
    · have hfl : ⌊x⌋ = a - 1 := by rw [Int.floor_eq_iff]; push_cast; constructor <;> linarith
      rw [hfl, ← hb1]
      exact run_almost (K := K) x (by omega) (by omega) (by omega) (by simp only; omega) (by simp only; omega) (by simp only; omega)
        (by simp only; omega) (by simp only; omega) (by simp only; omega) (by push_cast; linarith) (by push_cast; linarith) hK0 hK1 hKM
  · obtain ⟨T, hT⟩ : ∃ T, T = a / b := ⟨_, rfl⟩
    obtain ⟨R, hR⟩ : ∃ R, R = a % b := ⟨_, rfl⟩
    have hdiv : b * T + R = a := by rw [hT, hR]; exact Int.mul_ediv_add_emod a b
    have hlt : R < b := by rw [hR]; exact Int.emod_lt_of_pos _ (by omega)
    have h0 : 0 ≤ R := by rw [hR]; exact Int.emod_nonneg _ (by omega)
    have hcop : Int.gcd b R = 1 := by
      have h := Int.isCoprime_iff_gcd_eq_one.2 hg
      rw [← hdiv, add_comm] at h
      exact Int.isCoprime_iff_gcd_eq_one.1 h.of_add_mul_left_left.symm
    have h1 : 1 ≤ R := by
      by_contra hc
      have : R = 0 := by omega
      rw [this, Int.gcd_zero_right] at hcop
      omega
    have hT0 : 0 ≤ T := by rw [hT]; exact Int.ediv_nonneg (by omega) (by omega)
    have hRa : R ≤ a := by have := mul_nonneg (show 0 ≤ b by omega) hT0; omega
    have hdivr : (b : ℝ) * T + R = a := by exact_mod_cast hdiv
    have h1r : (1 : ℝ) ≤ R := by exact_mod_cast h1
    have hltr : (R : ℝ) + 1 ≤ b := by exact_mod_cast hlt
    have hRar : (R : ℝ) ≤ a := by exact_mod_cast hRa
    have hfl : ⌊x⌋ = T := by
      rw [Int.floor_eq_iff]
      constructor
      · by_contra hc
        push Not at hc
        have := mul_lt_mul_of_pos_right hc hb0
        linarith
      · by_contra hc
        push Not at hc
        have := mul_le_mul_of_nonneg_right hc hb0.le
        linarith
    rw [hfl]
    refine run_general (K := K) x hM hbM (by omega) hK0 hK1 hKM 45 1 x T ⟨1, 0⟩ ⟨T, 1⟩ b R (ε * a * b) h1 hlt hcop (by simp only; omega)
      (by simp only; omega) hT0 (by simp only; omega) (by simp only; linarith) (by simp only; ring) ?_ ?_ (by omega) le_rfl (by simp) (by simp)
    · refine mul_le_mul_of_nonneg_right ?_ hb0.le
      refine le_trans (le_of_eq ?_) hxb
      congr 1
      rw [← hdivr]; ring
    · have z1 : 6 * ε * ((b : ℝ) * R) ≤ 6 * ε * (a * b) := by
        refine mul_le_mul_of_nonneg_left ?_ (by positivity)
        rw [mul_comm (a : ℝ)]
        exact mul_le_mul_of_nonneg_left hRar hb0.le
      have z2 : 2 * K ^ 2 * (1 - 1 / (b : ℝ)) ≤ 2 * K ^ 2 := by
        refine mul_le_of_le_one_right (by positivity) ?_
        have : 0 < 1 / (b : ℝ) := by positivity
        linarith
      have z3 : 2 * K ^ 2 ≤ K / 2 := by nlinarith
      have z4 : ε * a * b = ε * (a * b) := by ring
      rw [z4]
      linarith

end Verif.FloatRational
