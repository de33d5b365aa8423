import Verif.Model.FloatAgc
import Verif.Spec.Agc
import Verif.Proof.Ieee
import Verif.Proof.FloatResampler
import Verif.Theorems.Agc
import Verif.Theorems.FastFun

/-!
# C104: automatic gain control in floating point
-/

namespace Verif.FloatAgc
open Verif.Agc Verif.AgcSpec Verif.Rounding

/-- The estimate `Verif.AgcSpec.estimate` with the weight of every sample multiplied by a power of `q` according to its
age. -/
noncomputable def Spec.spread (q : ℝ) (w : ℕ) (c : ℝ) (x : ℕ → ℝ) (n : ℕ) : ℝ :=
  if n ≤ w then q ^ (n + 1) * average x n
  else q ^ (n + 1) * (1 - c) ^ (n - w) * average x w +
    c * ∑ k ∈ Finset.range (n - w), (1 - c) ^ k * q ^ (k + 1) * x (n - 1 - k)

/-- An execution: `s n` is the state after `n` samples. -/
def IsRun (rnd : ℝ → ℝ) (s₀ : State) (x : ℕ → ℝ) (s : ℕ → State) : Prop :=
  s 0 = reset s₀ ∧ ∀ n, Process rnd (s n) (x n) (s (n + 1))

theorem spread_one (w : ℕ) (c : ℝ) (x : ℕ → ℝ) (n : ℕ) : Spec.spread 1 w c x n = estimate w c x n := by
  unfold Spec.spread estimate
  simp

theorem spread_step (q : ℝ) (w : ℕ) (c : ℝ) (x : ℕ → ℝ) (n : ℕ) (h : w ≤ n) :
    Spec.spread q w c x (n + 1) = q * ((1 - c) * Spec.spread q w c x n + c * x n) := by
  have e : Spec.spread q w c x n = q ^ (n + 1) * (1 - c) ^ (n - w) * average x w +
    c * ∑ k ∈ Finset.range (n - w), (1 - c) ^ k * q ^ (k + 1) * x (n - 1 - k) := by
    unfold Spec.spread
    split
    · have : n = w := by omega
      subst this
      simp
    · rfl
  rw [e]
  unfold Spec.spread
  rw [if_neg (by omega), show n + 1 - w = (n - w) + 1 by omega, Finset.sum_range_succ']
  have : ∀ k ∈ Finset.range (n - w), (1 - c) ^ (k + 1) * q ^ (k + 1 + 1) * x (n + 1 - 1 - (k + 1)) =
      (q * (1 - c)) * ((1 - c) ^ k * q ^ (k + 1) * x (n - 1 - k)) := by
    intro k _
    rw [show n + 1 - 1 - (k + 1) = n - 1 - k by omega]
    ring
  rw [Finset.sum_congr rfl this, ← Finset.mul_sum]
  simp only [Nat.add_sub_cancel, Nat.sub_zero, pow_zero, zero_add, pow_one]
  ring

section
variable {rnd : ℝ → ℝ} {u η : ℝ}

/-- The rounding error of one step of the smoother. -/
theorem step_error (hr : Accurate rnd u η) (u0 : 0 ≤ u) (u1 : u ≤ 1 / 20) {c s x r : ℝ} (c0 : 0 ≤ c) (c1 : c ≤ 1 / 2)
    (s0 : 0 ≤ s) (x0 : 0 ≤ x) (h : IsMulAdd rnd c (rnd (x - s)) s r) :
    |r - ((1 - c) * s + c * x)| ≤ 5 * u * ((1 - c) * s + c * x) + 4 * η := by
  have η0 := hr.eta_nonneg
  have a1 := hr (x - s)
  have hxs : |x - s| ≤ x + s := by rw [abs_le]; constructor <;> linarith
  generalize rnd (x - s) = t at *
  have a2 : |t - (x - s)| ≤ u * (x + s) + η := a1.trans (by have := mul_le_mul_of_nonneg_left hxs u0; linarith)
  have a3 : |t| ≤ (1 + u) * (x + s) + η := by
    have := abs_sub_abs_le_abs_sub t (x - s)
    linarith
  have hA : c * (x + s) ≤ (1 - c) * s + c * x := by nlinarith
  have hA0 : 0 ≤ (1 - c) * s + c * x := by have : 0 ≤ c * (x + s) := by positivity
                                           linarith
  -- before the last rounding
  have key : ∀ z, |z - (c * t + s)| ≤ u * (c * |t|) + η → |rnd z - ((1 - c) * s + c * x)| ≤ 5 * u * ((1 - c) * s + c * x) + 4 * η := by
    intro z hz
    have b1 := mul_le_mul_of_nonneg_left a2 c0
    have b2 := mul_le_mul_of_nonneg_left (mul_le_mul_of_nonneg_left a3 c0) u0
    have b3 : |c * t + s - ((1 - c) * s + c * x)| = c * |t - (x - s)| := by
      rw [show c * t + s - ((1 - c) * s + c * x) = c * (t - (x - s)) by ring, abs_mul, abs_of_nonneg c0]
    have b4 : |z - ((1 - c) * s + c * x)| ≤ u * (c * |t|) + η + c * |t - (x - s)| := by
      have := abs_add_le (z - (c * t + s)) (c * t + s - ((1 - c) * s + c * x))
      rw [b3] at this
      rw [show z - ((1 - c) * s + c * x) = (z - (c * t + s)) + (c * t + s - ((1 - c) * s + c * x)) by ring]
      linarith
    generalize (1 - c) * s + c * x = A at *
    generalize hy : c * (x + s) = y at *
    have y0 : 0 ≤ y := by rw [← hy]; positivity
    have b5 : |z - A| ≤ 3 * u * A + 2 * η := by
      have e1 : u * (c * ((1 + u) * (x + s) + η)) = u * (1 + u) * y + u * c * η := by rw [← hy]; ring
      have e2 : c * (u * (x + s) + η) = u * y + c * η := by rw [← hy]; ring
      rw [e1] at b2
      rw [e2] at b1
      have e3 : c * η ≤ 1 / 2 * η := mul_le_mul_of_nonneg_right c1 η0
      have e4 : u * c * η ≤ 1 / 20 * (1 / 2 * η) := by
        rw [mul_assoc]
        exact mul_le_mul u1 e3 (by positivity) (by norm_num)
      have e5 : u * (1 + u) * y ≤ 2 * u * y := by
        have : 0 ≤ u * y := by positivity
        nlinarith
      have e6 : u * y ≤ u * A := mul_le_mul_of_nonneg_left hA u0
      linarith
    have b6 := hr z
    have b7 : |z| ≤ A + (3 * u * A + 2 * η) := by
      have := abs_sub_abs_le_abs_sub z A
      rw [abs_of_nonneg hA0] at this
      linarith
    have b8 := mul_le_mul_of_nonneg_left b7 u0
    have b9 := abs_add_le (rnd z - z) (z - A)
    rw [show rnd z - z + (z - A) = rnd z - A by ring] at b9
    have : u * (3 * u * A) ≤ 1 / 20 * (3 * u * A) := mul_le_mul_of_nonneg_right u1 (by positivity)
    have : u * (2 * η) ≤ 1 / 20 * (2 * η) := mul_le_mul_of_nonneg_right u1 (by positivity)
    have : 0 ≤ u * A := by positivity
    linarith
  rcases h with rfl | rfl
  · apply key
    have := hr (c * t)
    rw [abs_mul, abs_of_nonneg c0] at this
    rwa [show rnd (c * t) + s - (c * t + s) = rnd (c * t) - c * t by ring]
  · apply key
    rw [sub_self, abs_zero]
    have : 0 ≤ |t| := abs_nonneg t
    positivity

/-- What holds at every time: the constant fields, the counter, and the accumulator is a nonnegative machine number. -/
theorem run_invariant (hR : Regular rnd) {s₀ : State} {w : ℕ} (hw : s₀.numWarmUp = w) (c0 : 0 ≤ s₀.smootherCoeff)
    (c1 : s₀.smootherCoeff ≤ 1) {x : ℕ → ℝ} (hx : ∀ k, 0 ≤ x k) {s : ℕ → State} (hs : IsRun rnd s₀ x s) (n : ℕ) :
    (s n).numWarmUp = w ∧ (s n).smootherCoeff = s₀.smootherCoeff ∧ (s n).exponent = s₀.exponent ∧
      (s n).powerFloor = s₀.powerFloor ∧ (s n).counter = 1 + (min n w : ℕ) ∧ 0 ≤ (s n).smoothedPower ∧
      rnd (s n).smoothedPower = (s n).smoothedPower := by
  induction n with
  | zero =>
    rw [hs.1]
    refine ⟨hw, rfl, rfl, rfl, by simp [reset], zero_le_one, hR.one⟩
  | succ n ih =>
    obtain ⟨i1, i2, i3, i4, i5, i6, i7⟩ := ih
    have h := hs.2 n
    unfold Process at h
    rw [i1, i5] at h
    split at h
    · rename_i hn
      rw [h]
      unfold warmUp
      dsimp only
      rw [i1, i5]
      have hmin : min n w = n ∧ min (n + 1) w = n + 1 := by omega
      rw [hmin.1, hmin.2]
      have hsum := hR.nonneg (add_nonneg i6 (hx n))
      split
      · refine ⟨rfl, i2, i3, i4, by push_cast; ring, hR.nonneg (div_nonneg hsum (hR.nonneg ?_)), hR.idem _⟩
        positivity
      · exact ⟨rfl, i2, i3, i4, by push_cast; ring, hsum, hR.idem _⟩
    · rename_i hn
      obtain ⟨p, hp, h⟩ := h
      rw [h]
      have hmin : min (n + 1) w = min n w := by omega
      refine ⟨rfl, i2, i3, i4, by rw [hmin], ?_, ?_⟩
      · -- the smoother cannot get below zero
        rw [i2] at hp
        have t1 : -(s n).smoothedPower ≤ rnd (x n - (s n).smoothedPower) := by
          have := hR.mono (show -(s n).smoothedPower ≤ x n - (s n).smoothedPower by linarith [hx n])
          rwa [hR.neg, i7] at this
        have t2 : -(s n).smoothedPower ≤ s₀.smootherCoeff * rnd (x n - (s n).smoothedPower) := by
          rcases le_total 0 (rnd (x n - (s n).smoothedPower)) with h0 | h0
          · have := mul_nonneg c0 h0; linarith
          · nlinarith
        rcases hp with rfl | rfl
        · apply hR.nonneg
          have := hR.mono t2
          rw [hR.neg, i7] at this
          linarith
        · apply hR.nonneg
          linarith
      · rcases hp with rfl | rfl <;> exact hR.idem _

/-- The sum of the warm-up. -/
theorem warm_sum (hr : Accurate rnd u η) (hR : Regular rnd) (u0 : 0 ≤ u) {s₀ : State} {w : ℕ} (hw : s₀.numWarmUp = w)
    (c0 : 0 ≤ s₀.smootherCoeff)
    (c1 : s₀.smootherCoeff ≤ 1) {x : ℕ → ℝ} (hx : ∀ k, 0 ≤ x k) {s : ℕ → State} (hs : IsRun rnd s₀ x s) (n : ℕ)
    (hn : n ≤ w) :
    ∃ S, |S - (1 + ∑ k ∈ Finset.range n, x k)| ≤
        ((1 + u) ^ n - 1) * (1 + ∑ k ∈ Finset.range n, x k) + n * (1 + u) ^ n * η ∧ 0 ≤ S ∧
      ((n < w ∨ n = 0) → (s n).smoothedPower = S) ∧
      (n = w → 0 < n → (s n).smoothedPower = rnd (S / rnd ((1 + n : ℕ) : ℝ))) := by
  have η0 := hr.eta_nonneg
  induction n with
  | zero =>
    refine ⟨1, by simp, zero_le_one, fun _ => by rw [hs.1]; rfl, fun _ h => absurd h (lt_irrefl 0)⟩
  | succ n ih =>
    obtain ⟨S, h1, h2, h3, -⟩ := ih (by omega)
    have hS := h3 (by omega)
    obtain ⟨i1, i2, i3, i4, i5, i6, i7⟩ := run_invariant hR hw c0 c1 hx hs n
    have h := hs.2 n
    unfold Process at h
    rw [if_pos (by rw [i1, i5]; omega)] at h
    unfold warmUp at h
    dsimp only at h
    rw [i1, i5, hS, show min n w = n by omega] at h
    have T0 : 0 ≤ ∑ k ∈ Finset.range n, x k := Finset.sum_nonneg fun k _ => hx k
    refine ⟨rnd (S + x n), ?_, hR.nonneg (add_nonneg h2 (hx n)), ?_, ?_⟩
    · rw [Finset.sum_range_succ]
      generalize ∑ k ∈ Finset.range n, x k = T at *
      have a1 := hr (S + x n)
      rw [abs_of_nonneg (add_nonneg h2 (hx n))] at a1
      have a2 := abs_add_le (rnd (S + x n) - (S + x n)) (S - (1 + T))
      rw [show rnd (S + x n) - (S + x n) + (S - (1 + T)) = rnd (S + x n) - (1 + (T + x n)) by ring] at a2
      have a3 : S ≤ (1 + T) + (((1 + u) ^ n - 1) * (1 + T) + n * (1 + u) ^ n * η) := by
        have := (abs_le.1 h1).2
        linarith
      have q : (1 : ℝ) ≤ (1 + u) ^ n := one_le_pow₀ (by linarith)
      rw [pow_succ]
      push_cast
      generalize (1 + u) ^ n = Q at *
      have xn := hx n
      have m1 := mul_le_mul_of_nonneg_left a3 u0
      have m2 : 0 ≤ (Q * (1 + u) - 1 - u) * x n := mul_nonneg (by nlinarith) xn
      have m3 : η ≤ Q * (1 + u) * η := by
        have : 1 ≤ Q * (1 + u) := by nlinarith
        nlinarith
      nlinarith
    · rintro (h' | h')
      · rw [if_neg (by omega)] at h
        rw [h]
      · omega
    · intro h' _
      rw [if_pos (by omega)] at h
      rw [h]
      congr 3

/-- The error of the average during the warm-up. -/
theorem warm_error (hr : Accurate rnd u η) (hR : Regular rnd) (u0 : 0 ≤ u) (u1 : u ≤ 1 / 20) (hη : η ≤ u) {x : ℕ → ℝ}
    (hx : ∀ k, 0 ≤ x k) (n : ℕ) {S : ℝ} (S0 : 0 ≤ S)
    (hS : |S - (1 + ∑ k ∈ Finset.range n, x k)| ≤
        ((1 + u) ^ n - 1) * (1 + ∑ k ∈ Finset.range n, x k) + n * (1 + u) ^ n * η)
    (hq : (1 + 5 * u) ^ (n + 1) ≤ 2) :
    |rnd (S / rnd ((1 + n : ℕ) : ℝ)) - average x n| ≤ ((1 + 5 * u) ^ (n + 1) - 1) * average x n + 4 * η := by
  have η0 := hr.eta_nonneg
  have T0 : 0 ≤ ∑ k ∈ Finset.range n, x k := Finset.sum_nonneg fun k _ => hx k
  have N1 : (1 : ℝ) ≤ 1 + n := by have : (0 : ℝ) ≤ n := Nat.cast_nonneg n
                                  linarith
  have T1 : 0 ≤ 1 + ∑ k ∈ Finset.range n, x k := by linarith
  unfold average
  push_cast
  generalize 1 + ∑ k ∈ Finset.range n, x k = T at *
  have hN : |rnd (1 + n) - (1 + n)| ≤ 2 * u * (1 + n) := by
    have := hr (1 + n)
    rw [abs_of_nonneg (a := (1 : ℝ) + n) (by linarith)] at this
    nlinarith
  have hn : (n : ℝ) ≤ 1 + n := by linarith
  generalize (1 : ℝ) + n = N at *
  generalize rnd N = N' at *
  obtain ⟨n1, n2⟩ := abs_le.1 hN
  have N0 : 0 < N := by linarith
  have N'0 : 9 / 10 * N ≤ N' := by nlinarith
  have p0 : 0 < N' := by linarith
  -- the quotient
  have d1 : |S / N' - S / N| ≤ 3 * u * (S / N) := by
    have e : S / N' - S / N = (S / N) * ((N - N') / N') := by field_simp
    rw [e, abs_mul, abs_of_nonneg (a := S / N) (by positivity), abs_div, abs_of_pos p0, mul_comm]
    apply mul_le_mul_of_nonneg_right _ (by positivity)
    rw [div_le_iff₀ p0, abs_sub_comm]
    have : 2 * u * N ≤ 3 * u * N' := by nlinarith
    linarith
  have d2 := hr (S / N')
  have z0 : 0 ≤ S / N := by positivity
  have d3 : S / N' ≤ (1 + 3 * u) * (S / N) := by have := (abs_le.1 d1).2; linarith
  rw [abs_of_nonneg (a := S / N') (by positivity)] at d2
  have q : (1 : ℝ) ≤ (1 + u) ^ n := one_le_pow₀ (by linarith)
  have q2 : (1 + u) ^ n * (1 + 5 * u) ≤ (1 + 5 * u) ^ (n + 1) := by
    rw [pow_succ]
    exact mul_le_mul_of_nonneg_right (pow_le_pow_left₀ (by linarith) (by linarith) n) (by linarith)
  generalize (1 + 5 * u) ^ (n + 1) = Q' at *
  generalize (1 + u) ^ n = Q at *
  have d4 : |S / N - T / N| ≤ (Q - 1) * (T / N) + Q * η := by
    rw [← sub_div, abs_div, abs_of_pos N0, div_le_iff₀ N0]
    refine hS.trans ?_
    have : ((Q - 1) * (T / N) + Q * η) * N = (Q - 1) * T + N * Q * η := by field_simp
    rw [this]
    have : n * (Q * η) ≤ N * (Q * η) := mul_le_mul_of_nonneg_right hn (by positivity)
    linarith
  have t0 : 0 ≤ (Q' - Q * (1 + 5 * u)) * (T / N) := by
    apply mul_nonneg (by linarith)
    positivity
  have d5 := (abs_le.1 d4).2
  have f1 := abs_add_le (rnd (S / N') - S / N') (S / N' - S / N + (S / N - T / N))
  have f2 := abs_add_le (S / N' - S / N) (S / N - T / N)
  rw [show rnd (S / N') - S / N' + (S / N' - S / N + (S / N - T / N)) = rnd (S / N') - T / N by ring] at f1
  generalize rnd (S / N') = r at *
  generalize S / N' = a at *
  generalize S / N = b at *
  generalize T / N = t at *
  have g1 : u * a ≤ u * ((1 + 3 * u) * b) := mul_le_mul_of_nonneg_left d3 u0
  have g2 : u * (3 * u * b) ≤ 1 / 20 * (3 * u * b) := mul_le_mul_of_nonneg_right u1 (by positivity)
  have ub : 0 ≤ u * b := by positivity
  have g3 : |r - t| ≤ 5 * u * b + η + ((Q - 1) * t + Q * η) := by linarith
  have g4 : 5 * u * b ≤ 5 * u * (t + ((Q - 1) * t + Q * η)) := mul_le_mul_of_nonneg_left (by linarith) (by linarith)
  have g5 : Q * (1 + 5 * u) * η ≤ 2 * η := mul_le_mul_of_nonneg_right (q2.trans hq) η0
  nlinarith

/-- **C104.** The power estimate of the automatic gain control in floating point, after any number of samples and with or
without fused multiply-add, is nonnegative, and differs from the exact one by at most what changing the weight of every
sample by a factor `1 + 5 u` per sample of age can do, and a term for underflow. -/
theorem C104_power (hr : Accurate rnd u η) (hR : Regular rnd) (u0 : 0 ≤ u) (hη : η ≤ u) {s₀ : State} {w : ℕ} {c : ℝ}
    (hw : s₀.numWarmUp = w) (hc : s₀.smootherCoeff = c) (c0 : 10 * u ≤ c) (cpos : 0 < c) (c1 : c ≤ 1 / 2)
    (hwu : 10 * u * (w + 1) ≤ 1)
    {x : ℕ → ℝ} (hx : ∀ k, 0 ≤ x k) {s : ℕ → State} (hs : IsRun rnd s₀ x s) (n : ℕ) :
    0 ≤ power rnd (s n) ∧
      |power rnd (s n) - estimate w c x n| ≤
        Spec.spread (1 + 5 * u) w c x n - estimate w c x n + 8 * η / c := by
  have η0 := hr.eta_nonneg
  have u1 : u ≤ 1 / 20 := by linarith
  have cc0 : 0 ≤ s₀.smootherCoeff := by rw [hc]; exact cpos.le
  have cc1 : s₀.smootherCoeff ≤ 1 := by rw [hc]; linarith
  have hη8 : 4 * η ≤ 8 * η / c := by rw [le_div_iff₀ cpos]; nlinarith
  have hq : ∀ n ≤ w, (1 + 5 * u) ^ (n + 1) ≤ 2 := by
    intro n hn
    have h1 := FloatResampler.pow_bound (u := 5 * u) (by linarith) (w + 1) (by push_cast; linarith)
    push_cast at h1
    have h2 : (1 + 5 * u) ^ (n + 1) ≤ (1 + 5 * u) ^ (w + 1) := pow_le_pow_right₀ (by linarith) (by omega)
    linarith
  -- up to the end of the warm-up
  have warm : ∀ n ≤ w, 0 ≤ power rnd (s n) ∧ |power rnd (s n) - estimate w c x n| ≤
        Spec.spread (1 + 5 * u) w c x n - estimate w c x n + 8 * η / c := by
    intro n hn
    obtain ⟨S, h1, h2, h3, h4⟩ := warm_sum hr hR u0 hw cc0 cc1 hx hs n hn
    obtain ⟨i1, i2, i3, i4, i5, i6, i7⟩ := run_invariant hR hw cc0 cc1 hx hs n
    have e := warm_error hr hR u0 u1 hη hx n h2 h1 (hq n hn)
    have key : power rnd (s n) = rnd (S / rnd ((1 + n : ℕ) : ℝ)) ∨ (n = 0 ∧ power rnd (s n) = 1) := by
      unfold power
      rw [i1, i5]
      split
      · left
        rw [h3 (by omega), show min n w = n by omega]
        push_cast
        rfl
      · rcases Nat.eq_zero_or_pos n with h0 | h0
        · right
          refine ⟨h0, ?_⟩
          subst h0
          rw [hs.1]; rfl
        · left
          exact h4 (by omega) h0
    unfold Spec.spread estimate
    rw [if_pos hn, if_pos hn]
    rcases key with k | ⟨rfl, k⟩
    · rw [k]
      refine ⟨hR.nonneg (div_nonneg h2 (hR.nonneg (Nat.cast_nonneg _))), e.trans ?_⟩
      linarith
    · rw [k]
      refine ⟨zero_le_one, ?_⟩
      have : average x 0 = 1 := by simp [average]
      rw [this]
      have : 0 ≤ 8 * η / c := by positivity
      simp
      linarith
  induction n with
  | zero => exact warm 0 (Nat.zero_le _)
  | succ n ih =>
    by_cases hn : n + 1 ≤ w
    · exact warm _ hn
    obtain ⟨i1, i2, i3, i4, i5, i6, i7⟩ := run_invariant hR hw cc0 cc1 hx hs n
    obtain ⟨j1, j2, j3, j4, j5, j6, j7⟩ := run_invariant hR hw cc0 cc1 hx hs (n + 1)
    have hp : power rnd (s n) = (s n).smoothedPower := by
      unfold power; rw [if_neg (by rw [i1, i5]; omega)]
    have hp' : power rnd (s (n + 1)) = (s (n + 1)).smoothedPower := by
      unfold power; rw [if_neg (by rw [j1, j5]; omega)]
    have h := hs.2 n
    unfold Process at h
    rw [if_neg (by rw [i1, i5]; omega), i2, hc] at h
    obtain ⟨p, h, h'⟩ := h
    have hpp : (s (n + 1)).smoothedPower = p := by rw [h']
    refine ⟨by rw [hp']; exact j6, ?_⟩
    rw [hp', hpp]
    have e := step_error hr u0 u1 cpos.le c1 i6 (hx n) h
    rw [hp] at ih
    have d := ih.2
    rw [spread_step _ _ _ _ _ (by omega), estimate_step _ _ _ _ (by omega)]
    generalize (s n).smoothedPower = a at *
    generalize estimate w c x n = E at *
    generalize Spec.spread (1 + 5 * u) w c x n = D at *
    generalize x n = y at *
    have f := abs_add_le (p - ((1 - c) * a + c * y)) ((1 - c) * (a - E))
    rw [show p - ((1 - c) * a + c * y) + (1 - c) * (a - E) = p - ((1 - c) * E + c * y) by ring, abs_mul,
      abs_of_nonneg (by linarith : 0 ≤ 1 - c)] at f
    have g1 : (1 - c) * |a - E| ≤ (1 - c) * (D - E + 8 * η / c) := mul_le_mul_of_nonneg_left d (by linarith)
    have g2 : (1 - c) * a ≤ (1 - c) * (E + (D - E + 8 * η / c)) :=
      mul_le_mul_of_nonneg_left (by have := (abs_le.1 d).2; linarith) (by linarith)
    have g3 : 5 * u * ((1 - c) * a) ≤ 5 * u * ((1 - c) * (E + (D - E + 8 * η / c))) :=
      mul_le_mul_of_nonneg_left g2 (by linarith)
    have g4 : (1 + 5 * u) * (1 - c) * (8 * η / c) + 4 * η ≤ 8 * η / c := by
      have k1 : (1 + 5 * u) * (1 - c) ≤ 1 - c / 2 := by nlinarith
      have k2 : 0 ≤ 8 * η / c := by positivity
      have k3 := mul_le_mul_of_nonneg_right k1 k2
      have k4 : c / 2 * (8 * η / c) = 4 * η := by field_simp; ring
      linarith
    linarith

/-- **C104.** For power samples up to `M ≥ 1` the error stays below `10 u (w + 1 + 1/c) M` for ever. -/
theorem C104_accuracy (u0 : 0 ≤ u) {w : ℕ} {c : ℝ} (c0 : 10 * u ≤ c) (cpos : 0 < c) (c1 : c ≤ 1 / 2)
    (hwu : 10 * u * (w + 1) ≤ 1) {x : ℕ → ℝ} {M : ℝ} (hM : 1 ≤ M) (hx : ∀ k, 0 ≤ x k ∧ x k ≤ M) (n : ℕ) :
    Spec.spread (1 + 5 * u) w c x n - estimate w c x n ≤ 10 * u * (w + 1 + 1 / c) * M := by
  have hb := fun n => C33_bounds w c cpos.le (by linarith) x n 0 M ⟨zero_le_one, hM⟩ fun k _ => hx k
  have hi : 0 ≤ 1 / c := by positivity
  have warm : ∀ n ≤ w, Spec.spread (1 + 5 * u) w c x n - estimate w c x n ≤ 10 * u * (w + 1 + 1 / c) * M := by
    intro n hn
    have h1 := FloatResampler.pow_bound (u := 5 * u) (by linarith) (w + 1) (by push_cast; linarith)
    push_cast at h1
    have h2 : (1 + 5 * u) ^ (n + 1) ≤ (1 + 5 * u) ^ (w + 1) := pow_le_pow_right₀ (by linarith) (by omega)
    have b := hb n
    unfold Spec.spread
    unfold estimate at b ⊢
    rw [if_pos hn] at b
    rw [if_pos hn, if_pos hn]
    generalize average x n = A at *
    generalize (1 + 5 * u) ^ (n + 1) = Q at *
    have w0 : (0 : ℝ) ≤ w := Nat.cast_nonneg w
    have k1 : (Q - 1) * A ≤ (10 * u * (w + 1)) * A := mul_le_mul_of_nonneg_right (by linarith) b.1
    have k2 : (10 * u * (w + 1)) * A ≤ (10 * u * (w + 1)) * M := mul_le_mul_of_nonneg_left b.2 (by positivity)
    have k3 : 0 ≤ 10 * u * (1 / c) * M := by positivity
    linarith
  induction n with
  | zero => exact warm 0 (Nat.zero_le _)
  | succ n ih =>
    by_cases hn : n + 1 ≤ w
    · exact warm _ hn
    have b := hb (n + 1)
    have e1 := estimate_step w c x n (by omega)
    rw [spread_step _ _ _ _ _ (by omega)]
    have k0 : (1 + 5 * u) * ((1 - c) * Spec.spread (1 + 5 * u) w c x n + c * x n) - estimate w c x (n + 1) =
        (1 + 5 * u) * (1 - c) * (Spec.spread (1 + 5 * u) w c x n - estimate w c x n) +
          5 * u * estimate w c x (n + 1) := by rw [e1]; ring
    rw [k0]
    have k1 : (1 + 5 * u) * (1 - c) ≤ 1 - c / 2 := by nlinarith
    have k2 : 0 ≤ (1 + 5 * u) * (1 - c) := mul_nonneg (by linarith) (by linarith)
    have k3 := mul_le_mul_of_nonneg_left ih k2
    have B0 : 0 ≤ 10 * u * (w + 1 + 1 / c) * M := by positivity
    have k4 := mul_le_mul_of_nonneg_right k1 B0
    have k5 : 5 * u * estimate w c x (n + 1) ≤ 5 * u * M := mul_le_mul_of_nonneg_left b.2 (by linarith)
    have k6 : c / 2 * (10 * u * (w + 1 + 1 / c) * M) = 5 * u * M + c / 2 * (10 * u * (w + 1) * M) := by field_simp; ring
    have k7 : 0 ≤ c / 2 * (10 * u * (w + 1) * M) := by positivity
    linarith

end

/-- Powers with a small negative exponent. -/
theorem rpow_close {P v ρ y : ℝ} (hP : 0 < P) (hv : |v - P| ≤ ρ * P) (hρ : ρ ≤ 1 / 2) (y0 : -(1 / 2) ≤ y) (y1 : y ≤ 0) :
    |v ^ y - P ^ y| ≤ ρ * P ^ y := by
  obtain ⟨a, b⟩ := abs_le.1 hv
  have ρ0 : 0 ≤ ρ := by
    by_contra h
    push Not at h
    have := (abs_nonneg _).trans hv
    nlinarith
  have hv0 : 0 < v := by nlinarith
  have e : v ^ y = P ^ y * (v / P) ^ y := by
    rw [← Real.mul_rpow hP.le (by positivity), mul_div_cancel₀ _ hP.ne']
  have hp : 0 < P ^ y := Real.rpow_pos_of_pos hP y
  have t1 : 1 - ρ ≤ v / P := by rw [le_div_iff₀ hP]; linarith
  have t2 : v / P ≤ 1 + ρ := by rw [div_le_iff₀ hP]; linarith
  have key : |(v / P) ^ y - 1| ≤ ρ := by
    generalize v / P = t at *
    have t0 : 0 < t := by linarith
    rcases le_total 1 t with h | h
    · have u1 : t ^ y ≤ 1 := Real.rpow_le_one_of_one_le_of_nonpos h y1
      have u2 : t ^ (-1 : ℝ) ≤ t ^ y := Real.rpow_le_rpow_of_exponent_le h (by linarith)
      rw [Real.rpow_neg_one] at u2
      have u3 : 1 - ρ ≤ t⁻¹ := by
        rw [← one_div, le_div_iff₀ t0]
        nlinarith
      rw [abs_le]; constructor <;> linarith
    · have u1 : 1 ≤ t ^ y := Real.one_le_rpow_of_pos_of_le_one_of_nonpos t0 h y1
      have u2 : t ^ y ≤ t ^ (-(1 / 2) : ℝ) := Real.rpow_le_rpow_of_exponent_ge t0 h y0
      have u3 : t ^ (-(1 / 2) : ℝ) ≤ 1 + ρ := by
        rw [Real.rpow_neg t0.le, ← Real.sqrt_eq_rpow, inv_le_comm₀ (Real.sqrt_pos.2 t0) (by linarith)]
        apply Real.le_sqrt_of_sq_le
        rw [inv_pow, inv_le_comm₀ (by positivity) t0]
        have : t⁻¹ ≤ (1 - ρ)⁻¹ := inv_anti₀ (by linarith) t1
        refine this.trans ?_
        rw [← one_div, div_le_iff₀ (by linarith)]
        nlinarith [mul_nonneg ρ0 ρ0, mul_nonneg (mul_nonneg ρ0 ρ0) ρ0]
      rw [abs_le]; constructor <;> linarith
  rw [e, show P ^ y * (v / P) ^ y - P ^ y = P ^ y * ((v / P) ^ y - 1) by ring, abs_mul, abs_of_pos hp, mul_comm]
  exact mul_le_mul_of_nonneg_right key hp.le

/-- **C104.** The gain in single precision, with `FastPow` at the level of bits. Whenever the power floor is a normal
number and the sum does not overflow there is exactly one gain, within 0.51% of the power of the sum. -/
theorem C104_gain {s : State} (p0 : 0 ≤ power binary32 s) (f0 : (2 : ℝ) ^ (-126 : ℤ) ≤ s.powerFloor)
    (f1 : s.powerFloor + power binary32 s ≤ 2 ^ (127 : ℤ)) {y : ℚ} (hy : (y : ℝ) = s.exponent) (y0 : -(1 / 2) ≤ y)
    (y1 : y ≤ 0) :
    ∃ g, (∀ g', Gain s g' ↔ g' = g) ∧ |(g : ℝ) - (s.powerFloor + power binary32 s) ^ s.exponent| ≤
      51 / 10000 * (s.powerFloor + power binary32 s) ^ s.exponent := by
  have hP0 : (2 : ℝ) ^ (-126 : ℤ) ≤ s.powerFloor + power binary32 s := by linarith
  have hrep : ∀ e : ℤ, -149 ≤ e → binary32 ((2 : ℝ) ^ e) = 2 ^ e := fun e he =>
    ieee_of_representable (by norm_num) ⟨1, e, by norm_num, he, by simp⟩
  have hv0 : (2 : ℝ) ^ (-126 : ℤ) ≤ binary32 (s.powerFloor + power binary32 s) := by
    have := binary32_regular.mono hP0
    rwa [hrep _ (by norm_num)] at this
  have hv1 : binary32 (s.powerFloor + power binary32 s) ≤ 2 ^ (127 : ℤ) := by
    have := binary32_regular.mono f1
    rwa [hrep _ (by norm_num)] at this
  have hv2 : binary32 (s.powerFloor + power binary32 s) < 2 ^ (128 : ℤ) :=
    hv1.trans_lt (zpow_lt_zpow_right₀ (by norm_num) (by norm_num))
  obtain ⟨b, hb, hbv⟩ := exists_bits (binary32_regular.idem _) hv0 hv2
  have hacc := binary32_accurate (s.powerFloor + power binary32 s)
  rw [← hbv] at hv0 hv1 hacc
  have hd := hbv
  rw [← hy]
  have hclose : |((Float32.decode b : ℚ) : ℝ) - (s.powerFloor + power binary32 s)| ≤
      1 / 2 ^ 23 * (s.powerFloor + power binary32 s) := by
    have e1 : (2 : ℝ) ^ (-126 : ℤ) = 1 / 2 ^ 126 := by
      rw [zpow_neg, show (126 : ℤ) = ((126 : ℕ) : ℤ) by norm_num, zpow_natCast, one_div]
    rw [e1] at hP0
    have e2 : (1 : ℝ) / 2 ^ 150 = 1 / 2 ^ 24 * (1 / 2 ^ 126) := by norm_num
    have hpos : 0 < s.powerFloor + power binary32 s := lt_of_lt_of_le (by positivity) hP0
    rw [abs_of_pos hpos, e2] at hacc
    have := mul_le_mul_of_nonneg_left hP0 (show (0 : ℝ) ≤ 1 / 2 ^ 24 by positivity)
    linarith
  have hpos : 0 < s.powerFloor + power binary32 s := (zpow_pos (by norm_num) _).trans_le hP0
  refine ⟨FastFun.fastPow b y, ?_, ?_⟩
  · intro g'
    constructor
    · rintro ⟨b', y', hb', hbv', hy', rfl⟩
      have e1 : y' = y := by
        have : (y' : ℝ) = y := by rw [hy', hy]
        exact_mod_cast this
      have e2 : Float32.decode b' = Float32.decode b := by
        have : ((Float32.decode b' : ℚ) : ℝ) = Float32.decode b := by rw [hbv', hbv]
        exact_mod_cast this
      have e3 : b' = b := by
        rcases lt_trichotomy b' b with h | h | h
        · exact absurd e2 (FastFun.C41_decode_monotone b' b hb h).ne
        · exact h
        · exact absurd e2 (FastFun.C41_decode_monotone b b' hb' h).ne'
      rw [e1, e3]
    · rintro rfl
      exact ⟨b, y, hb, hbv, hy, rfl⟩
  have y0' : -(1 / 2) ≤ (y : ℝ) := by
    have : ((-(1 / 2) : ℚ) : ℝ) ≤ y := by exact_mod_cast y0
    push_cast at this
    exact this
  have y1' : (y : ℝ) ≤ 0 := by exact_mod_cast y1
  generalize s.powerFloor + power binary32 s = P at *
  generalize hv : ((Float32.decode b : ℚ) : ℝ) = v at *
  have c1 := rpow_close hpos hclose (by norm_num) y0' y1'
  have vpos : 0 < v := (zpow_pos (by norm_num) _).trans_le hv0
  have lo : (10 : ℝ) ^ (-37 : ℤ) ≤ v ^ (y : ℝ) := by
    have a1 : ((2 : ℝ) ^ (127 : ℤ)) ^ (y : ℝ) ≤ v ^ (y : ℝ) := Real.rpow_le_rpow_of_nonpos vpos hv1 y1'
    have a2 : ((2 : ℝ) ^ (127 : ℤ)) ^ (-(1 / 2) : ℝ) ≤ ((2 : ℝ) ^ (127 : ℤ)) ^ (y : ℝ) :=
      Real.rpow_le_rpow_of_exponent_le (one_le_zpow₀ (by norm_num) (by norm_num)) y0'
    have a3 : ((2 : ℝ) ^ 64)⁻¹ ≤ ((2 : ℝ) ^ (127 : ℤ)) ^ (-(1 / 2) : ℝ) := by
      rw [Real.rpow_neg (by positivity), ← Real.sqrt_eq_rpow]
      apply inv_anti₀ (Real.sqrt_pos.2 (by positivity))
      rw [Real.sqrt_le_left (by positivity)]
      norm_num
    refine le_trans ?_ (a3.trans (a2.trans a1))
    norm_num
  have hi : v ^ (y : ℝ) ≤ (10 : ℝ) ^ (37 : ℤ) := by
    have a1 : v ^ (y : ℝ) ≤ ((2 : ℝ) ^ (-126 : ℤ)) ^ (y : ℝ) := Real.rpow_le_rpow_of_nonpos (by positivity) hv0 y1'
    have a2 : ((2 : ℝ) ^ (-126 : ℤ)) ^ (y : ℝ) ≤ ((2 : ℝ) ^ (-126 : ℤ)) ^ (-(1 / 2) : ℝ) :=
      Real.rpow_le_rpow_of_exponent_ge (by positivity) (zpow_le_one_of_nonpos₀ (by norm_num) (by norm_num)) y0'
    have a3 : ((2 : ℝ) ^ (-126 : ℤ)) ^ (-(1 / 2) : ℝ) ≤ 2 ^ 63 := by
      rw [Real.rpow_neg (by positivity), ← Real.sqrt_eq_rpow, inv_le_comm₀ (Real.sqrt_pos.2 (by positivity)) (by positivity)]
      apply Real.le_sqrt_of_sq_le
      norm_num
    refine (a1.trans (a2.trans a3)).trans ?_
    norm_num
  have c2 := FastFun.C41_pow_partial b hb y (by rw [abs_le]; constructor <;> linarith) (by rw [hv]; exact lo) (by rw [hv]; exact hi)
  rw [hv] at c2
  have c3 := abs_add_le (((FastFun.fastPow b y : ℚ) : ℝ) - v ^ (y : ℝ)) (v ^ (y : ℝ) - P ^ (y : ℝ))
  rw [sub_add_sub_cancel] at c3
  have c4 := (abs_le.1 c1).2
  have hp : 0 < P ^ (y : ℝ) := Real.rpow_pos_of_pos hpos _
  linarith

/-- **C104.** End to end, in single precision: for power samples in `[0, M]` with a floor and `M` in a range without
overflow, the gain always exists, is positive and at most `1.0051 power_floor ^ exponent`; and if the power estimate may be
off by a fraction `ρ` of the sum, it is within `0.51% + 1.01 ρ` of the exact gain. -/
theorem C104_end_to_end {s₀ : State} {w : ℕ} {c : ℝ} (hw : s₀.numWarmUp = w) (hc : s₀.smootherCoeff = c)
    (c0 : 10 / 2 ^ 24 ≤ c) (c1 : c ≤ 1 / 2) (hwu : 10 / 2 ^ 24 * ((w : ℝ) + 1) ≤ 1) {y : ℚ} (hy : (y : ℝ) = s₀.exponent)
    (y0 : -(1 / 2) ≤ y) (y1 : y ≤ 0) (f0 : (2 : ℝ) ^ (-126 : ℤ) ≤ s₀.powerFloor) (f1 : s₀.powerFloor ≤ 2 ^ 120)
    {x : ℕ → ℝ} {M : ℝ} (hM : 1 ≤ M) (hM' : M ≤ 2 ^ 120) (hx : ∀ k, 0 ≤ x k ∧ x k ≤ M) {s : ℕ → State}
    (hs : IsRun binary32 s₀ x s) (n : ℕ) :
    ∃ g, (∀ g', Gain (s n) g' ↔ g' = g) ∧ 0 < g ∧ (g : ℝ) ≤ 10051 / 10000 * s₀.powerFloor ^ s₀.exponent ∧
      ∀ ρ ≤ 1 / 2, Spec.spread (1 + 5 / 2 ^ 24) w c x n - estimate w c x n + 1 / (2 ^ 147 * c) ≤
          ρ * (s₀.powerFloor + estimate w c x n) →
        |(g : ℝ) - (s₀.powerFloor + estimate w c x n) ^ s₀.exponent| ≤
          (51 / 10000 + 101 / 100 * ρ) * (s₀.powerFloor + estimate w c x n) ^ s₀.exponent := by
  have cpos : 0 < c := lt_of_lt_of_le (by positivity) c0
  obtain ⟨p0, p1⟩ := C104_power binary32_accurate binary32_regular (by positivity) (by norm_num) hw hc (by linarith) cpos c1
    (by linarith) (fun k => (hx k).1) hs n
  have acc := C104_accuracy (u := 1 / 2 ^ 24) (by positivity) (by linarith) cpos c1 (w := w) (by linarith) hM hx n
  obtain ⟨e0, e1⟩ := C33_bounds w c cpos.le (by linarith) x n 0 M ⟨zero_le_one, hM⟩ fun k _ => hx k
  obtain ⟨-, -, i3, i4, -, -, -⟩ := run_invariant binary32_regular hw (by rw [hc]; exact cpos.le) (by rw [hc]; linarith)
    (fun k => (hx k).1) hs n
  have q1 : (1 : ℝ) + 5 * (1 / 2 ^ 24) = 1 + 5 / 2 ^ 24 := by ring
  have q2 : 8 * (1 / 2 ^ 150) / c = 1 / (2 ^ 147 * c) := by
    rw [div_eq_div_iff cpos.ne' (by positivity)]; ring
  rw [q1, q2] at p1
  rw [q1] at acc
  have small : 1 / (2 ^ 147 * c) ≤ 1 := by
    rw [div_le_one (by positivity)]
    have := mul_le_mul_of_nonneg_left c0 (show (0 : ℝ) ≤ 2 ^ 147 by positivity)
    refine le_trans ?_ this
    norm_num
  have accM : 10 * (1 / 2 ^ 24) * (w + 1 + 1 / c) * M ≤ 2 * M := by
    apply mul_le_mul_of_nonneg_right _ (by linarith)
    have : 10 * (1 / 2 ^ 24) * (1 / c) ≤ 1 := by
      rw [mul_one_div, div_le_one cpos]; linarith
    linarith
  have up : power binary32 (s n) ≤ 3 * M + 1 := by have := (abs_le.1 p1).2; linarith
  have ovf : (s n).powerFloor + power binary32 (s n) ≤ 2 ^ (127 : ℤ) := by
    rw [i4]
    have : (2 : ℝ) ^ 120 + (3 * 2 ^ 120 + 1) ≤ 2 ^ (127 : ℤ) := by norm_num
    linarith
  obtain ⟨g, g1, g2⟩ := C104_gain p0 (by rw [i4]; exact f0) ovf (by rw [i3]; exact hy) y0 y1
  have fpos : 0 < s₀.powerFloor := (zpow_pos (by norm_num) _).trans_le f0
  have y1' : s₀.exponent ≤ 0 := by rw [← hy]; exact_mod_cast y1
  have y0' : -(1 / 2) ≤ s₀.exponent := by
    rw [← hy]
    have : ((-(1 / 2) : ℚ) : ℝ) ≤ y := by exact_mod_cast y0
    push_cast at this
    exact this
  rw [i3, i4] at g2
  generalize power binary32 (s n) = p at *
  have Ppos : 0 < s₀.powerFloor + p := by linarith
  have hp := Real.rpow_pos_of_pos Ppos s₀.exponent
  have hmono : (s₀.powerFloor + p) ^ s₀.exponent ≤ s₀.powerFloor ^ s₀.exponent :=
    Real.rpow_le_rpow_of_nonpos fpos (by linarith) y1'
  obtain ⟨g3, g4⟩ := abs_le.1 g2
  refine ⟨g, g1, ?_, by linarith, ?_⟩
  · have : (0 : ℝ) < g := by linarith
    exact_mod_cast this
  · intro ρ hρ h
    have Epos : 0 < s₀.powerFloor + estimate w c x n := by linarith
    have r := rpow_close (v := s₀.powerFloor + p) Epos (by rw [add_sub_add_left_eq_sub]; linarith) hρ y0' y1'
    have hE := Real.rpow_pos_of_pos Epos s₀.exponent
    have t := abs_add_le ((g : ℝ) - (s₀.powerFloor + p) ^ s₀.exponent)
      ((s₀.powerFloor + p) ^ s₀.exponent - (s₀.powerFloor + estimate w c x n) ^ s₀.exponent)
    rw [sub_add_sub_cancel] at t
    have := (abs_le.1 r).2
    have ρ0 : 0 ≤ ρ * (s₀.powerFloor + estimate w c x n) ^ s₀.exponent := (abs_nonneg _).trans r
    linarith

/-- Runs exist: the machine always continues. -/
theorem C104_run_exists (rnd : ℝ → ℝ) (s₀ : State) (x : ℕ → ℝ) : ∃ s, IsRun rnd s₀ x s := by
  have h : ∀ s x, ∃ s', Process rnd s x s' := by
    intro s x
    unfold Process
    split
    · exact ⟨_, rfl⟩
    · exact ⟨_, _, .inl rfl, rfl⟩
  choose f hf using h
  exact ⟨fun n => Nat.rec (reset s₀) (fun n t => f t (x n)) n, rfl, fun n => hf _ (x n)⟩

/-- The header's example: 16 kHz, 0.25 s (warm-up of 4000 samples, coefficient about 1/4000), strength 1/2 and, for the
sake of round numbers, a floor of `2^-20`: for every signal of power at most 1 the gain exists and is at most 32.2. -/
example (x : ℕ → ℝ) (hx : ∀ k, 0 ≤ x k ∧ x k ≤ 1) (n : ℕ) :
    ∃ s g, IsRun binary32 ⟨1 / 4000, -(1 / 4), 1, 1 / 2 ^ 20, 4000, 1⟩ x s ∧ Gain (s n) g ∧ (g : ℝ) ≤ 322 / 10 := by
  obtain ⟨s, hs⟩ := C104_run_exists binary32 ⟨1 / 4000, -(1 / 4), 1, 1 / 2 ^ 20, 4000, 1⟩ x
  obtain ⟨g, h1, -, h2, -⟩ := C104_end_to_end (w := 4000) (c := 1 / 4000) (y := -(1 / 4)) (M := 1) (by norm_num) rfl (by norm_num)
    (by norm_num) (by norm_num) (by norm_num) (by norm_num) (by norm_num) (by norm_num) (by norm_num) le_rfl (by norm_num) hx hs n
  refine ⟨s, g, hs, (h1 g).2 rfl, h2.trans ?_⟩
  dsimp only
  have : ((1 : ℝ) / 2 ^ 20) ^ (-(1 / 4) : ℝ) = 32 := by
    rw [Real.rpow_neg (by positivity), one_div, Real.inv_rpow (by positivity), inv_inv, ← Real.rpow_natCast,
      ← Real.rpow_mul (by norm_num)]
    norm_num
  rw [this]
  norm_num

theorem binary32_int {m : ℤ} (h : |m| ≤ 2 ^ 24) : binary32 m = m :=
  ieee_of_representable (by norm_num) ⟨m, 0, h, by norm_num, by simp⟩

theorem binary32_stuck : binary32 (2 ^ 24 + 1) = 2 ^ 24 := by
  have hl : Int.log 2 |(2 : ℝ) ^ 24 + 1| = 24 := by
    rw [abs_of_pos (by positivity)]
    have h := log_lower (x := (2 : ℝ) ^ 24 + 1) (by positivity)
    have h' := log_upper ((2 : ℝ) ^ 24 + 1)
    have a : (2 : ℝ) ^ Int.log 2 ((2 : ℝ) ^ 24 + 1) < 2 ^ (25 : ℤ) := h.trans_lt (by norm_num)
    have b : (2 : ℝ) ^ (24 : ℤ) < 2 ^ (Int.log 2 ((2 : ℝ) ^ 24 + 1) + 1) := lt_trans (by norm_num) h'
    have a' := (zpow_lt_zpow_iff_right₀ (by norm_num : (1 : ℝ) < 2)).1 a
    have b' := (zpow_lt_zpow_iff_right₀ (by norm_num : (1 : ℝ) < 2)).1 b
    omega
  unfold binary32 ieee
  dsimp only
  rw [hl, show max ((24 : ℤ) + 1 - ((24 : ℕ) : ℤ)) (-149) = 1 by norm_num, zpow_one]
  have hf : ⌊((2 : ℝ) ^ 24 + 1) / 2⌋ = 2 ^ 23 := by
    rw [Int.floor_eq_iff]; norm_num
  unfold roundHalfEven
  dsimp only
  rw [hf]
  norm_num

/-- **C104, finding.** Without the bound on the warm-up the estimate is wrong: `Init` accepts time constants of more than
`2^24` samples, and then the sum of the warm-up stops at `2^24`. With a warm-up of `2^26` samples (1400 s at 48 kHz) of
power 1 the estimate at its end is below 0.26 instead of 1. -/
theorem C104_warm_up_violation {s₀ : State} (hw : s₀.numWarmUp = (2 ^ 26 : ℕ)) (c0 : 0 ≤ s₀.smootherCoeff)
    (c1 : s₀.smootherCoeff ≤ 1) {s : ℕ → State} (hs : IsRun binary32 s₀ (fun _ => 1) s) :
    power binary32 (s (2 ^ 26)) ≤ 26 / 100 ∧ estimate (2 ^ 26) s₀.smootherCoeff (fun _ => 1) (2 ^ 26) = 1 := by
  have inv := run_invariant binary32_regular hw c0 c1 (x := fun _ => 1) (fun _ => zero_le_one) hs
  have step : ∀ n, n < 2 ^ 26 → binary32 ((min (n + 1) (2 ^ 24) : ℕ) + 1 : ℝ) = (min (n + 2) (2 ^ 24) : ℕ) := by
    intro n _
    by_cases h : n + 2 ≤ 2 ^ 24
    · rw [min_eq_left h, min_eq_left (by omega)]
      have := binary32_int (m := (n + 2 : ℕ)) (by rw [abs_of_nonneg (by positivity)]; exact_mod_cast h)
      push_cast at this ⊢
      rw [← this]
      congr 1
      ring
    · rw [min_eq_right (by omega), min_eq_right (by omega)]
      have := binary32_stuck
      norm_num at this ⊢
      exact this
  have sum : ∀ n, n < 2 ^ 26 → (s n).smoothedPower = (min (n + 1) (2 ^ 24) : ℕ) := by
    intro n
    induction n with
    | zero => intro _; rw [hs.1]; simp [reset]
    | succ n ih =>
      intro hn
      obtain ⟨i1, -, -, -, i5, -, -⟩ := inv n
      have h := hs.2 n
      unfold Process at h
      rw [if_pos (by rw [i1, i5]; omega)] at h
      unfold warmUp at h
      dsimp only at h
      rw [i1, i5, if_neg (by omega)] at h
      rw [h]
      dsimp only
      rw [ih (by omega), step n (by omega)]
  constructor
  · obtain ⟨i1, -, -, -, i5, -, -⟩ := inv (2 ^ 26 - 1)
    obtain ⟨j1, -, -, -, j5, -, -⟩ := inv (2 ^ 26)
    have h := hs.2 (2 ^ 26 - 1)
    rw [show 2 ^ 26 - 1 + 1 = 2 ^ 26 by norm_num] at h
    unfold Process at h
    rw [if_pos (by rw [i1, i5]; omega)] at h
    unfold warmUp at h
    dsimp only at h
    rw [i1, i5, if_pos (by norm_num), sum _ (by norm_num), step _ (by norm_num)] at h
    unfold power
    rw [if_neg (by rw [j1, j5]; norm_num), h]
    dsimp only
    have e1 : ((min (2 ^ 26 - 1 + 2) (2 ^ 24) : ℕ) : ℝ) = 2 ^ 24 := by norm_num
    rw [e1]
    have a := binary32_accurate (((1 + ((min (2 ^ 26 - 1) (2 ^ 26) : ℕ) : ℤ) + 1 : ℤ) : ℝ))
    have e2 : (((1 + ((min (2 ^ 26 - 1) (2 ^ 26) : ℕ) : ℤ) + 1 : ℤ) : ℝ)) = 2 ^ 26 + 1 := by norm_num
    rw [e2] at a ⊢
    rw [abs_of_pos (a := (2 : ℝ) ^ 26 + 1) (by positivity)] at a
    generalize binary32 ((2 : ℝ) ^ 26 + 1) = N at *
    have hN : (2 : ℝ) ^ 26 - 10 ≤ N := by
      have := (abs_le.1 a).1
      refine le_trans ?_ (sub_nonneg.1 (by linarith : 0 ≤ N - ((2 : ℝ) ^ 26 + 1 - (1 / 2 ^ 24 * (2 ^ 26 + 1) + 1 / 2 ^ 150))))
      norm_num
    have Npos : 0 < N := lt_of_lt_of_le (by norm_num) hN
    have d : (2 : ℝ) ^ 24 / N ≤ 251 / 1000 := by
      rw [div_le_iff₀ Npos]
      refine le_trans ?_ (mul_le_mul_of_nonneg_left hN (by norm_num))
      norm_num
    have b := binary32_accurate ((2 : ℝ) ^ 24 / N)
    rw [abs_of_pos (a := (2 : ℝ) ^ 24 / N) (by positivity)] at b
    have b' := (abs_le.1 b).2
    generalize (2 : ℝ) ^ 24 / N = z at *
    norm_num at b' ⊢
    linarith
  · unfold estimate average
    rw [if_pos le_rfl, Finset.sum_const, Finset.card_range, nsmul_eq_mul, mul_one]
    exact div_self (by positivity)

end Verif.FloatAgc
