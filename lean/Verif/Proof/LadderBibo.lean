import Verif.Proof.Ladder
import Mathlib.Algebra.Order.Chebyshev

/-!
# Bounded input, bounded state for chains of lossy scattering stages

`s n` is the state before sample `n`, `f n i` the signal that enters stage `i - 1` (`f n M` is the input). The energy that
the stages cannot lose leaves through `s n M`, and the state can be computed backwards from what leaves: so energy is lost
at a uniform rate, however the coefficients change.
-/

namespace Verif.Ladder
open Finset

/-- What is used of a run of the filter: `α`, `β`, `ρ`, `η` are zero without rounding. -/
structure Run (α β L ρ η : ℝ) (M : ℕ) (x : ℕ → ℝ) (s f : ℕ → ℕ → ℝ) : Prop where
  top : ∀ n, f n M = x n
  bottom : ∀ n, s (n + 1) 0 = f n 0
  energy : ∀ n i, i < M → s (n + 1) (i + 1) ^ 2 + f n i ^ 2 ≤ (1 + α) * (f n (i + 1) ^ 2 + s n i ^ 2) + β
  observe : ∀ n i, i < M → |s n i| ≤ L * (|s (n + 1) (i + 1)| + |f n (i + 1)| + η)
  forward : ∀ n i, i < M → |f n i| ≤ (1 + ρ) * (|f n (i + 1)| + |s n i|) + η

variable {α β L ρ η X Y P : ℝ} {M : ℕ} {x : ℕ → ℝ} {s f : ℕ → ℕ → ℝ}

/-- What leaves the filter in the samples `n, …, n + d`. -/
def outSum (s : ℕ → ℕ → ℝ) (M : ℕ) (Y : ℝ) (n d : ℕ) : ℝ := ∑ j ∈ range (d + 1), (|s (n + j) M| + Y)

theorem outSum_succ (s : ℕ → ℕ → ℝ) (M : ℕ) (Y : ℝ) (n d : ℕ) :
    outSum s M Y n (d + 1) = |s n M| + Y + outSum s M Y (n + 1) d := by
  unfold outSum
  rw [sum_range_succ']
  rw [add_comm]
  congr 1
  apply sum_congr rfl
  intro j _
  rw [show n + (j + 1) = n + 1 + j by omega]

theorem outSum_last (s : ℕ → ℕ → ℝ) (M : ℕ) (Y : ℝ) (n d : ℕ) :
    outSum s M Y n (d + 1) = outSum s M Y n d + (|s (n + (d + 1)) M| + Y) := by
  unfold outSum
  rw [sum_range_succ]

theorem outSum_nonneg (h : 0 ≤ Y) (n d : ℕ) : 0 ≤ outSum s M Y n d :=
  sum_nonneg fun _ _ => by positivity

theorem observe_all (h : Run α β L ρ η M x s f) (hL : 1 ≤ L) (ρ0 : 0 ≤ ρ) (η0 : 0 ≤ η) (hη : η ≤ Y) (hx : ∀ n, |x n| ≤ Y)
    (hP : (1 + ρ) * (1 + 2 * L) ≤ P) : ∀ d ≤ M, ∀ n,
    |s n (M - d)| ≤ P ^ d * outSum s M Y n d ∧ |f n (M - d)| ≤ P ^ d * outSum s M Y n d := by
  have hY : 0 ≤ Y := η0.trans hη
  have hP1 : 1 ≤ P := by nlinarith
  intro d
  induction d with
  | zero =>
    intro _ n
    rw [Nat.sub_zero, h.top, pow_zero, one_mul]
    unfold outSum
    rw [sum_range_one, add_zero]
    have := hx n
    have := abs_nonneg (s n M)
    constructor <;> linarith
  | succ d ih =>
    intro hd n
    have hi : M - (d + 1) < M := by omega
    have he : M - (d + 1) + 1 = M - d := by omega
    obtain ⟨a1, -⟩ := ih (by omega) (n + 1)
    obtain ⟨-, a2⟩ := ih (by omega) n
    have o := h.observe n _ hi
    have g := h.forward n _ hi
    rw [he] at o g
    have z1 := outSum_succ s M Y n d
    have z2 := outSum_last s M Y n d
    have p0 : 1 ≤ P ^ d := one_le_pow₀ hP1
    have n1 := abs_nonneg (s n M)
    have n2 := abs_nonneg (s (n + (d + 1)) M)
    have z0 := outSum_nonneg (s := s) (M := M) hY n (d + 1)
    have k1 : P ^ d * outSum s M Y (n + 1) d ≤ P ^ d * outSum s M Y n (d + 1) :=
      mul_le_mul_of_nonneg_left (by linarith) (by linarith)
    have k2 : P ^ d * outSum s M Y n d ≤ P ^ d * outSum s M Y n (d + 1) - Y := by
      have : P ^ d * (outSum s M Y n d + Y) ≤ P ^ d * outSum s M Y n (d + 1) :=
        mul_le_mul_of_nonneg_left (by linarith) (by linarith)
      nlinarith
    have b1 : |s n (M - (d + 1))| ≤ 2 * L * (P ^ d * outSum s M Y n (d + 1)) := by
      refine o.trans ?_
      rw [show 2 * L * (P ^ d * outSum s M Y n (d + 1)) = L * (2 * (P ^ d * outSum s M Y n (d + 1))) by ring]
      apply mul_le_mul_of_nonneg_left _ (by linarith)
      linarith
    have w0 : 0 ≤ P ^ d * outSum s M Y n (d + 1) := mul_nonneg (by linarith) z0
    have hp : (1 + ρ) * (1 + 2 * L) * (P ^ d * outSum s M Y n (d + 1)) ≤ P ^ (d + 1) * outSum s M Y n (d + 1) := by
      rw [pow_succ, mul_comm (P ^ d) P, mul_assoc P]
      exact mul_le_mul_of_nonneg_right hP w0
    generalize P ^ d * outSum s M Y n (d + 1) = W at *
    have r1 : 0 ≤ ρ * (W * (1 + 2 * L)) := mul_nonneg ρ0 (mul_nonneg w0 (by linarith))
    constructor
    · refine b1.trans (le_trans ?_ hp)
      nlinarith
    · refine g.trans (le_trans ?_ hp)
      have : (1 + ρ) * (|f n (M - d)| + |s n (M - (d + 1))|) ≤ (1 + ρ) * (W - Y + 2 * L * W) :=
        mul_le_mul_of_nonneg_left (by linarith) (by linarith)
      nlinarith [mul_nonneg ρ0 hY]

/-- The energy of the state is bounded by what leaves within the next `M + 1` samples. -/
theorem observe_energy (h : Run α β L ρ η M x s f) (hL : 1 ≤ L) (ρ0 : 0 ≤ ρ) (η0 : 0 ≤ η) (hη : η ≤ Y) (hx : ∀ n, |x n| ≤ Y)
    (hP : (1 + ρ) * (1 + 2 * L) ≤ P) (n : ℕ) :
    energy (M + 1) (s n) ≤ 2 * (M + 1) ^ 2 * P ^ (2 * M) * (∑ j ∈ range (M + 1), s (n + j) M ^ 2 + (M + 1) * Y ^ 2) := by
  have hY : 0 ≤ Y := η0.trans hη
  have hP1 : 1 ≤ P := by nlinarith
  have hZ : outSum s M Y n M ^ 2 ≤ 2 * (M + 1) * (∑ j ∈ range (M + 1), s (n + j) M ^ 2 + (M + 1) * Y ^ 2) := by
    unfold outSum
    have c := sq_sum_le_card_mul_sum_sq (s := range (M + 1)) (f := fun j => |s (n + j) M| + Y)
    rw [card_range] at c
    push_cast at c
    refine c.trans ?_
    have : ∑ j ∈ range (M + 1), (|s (n + j) M| + Y) ^ 2 ≤ 2 * (∑ j ∈ range (M + 1), s (n + j) M ^ 2 + (M + 1) * Y ^ 2) := by
      have e : 2 * (∑ j ∈ range (M + 1), s (n + j) M ^ 2 + (M + 1) * Y ^ 2) =
          ∑ j ∈ range (M + 1), 2 * (s (n + j) M ^ 2 + Y ^ 2) := by
        rw [← mul_sum, sum_add_distrib, sum_const, card_range, nsmul_eq_mul]
        push_cast
        ring
      rw [e]
      apply sum_le_sum
      intro j _
      nlinarith [sq_abs (s (n + j) M), sq_nonneg (|s (n + j) M| - Y)]
    have m0 : (0 : ℝ) ≤ (M : ℝ) + 1 := by positivity
    nlinarith
  have each : ∀ i ∈ range (M + 1), s n i ^ 2 ≤ P ^ (2 * M) * outSum s M Y n M ^ 2 := by
    intro i hi
    have hi' : i ≤ M := by have := mem_range.1 hi; omega
    obtain ⟨a, -⟩ := observe_all h hL ρ0 η0 hη hx hP (M - i) (by omega) n
    rw [show M - (M - i) = i by omega] at a
    have o0 := outSum_nonneg (s := s) (M := M) hY n (M - i)
    have b : P ^ (M - i) * outSum s M Y n (M - i) ≤ P ^ M * outSum s M Y n M := by
      apply mul_le_mul (pow_le_pow_right₀ hP1 (by omega)) _ o0 (by positivity)
      unfold outSum
      apply sum_le_sum_of_subset_of_nonneg
      · intro j hj; rw [mem_range] at hj ⊢; omega
      · intro j _ _; positivity
    rw [← sq_abs, show P ^ (2 * M) * outSum s M Y n M ^ 2 = (P ^ M * outSum s M Y n M) ^ 2 by ring]
    exact pow_le_pow_left₀ (abs_nonneg _) (a.trans b) 2
  unfold energy
  refine (sum_le_sum each).trans ?_
  rw [sum_const, card_range, nsmul_eq_mul]
  push_cast
  have p0 : 0 ≤ ((M : ℝ) + 1) * P ^ (2 * M) := by positivity
  nlinarith [mul_le_mul_of_nonneg_left hZ p0]

/-- One sample. -/
theorem energy_next (h : Run α β L ρ η M x s f) (α0 : 0 ≤ α) (β0 : 0 ≤ β) (n : ℕ) :
    energy (M + 1) (s (n + 1)) + s n M ^ 2 ≤
      (1 + α) ^ M * energy (M + 1) (s n) + (1 + α) ^ M * (x n ^ 2 + M * β) := by
  have key : ∀ m, m ≤ M → ∑ i ∈ range m, s (n + 1) (i + 1) ^ 2 + f n 0 ^ 2 ≤
      (1 + α) ^ m * (f n m ^ 2 + ∑ i ∈ range m, s n i ^ 2 + m * β) := by
    intro m
    induction m with
    | zero => intro _; simp
    | succ m ih =>
      intro hm
      have hi := ih (by omega)
      have e := h.energy n m (by omega)
      rw [sum_range_succ, sum_range_succ, pow_succ (1 + α) m]
      have p1 : 1 ≤ (1 + α) ^ m := one_le_pow₀ (by linarith)
      have S0 : 0 ≤ ∑ i ∈ range m, s n i ^ 2 := sum_nonneg fun _ _ => sq_nonneg _
      generalize ∑ i ∈ range m, s n i ^ 2 = S at *
      generalize ∑ i ∈ range m, s (n + 1) (i + 1) ^ 2 = S' at *
      have mβ : 0 ≤ (m : ℝ) * β := by positivity
      have t1 : s (n + 1) (m + 1) ^ 2 + (f n m ^ 2 + S + m * β) ≤
          (1 + α) * (f n (m + 1) ^ 2 + (S + s n m ^ 2) + ((m : ℝ) + 1) * β) := by
        nlinarith [mul_nonneg α0 S0, mul_nonneg α0 mβ, mul_nonneg α0 β0]
      have t2 : s (n + 1) (m + 1) ^ 2 ≤ (1 + α) ^ m * s (n + 1) (m + 1) ^ 2 := by
        nlinarith [sq_nonneg (s (n + 1) (m + 1))]
      have t3 := mul_le_mul_of_nonneg_left t1 (show 0 ≤ (1 + α) ^ m by linarith)
      push_cast
      nlinarith
  have hM := key M le_rfl
  rw [h.top] at hM
  have p1 : 1 ≤ (1 + α) ^ M := one_le_pow₀ (by linarith)
  have e1 : energy (M + 1) (s (n + 1)) = ∑ i ∈ range M, s (n + 1) (i + 1) ^ 2 + f n 0 ^ 2 := by
    unfold energy
    rw [sum_range_succ', h.bottom]
  have e2 : energy (M + 1) (s n) = ∑ i ∈ range M, s n i ^ 2 + s n M ^ 2 := by
    unfold energy
    rw [sum_range_succ]
  rw [e1, e2]
  generalize (1 + α) ^ M = A at *
  nlinarith [sq_nonneg (s n M)]

/-- `t` samples. -/
theorem energy_steps (h : Run α β L ρ η M x s f) (α0 : 0 ≤ α) (β0 : 0 ≤ β) (hx : ∀ n, |x n| ≤ X) (n t : ℕ) :
    energy (M + 1) (s (n + t)) + ∑ j ∈ range t, s (n + j) M ^ 2 ≤
      ((1 + α) ^ M) ^ t * energy (M + 1) (s n) + t * (((1 + α) ^ M) ^ t * (X ^ 2 + M * β)) := by
  have p1 : 1 ≤ (1 + α) ^ M := one_le_pow₀ (by linarith)
  induction t with
  | zero => simp
  | succ t ih =>
    have e := energy_next h α0 β0 (n + t)
    have hX : x (n + t) ^ 2 ≤ X ^ 2 := by
      rw [← sq_abs]; exact pow_le_pow_left₀ (abs_nonneg _) (hx _) 2
    rw [sum_range_succ, show n + (t + 1) = n + t + 1 by omega]
    generalize (1 + α) ^ M = A at *
    have S0 : 0 ≤ ∑ j ∈ range t, s (n + j) M ^ 2 := sum_nonneg fun _ _ => sq_nonneg _
    generalize ∑ j ∈ range t, s (n + j) M ^ 2 = S at *
    have mβ : 0 ≤ (M : ℝ) * β := by positivity
    have q1 : 1 ≤ A ^ t := one_le_pow₀ p1
    have G0 : 0 ≤ X ^ 2 + M * β := by positivity
    have i1 := mul_le_mul_of_nonneg_left ih (show 0 ≤ A by linarith)
    have i2 : A * (x (n + t) ^ 2 + M * β) ≤ A ^ t * A * (X ^ 2 + M * β) := by
      have : A * (x (n + t) ^ 2 + M * β) ≤ A * (X ^ 2 + M * β) := mul_le_mul_of_nonneg_left (by linarith) (by linarith)
      nlinarith [mul_nonneg (show 0 ≤ A by linarith) G0]
    push_cast
    rw [pow_succ A t]
    nlinarith [mul_le_mul_of_nonneg_right p1 S0]

/-- **Bounded forever.** -/
theorem run_bounded (h : Run α β L ρ η M x s f) (hL : 1 ≤ L) (α0 : 0 ≤ α) (β0 : 0 ≤ β) (ρ0 : 0 ≤ ρ) (η0 : 0 ≤ η)
    (hη : η ≤ Y) (hXY : X ≤ Y) (hx : ∀ n, |x n| ≤ X) (hP : (1 + ρ) * (1 + 2 * L) ≤ P)
    (hA : 4 * (M + 1) ^ 2 * P ^ (2 * M) * (((1 + α) ^ M) ^ (M + 1) - 1) ≤ 1)
    (h0 : energy (M + 1) (s 0) = 0) (n : ℕ) :
    energy (M + 1) (s n) ≤ 10 * (M + 1) ^ 3 * P ^ (2 * M) * (2 * (X ^ 2 + M * β) + Y ^ 2) := by
  have hP1 : 1 ≤ P := by nlinarith
  have p1 : 1 ≤ (1 + α) ^ M := one_le_pow₀ (by linarith)
  have mβ : 0 ≤ (M : ℝ) * β := by positivity
  have st := energy_steps h α0 β0 hx
  have ob := observe_energy h hL ρ0 η0 hη (fun n => (hx n).trans hXY) hP
  generalize (1 + α) ^ M = A at *
  have Q1 : 1 ≤ P ^ (2 * M) := one_le_pow₀ hP1
  generalize P ^ (2 * M) = Q at *
  have T1 : (1 : ℝ) ≤ (M : ℝ) + 1 := by have := Nat.cast_nonneg (α := ℝ) M; linarith
  obtain ⟨C, hC⟩ : ∃ C, C = 2 * ((M : ℝ) + 1) ^ 2 * Q := ⟨_, rfl⟩
  have C2 : 2 ≤ C := by rw [hC]; nlinarith [mul_nonneg (sub_nonneg.2 T1) (sub_nonneg.2 T1)]
  have q1 : 1 ≤ A ^ (M + 1) := one_le_pow₀ p1
  have hA' : 2 * C * (A ^ (M + 1) - 1) ≤ 1 := by rw [hC]; linarith
  have q2 : A ^ (M + 1) ≤ 2 := by nlinarith
  obtain ⟨G, hG⟩ : ∃ G, G = 2 * (X ^ 2 + M * β) + Y ^ 2 := ⟨_, rfl⟩
  obtain ⟨V, hV⟩ : ∃ V, V = X ^ 2 + M * β := ⟨_, rfl⟩
  have V0 : 0 ≤ V := by rw [hV]; positivity
  have Y0 := sq_nonneg Y
  have hGV : G = 2 * V + Y ^ 2 := by rw [hG, hV]
  rw [← hV] at st
  obtain ⟨T, hT⟩ : ∃ T, T = (M : ℝ) + 1 := ⟨_, rfl⟩
  have block : ∀ m, energy (M + 1) (s (m * (M + 1))) ≤ 2 * C * (T * G) := by
    intro m
    induction m with
    | zero => rw [Nat.zero_mul, h0]; have : 0 ≤ T * G := by rw [hT, hGV]; positivity
              nlinarith
    | succ m ih =>
      rw [show (m + 1) * (M + 1) = m * (M + 1) + (M + 1) by ring]
      have a := st (m * (M + 1)) (M + 1)
      have b := ob (m * (M + 1))
      rw [← hC] at b
      push_cast at a
      rw [← hT] at a b
      generalize ∑ j ∈ range (M + 1), s (m * (M + 1) + j) M ^ 2 = S at *
      have E0 := energy_nonneg (M + 1) (s (m * (M + 1)))
      generalize energy (M + 1) (s (m * (M + 1))) = E at *
      generalize energy (M + 1) (s (m * (M + 1) + (M + 1))) = E' at *
      generalize A ^ (M + 1) = B at *
      have T0 : 1 ≤ T := by rw [hT]; exact T1
      have g0 : 0 ≤ T * G := by rw [hGV]; positivity
      have c1 : T * (B * V) ≤ T * (2 * V) := by
        apply mul_le_mul_of_nonneg_left _ (by linarith)
        exact mul_le_mul_of_nonneg_right q2 V0
      have d1 : 2 * C * E' ≤ 2 * C * (B * E + T * (2 * V) - S) := mul_le_mul_of_nonneg_left (by linarith) (by linarith)
      have d2 : 2 * C * (B - 1) * E ≤ 1 * E := mul_le_mul_of_nonneg_right hA' E0
      have d3 : 2 * C * E' ≤ (2 * C - 1) * E + 2 * C * (T * G) := by
        rw [hGV]; nlinarith
      have d4 : (2 * C - 1) * E ≤ (2 * C - 1) * (2 * C * (T * G)) := mul_le_mul_of_nonneg_left ih (by linarith)
      have d5 : 2 * C * E' ≤ 2 * C * (2 * C * (T * G)) := by linarith
      exact le_of_mul_le_mul_left d5 (by linarith)
  have hn : n = n / (M + 1) * (M + 1) + n % (M + 1) := by rw [Nat.mul_comm]; exact (Nat.div_add_mod n (M + 1)).symm
  have hr : n % (M + 1) < M + 1 := Nat.mod_lt _ (by omega)
  have a := st (n / (M + 1) * (M + 1)) (n % (M + 1))
  rw [← hn] at a
  have b := block (n / (M + 1))
  have S0 : 0 ≤ ∑ j ∈ range (n % (M + 1)), s (n / (M + 1) * (M + 1) + j) M ^ 2 := sum_nonneg fun _ _ => sq_nonneg _
  have E0 := energy_nonneg (M + 1) (s (n / (M + 1) * (M + 1)))
  have r1 : A ^ (n % (M + 1)) ≤ 2 := (pow_le_pow_right₀ p1 hr.le).trans q2
  have r0 : 0 ≤ A ^ (n % (M + 1)) := by positivity
  have r2 : ((n % (M + 1) : ℕ) : ℝ) ≤ T := by rw [hT]; exact_mod_cast hr.le
  have r3 : ((n % (M + 1) : ℕ) : ℝ) * (A ^ (n % (M + 1)) * V) ≤ T * (2 * V) :=
    mul_le_mul r2 (mul_le_mul_of_nonneg_right r1 V0) (by positivity) (by rw [hT]; linarith)
  have r4 : A ^ (n % (M + 1)) * energy (M + 1) (s (n / (M + 1) * (M + 1))) ≤ 2 * (2 * C * (T * G)) :=
    mul_le_mul r1 b E0 (by norm_num)
  have hTG : T * (2 * V) ≤ T * G := by
    apply mul_le_mul_of_nonneg_left _ (by rw [hT]; linarith)
    rw [hGV]; linarith
  have g0 : 0 ≤ T * G := by rw [hT, hGV]; positivity
  have fin : 10 * ((M : ℝ) + 1) ^ 3 * Q * G = 5 * C * (T * G) := by rw [hC, hT]; ring
  rw [hG] at fin
  rw [fin, ← hG]
  nlinarith

end Verif.Ladder
