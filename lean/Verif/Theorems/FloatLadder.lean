import Verif.Proof.FloatLadder
import Verif.Proof.Ieee
import Verif.Spec.NormalizedLadder
import Verif.Theorems.LadderBounded

/-!
# C107: the ladder filter in floating point

`rnd` is any rounding with relative error `u` and absolute error `η` near zero; for `float` these are 2^-24 and 2^-150,
for `double` 2^-53 and 2^-1075. The reflection coefficients in effect may change arbitrarily from sample to sample, but are
bounded by `κ`; `γ` is a little less than the smallest scattering coefficient `√(1 - κ²)`. The input is bounded by `X`, and
`X` is not in the subnormal range.
-/

namespace Verif.FloatLadder
open Finset Verif.Rounding Verif.FloatResampler Verif.NormalizedLadder
open Verif.Ladder (Run energy run_bounded)

/-- The precision suffices for the order and the coefficients: with `P` = `16 / (5 γ)`, the rounding errors of a few
samples add less energy to the state than leaves the filter. -/
structure Suffices (u η eps κ γ X : ℝ) (M : ℕ) : Prop where
  u0 : 0 < u
  hη : 100 * η ≤ u
  eps0 : 0 < eps
  eps1 : eps ≤ 2 * u
  γ0 : 0 < γ
  hκ : κ ^ 2 + γ ^ 2 + 8 * u ≤ 1
  hγ : γ ≤ 1 - 10 * eps
  hX : 4 * η ≤ u * X
  X0 : 0 ≤ X
  hu : 144 * ((M : ℝ) + 1) ^ 4 * (16 / (5 * γ)) ^ (2 * M) * u ≤ 1
  hu' : u ≤ 1 / 1000

section
variable {rnd : ℝ → ℝ} {u η eps κ γ X : ℝ} {M : ℕ} {k v : ℕ → ℕ → ℝ} {x y z : ℕ → ℝ} {s : ℕ → ℕ → ℝ}

theorem Suffices.γ1 (h : Suffices u η eps κ γ X M) : γ ≤ 1 := by have := h.hγ; have := h.eps0; linarith

theorem Suffices.P3 (h : Suffices u η eps κ γ X M) : 16 / 5 ≤ 16 / (5 * γ) := by
  have := h.γ0
  have := h.γ1
  apply div_le_div_of_nonneg_left <;> linarith

/-- What the theorems use of a response. -/
theorem Response.run (hr : Accurate rnd u η) (h : Suffices u η eps κ γ X M) (hk : ∀ n i, i < M → |k n i| ≤ κ)
    (hs : Response rnd eps M k v x s y) : ∃ c f : ℕ → ℕ → ℝ,
      Run (18 * u) (3 * u * X ^ 2) (103 / 100 / γ) (21 / 10 * u) (u * X) M x s f ∧
      (∀ n i, i < M → γ ≤ c n i ∧ c n i ≤ 1 ∧ |c n i - √(1 - k n i ^ 2)| ≤ 20 * (u / γ)) ∧
      (∀ n i, i < M → |s (n + 1) (i + 1) - (k n i * f n (i + 1) + c n i * s n i)| ≤
        21 / 10 * u * (|k n i| * |f n (i + 1)| + |c n i| * |s n i|) + u * X) ∧
      ∀ n i, i < M → |f n i - (c n i * f n (i + 1) - k n i * s n i)| ≤
        21 / 10 * u * (|c n i| * |f n (i + 1)| + |k n i| * |s n i|) + u * X := by
  obtain ⟨u0, hη, eps0, eps1, γ0, hκ, hγ, hX, X0, hu, hu'⟩ := h
  choose c hc f hf1 hf2 hf3 using hs.update
  have sc := fun n i hi => (hc n i hi).spec hr u0 hu' hη eps0 eps1 γ0 hκ hγ (hk n i hi)
  have er := fun n i hi => (hf2 n i hi).error hr u0.le hu'
  have er1 : ∀ n i, i < M → |s (n + 1) (i + 1) - (k n i * f n (i + 1) + c n i * s n i)| ≤
      21 / 10 * u * (|k n i| * |f n (i + 1)| + |c n i| * |s n i|) + u * X := fun n i hi =>
    (er n i hi).1.trans (by linarith)
  have er2 : ∀ n i, i < M → |f n i - (c n i * f n (i + 1) - k n i * s n i)| ≤
      21 / 10 * u * (|c n i| * |f n (i + 1)| + |k n i| * |s n i|) + u * X := fun n i hi =>
    (er n i hi).2.trans (by linarith)
  have uX : 0 ≤ u * X := by positivity
  have k1 : ∀ n i, i < M → |k n i| ≤ 1 := fun n i hi => by
    refine (hk n i hi).trans ?_
    have := (abs_nonneg _).trans (hk n i hi)
    nlinarith [sq_nonneg γ]
  refine ⟨c, f, ⟨hf1, hf3, ?_, ?_, ?_⟩, fun n i hi => ⟨(sc n i hi).1, (sc n i hi).2.1, (sc n i hi).2.2.2⟩, er1, er2⟩
  · intro n i hi
    have := stage_energy_rounded u0 hu' uX (sc n i hi).2.2.1 (er1 n i hi) (er2 n i hi)
    refine this.trans ?_
    have e : 2 * (2 + 1 / u) * (u * X) ^ 2 = (4 * u + 2) * (u * X ^ 2) := by field_simp; ring
    rw [e]
    have : (4 * u + 2) * (u * X ^ 2) ≤ 3 * (u * X ^ 2) := mul_le_mul_of_nonneg_right (by linarith) (by positivity)
    linarith
  · intro n i hi
    obtain ⟨cγ, c1, _, _⟩ := sc n i hi
    have a0 := er1 n i hi
    have ca : |c n i| = c n i := abs_of_pos (by linarith)
    have a1 : |c n i * s n i| ≤ |s (n + 1) (i + 1)| + |k n i * f n (i + 1)| +
        |s (n + 1) (i + 1) - (k n i * f n (i + 1) + c n i * s n i)| := by
      have t1 := abs_sub (s (n + 1) (i + 1)) (k n i * f n (i + 1))
      have t2 := abs_sub (s (n + 1) (i + 1) - k n i * f n (i + 1)) (s (n + 1) (i + 1) - (k n i * f n (i + 1) + c n i * s n i))
      rw [show s (n + 1) (i + 1) - k n i * f n (i + 1) - (s (n + 1) (i + 1) - (k n i * f n (i + 1) + c n i * s n i)) =
        c n i * s n i by ring] at t2
      linarith
    rw [abs_mul, abs_mul, ca] at a1
    rw [ca] at a0
    have f0 := abs_nonneg (f n (i + 1))
    have a2 := mul_le_mul_of_nonneg_right (k1 n i hi) f0
    have s0 := abs_nonneg (s n i)
    have s0' := abs_nonneg (s (n + 1) (i + 1))
    rw [div_mul_eq_mul_div, le_div_iff₀ γ0]
    have a3 := mul_le_mul_of_nonneg_right cγ s0
    have cs0 : 0 ≤ c n i * |s n i| := mul_nonneg (by linarith) s0
    have kf0 : 0 ≤ |k n i| * |f n (i + 1)| := mul_nonneg (abs_nonneg _) f0
    generalize c n i * |s n i| = p at a0 a1 a3 cs0
    generalize |k n i| * |f n (i + 1)| = q at a0 a1 a2 kf0
    have b1 : u * p ≤ 1 / 1000 * p := mul_le_mul_of_nonneg_right hu' cs0
    have b2 : u * q ≤ 1 / 1000 * q := mul_le_mul_of_nonneg_right hu' kf0
    nlinarith
  · intro n i hi
    obtain ⟨cγ, c1, _, _⟩ := sc n i hi
    have a0 := er2 n i hi
    have ca : |c n i| = c n i := abs_of_pos (by linarith)
    have t1 := abs_sub (c n i * f n (i + 1)) (k n i * s n i)
    have t2 := abs_sub_le (f n i) (c n i * f n (i + 1) - k n i * s n i) 0
    rw [sub_zero, sub_zero] at t2
    rw [abs_mul, abs_mul] at t1
    have b1 := mul_le_mul_of_nonneg_right (k1 n i hi) (abs_nonneg (s n i))
    have b2 := mul_le_mul_of_nonneg_right (by rw [ca]; exact c1 : |c n i| ≤ 1) (abs_nonneg (f n (i + 1)))
    have b3 : |c n i| * |f n (i + 1)| + |k n i| * |s n i| ≤ |f n (i + 1)| + |s n i| := by linarith
    have b4 := mul_le_mul_of_nonneg_left b3 (by positivity : 0 ≤ 21 / 10 * u)
    linarith

theorem Suffices.condition (h : Suffices u η eps κ γ X M) :
    4 * ((M : ℝ) + 1) ^ 2 * (16 / (5 * γ)) ^ (2 * M) * (((1 + 18 * u) ^ M) ^ (M + 1) - 1) ≤ 1 ∧
      (1 + 18 * u) ^ M ≤ 2 ∧ ((M : ℝ) + 1) * u ≤ 1 / 144 := by
  have hu := h.hu
  have u0 := h.u0
  have P3 := h.P3
  have hPM : (1 : ℝ) ≤ (16 / (5 * γ)) ^ (2 * M) := one_le_pow₀ (by linarith)
  generalize (16 / (5 * γ)) ^ (2 * M) = Q at hu hPM
  have hM0 : (0 : ℝ) ≤ M := Nat.cast_nonneg M
  have hM1 : (1 : ℝ) ≤ M + 1 := by linarith
  have hM2 : ((M : ℝ) + 1) ≤ (M + 1) ^ 2 := by nlinarith
  have hM4 : ((M : ℝ) + 1) ^ 2 ≤ (M + 1) ^ 4 := pow_le_pow_right₀ hM1 (by norm_num)
  have q1 : 144 * (((M : ℝ) + 1) ^ 4 * u) ≤ 1 := by
    have : ((M : ℝ) + 1) ^ 4 * u * 1 ≤ ((M : ℝ) + 1) ^ 4 * u * Q := mul_le_mul_of_nonneg_left hPM (by positivity)
    linarith
  have q2 : 144 * (((M : ℝ) + 1) ^ 2 * u) ≤ 1 := by
    have := mul_le_mul_of_nonneg_right hM4 u0.le
    linarith
  have hm : ((M * (M + 1) : ℕ) : ℝ) ≤ ((M : ℝ) + 1) ^ 2 := by push_cast; nlinarith
  have hmu := mul_le_mul_of_nonneg_right hm u0.le
  have q3 : ((M : ℝ) + 1) * u ≤ ((M : ℝ) + 1) ^ 2 * u := mul_le_mul_of_nonneg_right hM2 u0.le
  refine ⟨?_, ?_, by linarith⟩
  · rw [← pow_mul]
    have := pow_linear (x := 18 * u) (by positivity) (M * (M + 1)) (by linarith)
    calc 4 * ((M : ℝ) + 1) ^ 2 * Q * ((1 + 18 * u) ^ (M * (M + 1)) - 1)
        ≤ 4 * ((M : ℝ) + 1) ^ 2 * Q * (36 * (((M : ℝ) + 1) ^ 2 * u)) :=
          mul_le_mul_of_nonneg_left (by linarith) (by positivity)
      _ = 144 * ((M : ℝ) + 1) ^ 4 * Q * u := by ring
      _ ≤ 1 := hu
  · have hMu : (M : ℝ) * u ≤ ((M : ℝ) + 1) * u := by nlinarith
    have := pow_linear (x := 18 * u) (by positivity) M (by linarith)
    linarith

theorem Run.bounded {f : ℕ → ℕ → ℝ} (h : Suffices u η eps κ γ X M)
    (hrun : Run (18 * u) (3 * u * X ^ 2) (103 / 100 / γ) (21 / 10 * u) (u * X) M x s f) (hx : ∀ n, |x n| ≤ X)
    (h0 : ∀ i, s 0 i = 0) (n : ℕ) :
    energy (M + 1) (s n) ≤ 40 * ((M : ℝ) + 1) ^ 3 * (16 / (5 * γ)) ^ (2 * M) * X ^ 2 := by
  have u0 := h.u0
  have γ0 := h.γ0
  have γ1 := h.γ1
  have X0 := h.X0
  have hu' := h.hu'
  have P3 := h.P3
  obtain ⟨c1, _, c3⟩ := h.condition
  have hL : 1 ≤ 103 / 100 / γ := by rw [le_div_iff₀ γ0]; linarith
  have hP : (1 + 21 / 10 * u) * (1 + 2 * (103 / 100 / γ)) ≤ 16 / (5 * γ) := by
    have e1 : 1 + 2 * (103 / 100 / γ) ≤ 306 / 100 / γ := by
      rw [le_div_iff₀ γ0]
      have : (1 + 2 * (103 / 100 / γ)) * γ = γ + 206 / 100 := by field_simp; ring
      linarith
    have e2 : (1 + 21 / 10 * u) * (1 + 2 * (103 / 100 / γ)) ≤ 101 / 100 * (306 / 100 / γ) :=
      mul_le_mul (by linarith) e1 (by positivity) (by norm_num)
    refine e2.trans ?_
    rw [← mul_div_assoc, div_le_div_iff₀ γ0 (by positivity)]
    nlinarith
  have hb := run_bounded hrun (X := X) (Y := X) hL (by positivity) (by positivity) (by positivity) (by positivity)
    (by nlinarith) le_rfl hx hP c1 (by simp [energy, h0]) n
  refine hb.trans ?_
  have e : 10 * ((M : ℝ) + 1) ^ 3 * (16 / (5 * γ)) ^ (2 * M) * (2 * (X ^ 2 + M * (3 * u * X ^ 2)) + X ^ 2) =
      10 * ((M : ℝ) + 1) ^ 3 * (16 / (5 * γ)) ^ (2 * M) * (X ^ 2 * (3 + 6 * (M * u))) := by ring
  have e' : 40 * ((M : ℝ) + 1) ^ 3 * (16 / (5 * γ)) ^ (2 * M) * X ^ 2 =
      10 * ((M : ℝ) + 1) ^ 3 * (16 / (5 * γ)) ^ (2 * M) * (X ^ 2 * 4) := by ring
  rw [e, e']
  apply mul_le_mul_of_nonneg_left _ (by positivity)
  apply mul_le_mul_of_nonneg_left _ (by positivity)
  nlinarith

/-- **C107**: the state stays bounded for ever, in the machine's arithmetic. -/
theorem C107_bounded (hr : Accurate rnd u η) (h : Suffices u η eps κ γ X M) (hk : ∀ n i, i < M → |k n i| ≤ κ)
    (hx : ∀ n, |x n| ≤ X) (hs : Response rnd eps M k v x s y) (n : ℕ) :
    ∑ m ∈ range (M + 1), s n m ^ 2 ≤ 40 * ((M : ℝ) + 1) ^ 3 * (16 / (5 * γ)) ^ (2 * M) * X ^ 2 := by
  obtain ⟨c, f, hrun, _⟩ := hs.run hr h hk
  exact Run.bounded h hrun hx hs.start n

/-- All signals are bounded. -/
theorem Run.signals {f : ℕ → ℕ → ℝ} (h : Suffices u η eps κ γ X M)
    (hrun : Run (18 * u) (3 * u * X ^ 2) (103 / 100 / γ) (21 / 10 * u) (u * X) M x s f) (hx : ∀ n, |x n| ≤ X)
    (h0 : ∀ i, s 0 i = 0) (n i : ℕ) (hi : i ≤ M) :
    |s n i| ≤ 10 * ((M : ℝ) + 1) ^ 2 * (16 / (5 * γ)) ^ M * X ∧
      |f n i| ≤ 10 * ((M : ℝ) + 1) ^ 2 * (16 / (5 * γ)) ^ M * X := by
  have u0 := h.u0
  have X0 := h.X0
  have P3 := h.P3
  obtain ⟨_, c2, c3⟩ := h.condition
  have hb := Run.bounded h hrun hx h0
  have hM0 : (0 : ℝ) ≤ M := Nat.cast_nonneg M
  have hM1 : (1 : ℝ) ≤ M + 1 := by linarith
  have hPM : (1 : ℝ) ≤ (16 / (5 * γ)) ^ (2 * M) := one_le_pow₀ (by linarith)
  obtain ⟨F, hF⟩ : ∃ F, 10 * ((M : ℝ) + 1) ^ 2 * (16 / (5 * γ)) ^ M * X = F := ⟨_, rfl⟩
  have F0 : 0 ≤ F := by rw [← hF]; have := h.γ0; positivity
  have hF2 : F ^ 2 = 100 * (((M : ℝ) + 1) ^ 4 * (16 / (5 * γ)) ^ (2 * M) * X ^ 2) := by
    rw [← hF, pow_mul']; ring
  rw [hF]
  have hM3 : ((M : ℝ) + 1) ^ 3 * (16 / (5 * γ)) ^ (2 * M) * X ^ 2 ≤
      ((M : ℝ) + 1) ^ 4 * (16 / (5 * γ)) ^ (2 * M) * X ^ 2 := by
    have := pow_le_pow_right₀ hM1 (by norm_num : 3 ≤ 4)
    have := mul_le_mul_of_nonneg_right this (by positivity : 0 ≤ (16 / (5 * γ)) ^ (2 * M) * X ^ 2)
    linarith
  have hX1 : X ^ 2 ≤ ((M : ℝ) + 1) ^ 3 * (16 / (5 * γ)) ^ (2 * M) * X ^ 2 := by
    have a1 : (1 : ℝ) ≤ (M + 1) ^ 3 := one_le_pow₀ hM1
    have a2 : 1 ≤ ((M : ℝ) + 1) ^ 3 * (16 / (5 * γ)) ^ (2 * M) := by nlinarith
    nlinarith [sq_nonneg X]
  have hse : ∀ n i, i ≤ M → s n i ^ 2 ≤ 40 * (((M : ℝ) + 1) ^ 3 * (16 / (5 * γ)) ^ (2 * M) * X ^ 2) := by
    intro n i hi
    have := single_le_sum (f := fun m => s n m ^ 2) (s := range (M + 1)) (fun _ _ => sq_nonneg _)
      (mem_range.mpr (by omega : i < M + 1))
    refine this.trans ((hb n).trans (le_of_eq ?_))
    ring
  generalize hq : ((M : ℝ) + 1) ^ 3 * (16 / (5 * γ)) ^ (2 * M) * X ^ 2 = q at *
  have q0 : 0 ≤ q := (sq_nonneg X).trans hX1
  have hq4 : ((M : ℝ) + 1) ^ 4 * (16 / (5 * γ)) ^ (2 * M) * X ^ 2 = (M + 1) * q := by rw [← hq]; ring
  rw [hq4] at hF2 hM3
  constructor
  · apply abs_le_of_sq_le_sq _ F0
    have := hse n i hi
    linarith
  · apply abs_le_of_sq_le_sq _ F0
    have sb := signal_bound hrun (by positivity) (by positivity) (by positivity : 0 ≤ 40 * q) hx
      (fun n i hi => hse n i hi.le) n (M - i) (by omega)
    rw [show M - (M - i) = i by omega] at sb
    have hd : ((M - i : ℕ) : ℝ) ≤ M := by exact_mod_cast Nat.sub_le M i
    have p1 : (1 + 18 * u) ^ (M - i) ≤ 2 := (pow_le_pow_right₀ (by linarith) (Nat.sub_le M i)).trans c2
    have b1 : 3 * u * X ^ 2 ≤ q := by
      have : 3 * u * X ^ 2 ≤ 1 * X ^ 2 := mul_le_mul_of_nonneg_right (by have := h.hu'; linarith) (sq_nonneg X)
      linarith
    have b2 : X ^ 2 + ((M - i : ℕ) : ℝ) * (40 * q + 3 * u * X ^ 2) ≤ (M + 1) * (41 * q) := by
      have : ((M - i : ℕ) : ℝ) * (40 * q + 3 * u * X ^ 2) ≤ M * (41 * q) :=
        mul_le_mul hd (by linarith) (by positivity) hM0
      nlinarith
    have b3 : (1 + 18 * u) ^ (M - i) * (X ^ 2 + ((M - i : ℕ) : ℝ) * (40 * q + 3 * u * X ^ 2)) ≤ 2 * ((M + 1) * (41 * q)) :=
      mul_le_mul p1 b2 (by positivity) (by norm_num)
    have : 0 ≤ ((M : ℝ) + 1) * q := by positivity
    linarith

theorem sum_range_eq_list (n : ℕ) (a : ℕ → ℝ) : ∑ m ∈ range n, a m = ((List.range n).map a).sum := rfl

theorem exactDot_range (M : ℕ) (a b : ℕ → ℝ) :
    exactDot ((List.range (M + 1)).map fun m => (a m, b m)) = ∑ m ∈ range (M + 1), a m * b m := by
  rw [exactDot, List.map_map, sum_range_eq_list]
  rfl

theorem absDot_range (M : ℕ) (a b : ℕ → ℝ) :
    absDot ((List.range (M + 1)).map fun m => (a m, b m)) = ∑ m ∈ range (M + 1), |a m| * |b m| := by
  rw [absDot, List.map_map, sum_range_eq_list]
  simp only [← abs_mul]
  rfl

theorem Response.state_error (hr : Accurate rnd u η) (h : Suffices u η eps κ γ X M) (hk : ∀ n i, i < M → |k n i| ≤ κ)
    (hx : ∀ n, |x n| ≤ X) (hs : Response rnd eps M k v x s y) {t g : ℕ → ℕ → ℝ} (t0 : ∀ i, t 0 i = 0)
    (g1 : ∀ n, g n M = x n)
    (t1 : ∀ n i, i < M → t (n + 1) (i + 1) = k n i * g n (i + 1) + √(1 - k n i ^ 2) * t n i)
    (g2 : ∀ n i, i < M → g n i = √(1 - k n i ^ 2) * g n (i + 1) - k n i * t n i)
    (t2 : ∀ n, t (n + 1) 0 = g n 0) (n m : ℕ) (hm : m ≤ M) :
    |s n m| ≤ 10 * ((M : ℝ) + 1) ^ 2 * (16 / (5 * γ)) ^ M * X ∧
    |s n m - t n m| ≤ 26 * ((M : ℝ) + 1) ^ 4 * (16 / (5 * γ)) ^ (2 * M) *
      (26 * (u / γ) * (10 * ((M : ℝ) + 1) ^ 2 * (16 / (5 * γ)) ^ M * X)) := by
  obtain ⟨c, f, hrun, hc, e1, e2⟩ := hs.run hr h hk
  have u0 := h.u0
  have γ0 := h.γ0
  have γ1 := h.γ1
  have X0 := h.X0
  have hu' := h.hu'
  have P3 := h.P3
  obtain ⟨_, _, c3⟩ := h.condition
  have sig := Run.signals h hrun hx hs.start
  have hM0 : (0 : ℝ) ≤ M := Nat.cast_nonneg M
  have hM1 : (1 : ℝ) ≤ M + 1 := by linarith
  have hPM : (1 : ℝ) ≤ (16 / (5 * γ)) ^ M := one_le_pow₀ (by linarith)
  obtain ⟨F, hF⟩ : ∃ F, 10 * ((M : ℝ) + 1) ^ 2 * (16 / (5 * γ)) ^ M * X = F := ⟨_, rfl⟩
  rw [hF] at sig ⊢
  have F0 : 0 ≤ F := by rw [← hF]; positivity
  have XF : 10 * X ≤ F := by
    have : (1 : ℝ) ≤ (M + 1) ^ 2 * (16 / (5 * γ)) ^ M := by
      have : (1 : ℝ) ≤ (M + 1) ^ 2 := one_le_pow₀ hM1
      nlinarith
    rw [← hF]; nlinarith
  have kle : ∀ n i, i < M → |k n i| ≤ 1 := fun n i hi => by
    refine (hk n i hi).trans ?_
    have := (abs_nonneg _).trans (hk n i hi)
    have := h.hκ
    nlinarith [sq_nonneg γ]
  have huγ : u ≤ u / γ := by rw [le_div_iff₀ γ0]; nlinarith
  obtain ⟨D, hD⟩ : ∃ D, 26 * (u / γ) * F = D := ⟨_, rfl⟩
  have D0 : 0 ≤ D := by rw [← hD]; positivity
  have small : ∀ p q w d a b : ℝ, |p| ≤ 1 → |q| ≤ 1 → |a| ≤ F → |b| ≤ F → |w| ≤ F → |d| ≤ 20 * (u / γ) →
      21 / 10 * u * (|p| * |a| + |q| * |b|) + u * X + |d * w| ≤ D := by
    intro p q w d a b hp hq ha hb hw hd
    have m1 : |p| * |a| ≤ 1 * F := mul_le_mul hp ha (abs_nonneg _) (by norm_num)
    have m2 : |q| * |b| ≤ 1 * F := mul_le_mul hq hb (abs_nonneg _) (by norm_num)
    have m3 : |d * w| ≤ 20 * (u / γ) * F := by
      rw [abs_mul]; exact mul_le_mul hd hw (abs_nonneg _) (by positivity)
    have m4 : 21 / 10 * u * (|p| * |a| + |q| * |b|) ≤ 21 / 10 * u * (2 * F) :=
      mul_le_mul_of_nonneg_left (by linarith) (by positivity)
    have m5 : u * (10 * X) ≤ u * F := mul_le_mul_of_nonneg_left XF u0.le
    have m6 : u * F ≤ u / γ * F := mul_le_mul_of_nonneg_right huγ F0
    rw [← hD]
    nlinarith
  have hw : ∀ n i, i < M → γ ≤ √(1 - k n i ^ 2) ∧ k n i ^ 2 + √(1 - k n i ^ 2) ^ 2 ≤ 1 := by
    intro n i hi
    have h1 : k n i ^ 2 ≤ κ ^ 2 := by rw [← sq_abs (k n i)]; exact pow_le_pow_left₀ (abs_nonneg _) (hk n i hi) 2
    have h2 := h.hκ
    refine ⟨Real.le_sqrt_of_sq_le (by linarith), ?_⟩
    rw [Real.sq_sqrt (by nlinarith [sq_nonneg γ])]
    linarith
  have hP : 3 / γ ≤ 16 / (5 * γ) := by
    rw [div_le_div_iff₀ γ0 (by positivity)]; nlinarith
  have err := perturbed_bounded (s := fun n i => s n i - t n i) (f := fun n i => f n i - g n i) γ0 γ1 D0
    (fun n i hi => (hw n i hi).2) (fun n i hi => (hw n i hi).1) hP
    (fun n => by simp [hrun.top, g1]) (fun n => by simp [hrun.bottom, t2]) (fun i => by simp [hs.start, t0])
    (fun n i hi => by
      obtain ⟨c1, c2, c3⟩ := hc n i hi
      have a1 := e1 n i hi
      have a2 := small (k n i) (c n i) (s n i) (c n i - √(1 - k n i ^ 2)) (f n (i + 1)) (s n i) (kle n i hi)
        (by rw [abs_of_pos (by linarith)]; exact c2) (sig n (i + 1) hi).2 (sig n i hi.le).1 (sig n i hi.le).1 c3
      have e : s (n + 1) (i + 1) - t (n + 1) (i + 1) -
          (k n i * (f n (i + 1) - g n (i + 1)) + √(1 - k n i ^ 2) * (s n i - t n i)) =
          (s (n + 1) (i + 1) - (k n i * f n (i + 1) + c n i * s n i)) + (c n i - √(1 - k n i ^ 2)) * s n i := by
        rw [t1 n i hi]; ring
      rw [e]
      exact (abs_add_le _ _).trans (by linarith))
    (fun n i hi => by
      obtain ⟨c1, c2, c3⟩ := hc n i hi
      have a1 := e2 n i hi
      have a2 := small (c n i) (k n i) (f n (i + 1)) (c n i - √(1 - k n i ^ 2)) (f n (i + 1)) (s n i)
        (by rw [abs_of_pos (by linarith)]; exact c2) (kle n i hi) (sig n (i + 1) hi).2 (sig n i hi.le).1
        (sig n (i + 1) hi).2 c3
      have e : f n i - g n i - (√(1 - k n i ^ 2) * (f n (i + 1) - g n (i + 1)) - k n i * (s n i - t n i)) =
          (f n i - (c n i * f n (i + 1) - k n i * s n i)) + (c n i - √(1 - k n i ^ 2)) * f n (i + 1) := by
        rw [g2 n i hi]; ring
      rw [e]
      exact (abs_add_le _ _).trans (by linarith))
  rw [hD]
  refine ⟨(sig n m hm).1, ?_⟩
  apply abs_le_of_sq_le_sq _ (by positivity)
  have := single_le_sum (f := fun m => (s n m - t n m) ^ 2) (s := range (M + 1)) (fun _ _ => sq_nonneg _)
    (mem_range.mpr (by omega : m < M + 1))
  refine this.trans ((err n).trans ?_)
  have : (26 * ((M : ℝ) + 1) ^ 4 * (16 / (5 * γ)) ^ (2 * M) * D) ^ 2 =
      676 * (((M : ℝ) + 1) ^ 8 * (16 / (5 * γ)) ^ (4 * M) * D ^ 2) := by
    rw [show 4 * M = 2 * M + 2 * M by ring, pow_add (16 / (5 * γ))]; ring
  rw [this]
  have : 0 ≤ ((M : ℝ) + 1) ^ 8 * (16 / (5 * γ)) ^ (4 * M) * D ^ 2 := by positivity
  linarith

theorem dotBound_le (hr : Accurate rnd u η) (h : Suffices u η eps κ γ X M) {A B : ℝ} (A0 : 0 ≤ A) (o3 : A ≤ B) :
    dotBound u η (M + 1) A ≤ 4 * ((M : ℝ) + 1) * u * B + (M + 1) * (u * X) := by
  have u0 := h.u0
  have hu' := h.hu'
  obtain ⟨_, _, c3⟩ := h.condition
  have hM0 : (0 : ℝ) ≤ M := Nat.cast_nonneg M
  unfold dotBound
  have η0 := hr.eta_nonneg
  have hpl := pow_linear (x := u) u0.le (M + 1 + 1) (by push_cast; nlinarith)
  push_cast at hpl ⊢
  have p1 : (1 + u) ^ (M + 1 + 1) - 1 ≤ 4 * ((M : ℝ) + 1) * u := by nlinarith
  have p2 : (1 + u) ^ (M + 1 + 1) ≤ 4 / 3 := by nlinarith
  have a1 : ((1 + u) ^ (M + 1 + 1) - 1) * A ≤
      4 * ((M : ℝ) + 1) * u * B :=
    mul_le_mul p1 o3 A0 (by positivity)
  have a2 : (2 * ((M : ℝ) + 1) + 1) * η * (1 + u) ^ (M + 1 + 1) ≤ (M + 1) * (u * X) := by
    have b1 : (2 * ((M : ℝ) + 1) + 1) * η ≤ 3 * (M + 1) * η := mul_le_mul_of_nonneg_right (by linarith) η0
    have b2 : (2 * ((M : ℝ) + 1) + 1) * η * (1 + u) ^ (M + 1 + 1) ≤ 3 * (M + 1) * η * (4 / 3) :=
      mul_le_mul b1 p2 (by positivity) (by positivity)
    have b3 := mul_le_mul_of_nonneg_left h.hX (by linarith : (0 : ℝ) ≤ M + 1)
    linarith
  linarith

theorem total_le (h : Suffices u η eps κ γ X M) {V : ℝ} (V0 : 0 ≤ V) :
    4 * ((M : ℝ) + 1) * u * (10 * ((M : ℝ) + 1) ^ 2 * (16 / (5 * γ)) ^ M * X * V) +
      26 * ((M : ℝ) + 1) ^ 4 * (16 / (5 * γ)) ^ (2 * M) * (26 * (u / γ) * (10 * ((M : ℝ) + 1) ^ 2 * (16 / (5 * γ)) ^ M * X)) * V ≤
      7000 * ((M : ℝ) + 1) ^ 6 * (16 / (5 * γ)) ^ (3 * M) / γ * V * (u * X) := by
  have u0 := h.u0
  have γ0 := h.γ0
  have γ1 := h.γ1
  have X0 := h.X0
  have P3 := h.P3
  have hM0 : (0 : ℝ) ≤ M := Nat.cast_nonneg M
  have hM1 : (1 : ℝ) ≤ M + 1 := by linarith
  have huγ : u ≤ u / γ := by rw [le_div_iff₀ γ0]; nlinarith
  have b1 : 26 * ((M : ℝ) + 1) ^ 4 * (16 / (5 * γ)) ^ (2 * M) * (26 * (u / γ) * (10 * ((M : ℝ) + 1) ^ 2 * (16 / (5 * γ)) ^ M * X)) * V =
      6760 * (((M : ℝ) + 1) ^ 6 * (16 / (5 * γ)) ^ (3 * M) * (u / γ) * (V * X)) := by
    rw [show 3 * M = 2 * M + M by ring, pow_add (16 / (5 * γ)) (2 * M) M]; ring
  have b2 : 4 * ((M : ℝ) + 1) * u * (10 * ((M : ℝ) + 1) ^ 2 * (16 / (5 * γ)) ^ M * X * V) =
      40 * (((M : ℝ) + 1) ^ 3 * (16 / (5 * γ)) ^ M * u * (V * X)) := by ring
  have b3 : ((M : ℝ) + 1) ^ 3 * (16 / (5 * γ)) ^ M * u * (V * X) ≤
      ((M : ℝ) + 1) ^ 6 * (16 / (5 * γ)) ^ (3 * M) * (u / γ) * (V * X) := by
    apply mul_le_mul_of_nonneg_right _ (by positivity)
    apply mul_le_mul _ huγ u0.le (by positivity)
    apply mul_le_mul (pow_le_pow_right₀ hM1 (by norm_num)) (pow_le_pow_right₀ (by linarith) (by omega)) (by positivity)
      (by positivity)
  have b4 : 7000 * ((M : ℝ) + 1) ^ 6 * (16 / (5 * γ)) ^ (3 * M) / γ * V * (u * X) =
      7000 * (((M : ℝ) + 1) ^ 6 * (16 / (5 * γ)) ^ (3 * M) * (u / γ) * (V * X)) := by ring
  have b5 : 0 ≤ ((M : ℝ) + 1) ^ 6 * (16 / (5 * γ)) ^ (3 * M) * (u / γ) * (V * X) := by positivity
  rw [b1, b2, b4]
  linarith

/-- **C107**: the output differs from that of the ideal filter by a bounded multiple of the precision, for ever. -/
theorem C107_accuracy (hr : Accurate rnd u η) (h : Suffices u η eps κ γ X M) (hk : ∀ n i, i < M → |k n i| ≤ κ)
    (hx : ∀ n, |x n| ≤ X) (hs : Response rnd eps M k v x s y) (hz : Ideal M k v x z) (n : ℕ) :
    |y n - z n| ≤ 7000 * ((M : ℝ) + 1) ^ 6 * (16 / (5 * γ)) ^ (3 * M) / γ * (∑ m ∈ range (M + 1), |v n m|) * (u * X) +
      (M + 1) * (u * X) := by
  obtain ⟨t, g, t0, g1, t1, g2, t2, hz⟩ := hz
  have u0 := h.u0
  have es := fun m hm => (hs.state_error hr h hk hx t0 g1 t1 g2 t2 (n + 1) m hm).2
  have sig := fun m hm => (hs.state_error hr h hk hx t0 g1 t1 g2 t2 (n + 1) m hm).1
  -- the error of the output
  obtain ⟨V, hV⟩ : ∃ V, ∑ m ∈ range (M + 1), |v n m| = V := ⟨_, rfl⟩
  have V0 : 0 ≤ V := by rw [← hV]; exact sum_nonneg fun _ _ => abs_nonneg _
  have o1 : |∑ m ∈ range (M + 1), s (n + 1) m * v n m - z n| ≤ 26 * ((M : ℝ) + 1) ^ 4 * (16 / (5 * γ)) ^ (2 * M) *
      (26 * (u / γ) * (10 * ((M : ℝ) + 1) ^ 2 * (16 / (5 * γ)) ^ M * X)) * V := by
    rw [hz, ← sum_sub_distrib, ← hV, mul_sum]
    refine (abs_sum_le_sum_abs _ _).trans (sum_le_sum fun m hm => ?_)
    rw [← sub_mul, abs_mul]
    exact mul_le_mul_of_nonneg_right (es m (by have := mem_range.mp hm; omega)) (abs_nonneg _)
  obtain ⟨d, r, hd, hn, hdot⟩ := hs.output n
  have o2 := hdot.bound hr u0.le hd (by omega)
  rw [exactDot_range, absDot_range] at o2
  simp only [List.length_map, List.length_range] at o2
  have o3 : ∑ m ∈ range (M + 1), |s (n + 1) m| * |v n m| ≤ 10 * ((M : ℝ) + 1) ^ 2 * (16 / (5 * γ)) ^ M * X * V := by
    rw [← hV, mul_sum]
    exact sum_le_sum fun m hm =>
      mul_le_mul_of_nonneg_right (sig m (by have := mem_range.mp hm; omega)) (abs_nonneg _)
  have o4 := dotBound_le hr h (sum_nonneg fun _ _ => by positivity) o3
  have o5 := total_le h V0
  have tri := abs_sub_le (y n) (∑ m ∈ range (M + 1), s (n + 1) m * v n m) (z n)
  rw [hV]
  linarith

end

/-! ### The premises can be met -/

/-- `stage_input` after `d` stages, one rounding per operation. -/
noncomputable def stageInput (rnd : ℝ → ℝ) (M : ℕ) (k c st : ℕ → ℝ) (x : ℝ) : ℕ → ℝ
  | 0 => x
  | d + 1 => rnd (rnd (c (M - (d + 1)) * stageInput rnd M k c st x d) + rnd (-k (M - (d + 1)) * st (M - (d + 1))))

theorem update_exists (rnd : ℝ → ℝ) (M : ℕ) (k c st : ℕ → ℝ) (x : ℝ) : ∃ st', Update rnd M k c st x st' := by
  refine ⟨fun j => match j with
    | 0 => stageInput rnd M k c st x M
    | i + 1 => rnd (rnd (k i * stageInput rnd M k c st x (M - (i + 1))) + rnd (c i * st i)),
    fun i => stageInput rnd M k c st x (M - i), by simp [stageInput], fun i hi => ⟨Or.inl rfl, Or.inl ?_⟩, by simp⟩
  have e : M - i = (M - (i + 1)) + 1 := by omega
  simp only
  rw [e, stageInput, show M - (M - (i + 1) + 1) = i by omega]

/-- Every input has a response, whatever the rounding. -/
theorem response_exists (rnd : ℝ → ℝ) (eps : ℝ) (M : ℕ) (k v : ℕ → ℕ → ℝ) (x : ℕ → ℝ) :
    ∃ s y, Response rnd eps M k v x s y := by
  have hc : ∀ n i, ∃ c, IsScattering rnd eps (k n i) c := fun n i => ⟨_, _, Or.inl rfl, rfl⟩
  choose c hc using hc
  have hu : ∀ (n : ℕ) (st : ℕ → ℝ), ∃ st', Update rnd M (k n) (c n) st (x n) st' := fun n st => update_exists rnd M _ _ _ _
  choose g hg using hu
  let s : ℕ → ℕ → ℝ := fun n => Nat.rec (fun _ => 0) (fun n st => g n st) n
  exact ⟨s, _, ⟨fun _ => rfl, fun n => ⟨c n, fun i _ => hc n i, hg n (s n)⟩, fun n => foldl_machine _⟩⟩

theorem ideal_exists (M : ℕ) (k v : ℕ → ℕ → ℝ) (x : ℕ → ℝ) : ∃ z, Ideal M k v x z := by
  have hs := fun n => Ladder.stageLoop_spec (k n) (fun i => √(1 - k n i ^ 2)) M
    (Ladder.states M k (fun n i => √(1 - k n i ^ 2)) x n) (x n)
  choose f a b c d _ using hs
  exact ⟨_, Ladder.states M k (fun n i => √(1 - k n i ^ 2)) x, f, fun _ => rfl, a, d, b, c, fun n => rfl⟩

/-- `float`, order two, reflection coefficients up to 0.8, input up to 1. -/
theorem suffices_float : Suffices (1 / 2 ^ 24) (1 / 2 ^ 150) (1 / 2 ^ 23) (4 / 5) (59 / 100) 1 2 := by
  constructor <;> norm_num

/-- `double`, order eight, reflection coefficients up to 0.6, input up to 2^15. -/
theorem suffices_double : Suffices (1 / 2 ^ 53) (1 / 2 ^ 1075) (1 / 2 ^ 52) (3 / 5) (79 / 100) (2 ^ 15) 8 := by
  have e : (1 : ℝ) / 2 ^ 1075 ≤ 1 / 2 ^ 100 :=
    one_div_le_one_div_of_le (by norm_num) (pow_le_pow_right₀ (by norm_num) (by norm_num))
  refine ⟨by norm_num, ?_, by norm_num, by norm_num, by norm_num, by norm_num, by norm_num, ?_, by norm_num, by norm_num,
    by norm_num⟩
  · refine (mul_le_mul_of_nonneg_left e (by norm_num)).trans ?_
    norm_num
  · refine (mul_le_mul_of_nonneg_left e (by norm_num)).trans ?_
    norm_num

/-- A response in `float` with coefficients that jump at every sample. -/
example (x : ℕ → ℝ) (hx : ∀ n, |x n| ≤ 1) : ∃ s y z,
    Response binary32 (1 / 2 ^ 23) 2 (fun n i => if (n + i) % 2 = 0 then 4 / 5 else -1 / 2) (fun _ _ => 1) x s y ∧
    Ideal 2 (fun n i => if (n + i) % 2 = 0 then 4 / 5 else -1 / 2) (fun _ _ => 1) x z ∧
    ∀ n, ∑ m ∈ range 3, s n m ^ 2 ≤ 40 * 27 * (320 / 59) ^ 4 := by
  obtain ⟨s, y, h⟩ := response_exists binary32 (1 / 2 ^ 23) 2
    (fun n i => if (n + i) % 2 = 0 then 4 / 5 else -1 / 2) (fun _ _ => 1) x
  obtain ⟨z, hz⟩ := ideal_exists 2 (fun n i => if (n + i) % 2 = 0 then 4 / 5 else -1 / 2) (fun _ _ => 1) x
  refine ⟨s, y, z, h, hz, fun n => ?_⟩
  have := C107_bounded binary32_accurate suffices_float (fun n i _ => by
    split
    · rw [abs_of_pos] <;> norm_num
    · rw [abs_of_neg] <;> norm_num) hx h n
  norm_num at this ⊢
  exact this

end Verif.FloatLadder
