import Verif.Model.FloatLadder
import Verif.Proof.LadderBibo
import Verif.Proof.Rounding
import Verif.Proof.FloatResampler

/-!
# Lemmas about the ladder filter in floating point
-/

namespace Verif.FloatLadder
open Finset Verif.Rounding Verif.FloatResampler Verif.Ladder

/-- `(1 + x)^m` grows linearly as long as the exponent is small. -/
theorem pow_linear {x : ℝ} (x0 : 0 ≤ x) : ∀ m : ℕ, 2 * (m * x) ≤ 1 → (1 + x) ^ m ≤ 1 + 2 * (m * x)
  | 0, _ => by simp
  | m + 1, h => by
    have hm : (0 : ℝ) ≤ m := Nat.cast_nonneg m
    push_cast at h ⊢
    have ih := pow_linear x0 m (by nlinarith)
    rw [pow_succ]
    have := mul_le_mul_of_nonneg_right ih (by linarith : 0 ≤ 1 + x)
    nlinarith [mul_nonneg hm x0]

section
variable {rnd : ℝ → ℝ} {u η eps κ γ : ℝ}

theorem sqrt_sub_abs {a b g : ℝ} (g0 : 0 < g) (ha : g ^ 2 ≤ a) (hb : g ^ 2 ≤ b) : |√a - √b| ≤ |a - b| / (2 * g) := by
  have a0 : 0 ≤ a := (sq_nonneg g).trans ha
  have b0 : 0 ≤ b := (sq_nonneg g).trans hb
  have h1 : g ≤ √a := Real.le_sqrt_of_sq_le ha
  have h2 : g ≤ √b := Real.le_sqrt_of_sq_le hb
  have e : a - b = (√a - √b) * (√a + √b) := by
    have := Real.sq_sqrt a0; have := Real.sq_sqrt b0; nlinarith
  rw [le_div_iff₀ (by linarith), e, abs_mul, abs_of_pos (by linarith : 0 < √a + √b)]
  exact mul_le_mul_of_nonneg_left (by linarith) (abs_nonneg _)

theorem root_lower {r z : ℝ} (u0 : 0 < u) (u1 : u ≤ 1 / 1000) (η0 : 0 ≤ η) (hη : 100 * η ≤ u) (γ0 : 0 < γ) (γ1 : γ ≤ 1)
    (r0 : 0 ≤ r) (r1 : r ≤ 101 / 100) (hr : γ ^ 2 + 49 / 10 * u ≤ r ^ 2) (hz : -(u * r + η) ≤ z - r) : γ ≤ z := by
  by_contra hlt
  push Not at hlt
  have a1 : r * (1 - u) ≤ γ + η := by linarith
  have a2 : (r * (1 - u)) ^ 2 ≤ (γ + η) ^ 2 := pow_le_pow_left₀ (mul_nonneg r0 (by linarith)) a1 2
  have r2 : r ^ 2 ≤ 103 / 100 := by nlinarith
  have a4 : r ^ 2 - 206 / 100 * u ≤ (r * (1 - u)) ^ 2 := by
    have e : (r * (1 - u)) ^ 2 = r ^ 2 - 2 * (u * r ^ 2) + r ^ 2 * u ^ 2 := by ring
    have b1 := mul_le_mul_of_nonneg_left r2 u0.le
    have b2 : 0 ≤ r ^ 2 * u ^ 2 := by positivity
    rw [e]; linarith
  have a5 : (γ + η) ^ 2 ≤ γ ^ 2 + 3 * η := by
    have b1 : γ * η ≤ η := by nlinarith
    have b2 : η ^ 2 ≤ η := by nlinarith
    nlinarith
  linarith

theorem root_upper {r z : ℝ} (u0 : 0 ≤ u) (u1 : u ≤ 1 / 1000) (η0 : 0 ≤ η) (hη : 100 * η ≤ u)
    (r0 : 0 ≤ r) (r1 : r ≤ 101 / 100) (z0 : 0 ≤ z) (hz : z - r ≤ u * r + η) : z ^ 2 ≤ r ^ 2 + 23 / 10 * u := by
  have a1 : z ≤ r + (u * r + η) := by linarith
  have a2 : z ^ 2 ≤ (r + (u * r + η)) ^ 2 := pow_le_pow_left₀ z0 a1 2
  have b1 : u * r + η ≤ 102 / 100 * u := by nlinarith
  have b0 : 0 ≤ u * r + η := by positivity
  generalize u * r + η = d at a2 b1 b0
  have c1 : r * d ≤ 101 / 100 * (102 / 100 * u) := mul_le_mul r1 b1 b0 (by norm_num)
  have c2 : d ^ 2 ≤ 1 / 100 * u := by nlinarith
  nlinarith

/-- The computed scattering coefficient. -/
theorem IsScattering.spec (h : Accurate rnd u η) (u0 : 0 < u) (u1 : u ≤ 1 / 1000) (hη : 100 * η ≤ u) (e0 : 0 < eps)
    (e1 : eps ≤ 2 * u) (γ0 : 0 < γ) (hγ : κ ^ 2 + γ ^ 2 + 8 * u ≤ 1) (hγ1 : γ ≤ 1 - 10 * eps) {k c : ℝ} (hk : |k| ≤ κ)
    (hc : IsScattering rnd eps k c) :
    γ ≤ c ∧ c ≤ 1 ∧ k ^ 2 + c ^ 2 ≤ 1 + 6 * u ∧ |c - √(1 - k ^ 2)| ≤ 20 * (u / γ) := by
  obtain ⟨t, ht, rfl⟩ := hc
  have η0 := h.eta_nonneg
  have γ1 : γ ≤ 1 := by linarith
  have hk2 : k ^ 2 ≤ κ ^ 2 := by rw [← sq_abs k]; exact pow_le_pow_left₀ (abs_nonneg k) hk 2
  have hkk : k ^ 2 ≤ 1 := by nlinarith
  have k0 := sq_nonneg k
  -- the argument of the square root
  have et : |t - (1 - k ^ 2)| ≤ 31 / 10 * u := by
    have := ht.error h u0.le
    rw [show -k * k = -(k ^ 2) by ring, abs_neg, abs_of_nonneg k0, abs_one] at this
    rw [show t - (1 - k ^ 2) = t - (-k ^ 2 + 1) by ring]
    refine this.trans ?_
    have a1 : (2 * u + u ^ 2) * k ^ 2 ≤ 2 * u + u ^ 2 := by nlinarith [sq_nonneg u]
    nlinarith
  have et' := abs_le.mp et
  have ht1 : γ ^ 2 + 49 / 10 * u ≤ t := by linarith
  have ht2 : t ≤ 1 - k ^ 2 + 31 / 10 * u := by linarith
  have ht0 : 0 ≤ t := by nlinarith [sq_nonneg γ]
  obtain ⟨r, hr⟩ : ∃ r, √t = r := ⟨_, rfl⟩
  have r0 : 0 ≤ r := hr ▸ Real.sqrt_nonneg t
  have rr : r ^ 2 = t := hr ▸ Real.sq_sqrt ht0
  rw [hr]
  have r1 : r ≤ 101 / 100 := by nlinarith
  obtain ⟨z, hz⟩ : ∃ z, rnd r = z := ⟨_, rfl⟩
  have ez := h r
  rw [hz, abs_of_nonneg r0] at ez
  rw [hz]
  have ez' := abs_le.mp ez
  have zγ : γ ≤ z := root_lower u0 u1 η0 hη γ0 γ1 r0 r1 (rr.symm ▸ ht1) ez'.1
  have zz' := root_upper u0.le u1 η0 hη r0 r1 (by linarith : 0 ≤ z) ez'.2
  have zz : k ^ 2 + z ^ 2 ≤ 1 + 54 / 10 * u := by rw [rr] at zz'; linarith
  have hw : γ ^ 2 ≤ 1 - k ^ 2 := by linarith
  unfold force
  have hu : u ≤ u / γ := by rw [le_div_iff₀ γ0]; nlinarith
  by_cases hlt : |z| < 1
  · rw [if_pos hlt]
    refine ⟨zγ, (le_abs_self z).trans hlt.le, by linarith, ?_⟩
    have a1 := sqrt_sub_abs γ0 (by linarith : γ ^ 2 ≤ t) hw
    rw [hr] at a1
    have a2 : |t - (1 - k ^ 2)| / (2 * γ) ≤ 31 / 20 * (u / γ) := by
      rw [div_le_iff₀ (by linarith)]
      refine et.trans (le_of_eq ?_)
      field_simp
      norm_num
    have a3 := abs_sub_le z r √(1 - k ^ 2)
    have a4 : |z - r| ≤ 2 * u := by
      have := mul_le_mul_of_nonneg_left r1 u0.le
      linarith
    linarith
  · rw [if_neg hlt, if_pos (by linarith)]
    rw [abs_of_pos (by linarith), not_lt] at hlt
    have z1 : 1 ≤ z ^ 2 := one_le_pow₀ hlt
    have hks : k ^ 2 ≤ 54 / 10 * u := by linarith
    have c1 : (1 - 10 * eps) ^ 2 ≤ 1 := pow_le_one₀ (by linarith) (by linarith)
    refine ⟨hγ1, by linarith, by linarith, ?_⟩
    have w1 : √(1 - k ^ 2) ≤ 1 := Real.sqrt_le_one.mpr (by linarith)
    have w2 : 1 - k ^ 2 ≤ √(1 - k ^ 2) := by
      apply Real.le_sqrt_of_sq_le
      have : (1 - k ^ 2) ^ 2 ≤ (1 - k ^ 2) * 1 := by
        rw [pow_two]; exact mul_le_mul_of_nonneg_left (by linarith) (by linarith)
      linarith
    have : |1 - 10 * eps - √(1 - k ^ 2)| ≤ 20 * u := by
      rw [abs_le]; constructor <;> linarith
    linarith

/-- Error of a stage. -/
theorem Stage.error (h : Accurate rnd u η) (u0 : 0 ≤ u) (u1 : u ≤ 1 / 1000) {k c s f s' f' : ℝ}
    (hs : Stage rnd k c s f s' f') :
    |s' - (k * f + c * s)| ≤ 21 / 10 * u * (|k| * |f| + |c| * |s|) + 4 * η ∧
      |f' - (c * f - k * s)| ≤ 21 / 10 * u * (|c| * |f| + |k| * |s|) + 4 * η := by
  have η0 := h.eta_nonneg
  have a1 := hs.1.error h u0
  have a2 := hs.2.error h u0
  rw [abs_mul, abs_mul] at a1 a2
  rw [abs_neg, show c * f + -k * s = c * f - k * s by ring] at a2
  have c1 : 2 * u + u ^ 2 ≤ 21 / 10 * u := by nlinarith
  have c2 : (3 + 2 * u) * η ≤ 4 * η := by nlinarith
  have n1 : 0 ≤ |k| * |f| + |c| * |s| := by positivity
  have n2 : 0 ≤ |c| * |f| + |k| * |s| := by positivity
  have m1 := mul_le_mul_of_nonneg_right c1 n1
  have m2 := mul_le_mul_of_nonneg_right c1 n2
  constructor <;> linarith

theorem square_error {e d a ρ ζ u : ℝ} (u0 : 0 < u) (ρ0 : 0 ≤ ρ) (ζ0 : 0 ≤ ζ) (a0 : 0 ≤ a) (he : |e| ≤ a)
    (hd : |d| ≤ ρ * a + ζ) : (e + d) ^ 2 ≤ e ^ 2 + (2 * ρ + 2 * ρ ^ 2 + u) * a ^ 2 + (2 + 1 / u) * ζ ^ 2 := by
  have h1 : e * d ≤ a * (ρ * a + ζ) := by
    refine (le_abs_self _).trans ?_
    rw [abs_mul]
    exact mul_le_mul he hd (abs_nonneg d) a0
  have h2 : d ^ 2 ≤ (ρ * a + ζ) ^ 2 := by
    rw [← sq_abs d]; exact pow_le_pow_left₀ (abs_nonneg d) hd 2
  have h3 : 2 * (a * ζ) ≤ u * a ^ 2 + 1 / u * ζ ^ 2 := by
    have : 0 ≤ (u * a - ζ) ^ 2 / u := by positivity
    have e2 : (u * a - ζ) ^ 2 / u = u * a ^ 2 - 2 * (a * ζ) + 1 / u * ζ ^ 2 := by field_simp; ring
    linarith
  have h4 : (ρ * a + ζ) ^ 2 ≤ 2 * ρ ^ 2 * a ^ 2 + 2 * ζ ^ 2 := by nlinarith [sq_nonneg (ρ * a - ζ)]
  nlinarith

/-- Energy of a stage with rounding errors. -/
theorem stage_energy_rounded {k c s f s' f' ζ : ℝ} (u0 : 0 < u) (u1 : u ≤ 1 / 1000) (ζ0 : 0 ≤ ζ)
    (hkc : k ^ 2 + c ^ 2 ≤ 1 + 6 * u)
    (h1 : |s' - (k * f + c * s)| ≤ 21 / 10 * u * (|k| * |f| + |c| * |s|) + ζ)
    (h2 : |f' - (c * f - k * s)| ≤ 21 / 10 * u * (|c| * |f| + |k| * |s|) + ζ) :
    s' ^ 2 + f' ^ 2 ≤ (1 + 18 * u) * (f ^ 2 + s ^ 2) + 2 * (2 + 1 / u) * ζ ^ 2 := by
  have a1 := square_error (e := k * f + c * s) u0 (by positivity) ζ0 (by positivity)
    ((abs_add_le _ _).trans (by rw [abs_mul, abs_mul])) h1
  have a2 := square_error (e := c * f - k * s) u0 (by positivity) ζ0 (by positivity)
    ((abs_sub _ _).trans (by rw [abs_mul, abs_mul])) h2
  rw [add_sub_cancel] at a1 a2
  have hE : (k * f + c * s) ^ 2 + (c * f - k * s) ^ 2 = (k ^ 2 + c ^ 2) * (f ^ 2 + s ^ 2) := by ring
  have hab : (|k| * |f| + |c| * |s|) ^ 2 + (|c| * |f| + |k| * |s|) ^ 2 ≤ 2 * ((k ^ 2 + c ^ 2) * (f ^ 2 + s ^ 2)) := by
    rw [← sq_abs k, ← sq_abs c, ← sq_abs f, ← sq_abs s]
    nlinarith [sq_nonneg (|k| * |f| - |c| * |s|), sq_nonneg (|c| * |f| - |k| * |s|)]
  have hN : (k ^ 2 + c ^ 2) * (f ^ 2 + s ^ 2) ≤ (1 + 6 * u) * (f ^ 2 + s ^ 2) :=
    mul_le_mul_of_nonneg_right hkc (by positivity)
  have hN0 : 0 ≤ (k ^ 2 + c ^ 2) * (f ^ 2 + s ^ 2) := by positivity
  have hR0 : 0 ≤ f ^ 2 + s ^ 2 := by positivity
  generalize (k ^ 2 + c ^ 2) * (f ^ 2 + s ^ 2) = N at hE hab hN hN0
  generalize f ^ 2 + s ^ 2 = R at hN hR0
  have hq : 2 * (21 / 10 * u) + 2 * (21 / 10 * u) ^ 2 + u ≤ 53 / 10 * u := by nlinarith
  have hs : (2 * (21 / 10 * u) + 2 * (21 / 10 * u) ^ 2 + u) *
      ((|k| * |f| + |c| * |s|) ^ 2 + (|c| * |f| + |k| * |s|) ^ 2) ≤ 53 / 10 * u * (2 * N) :=
    mul_le_mul hq hab (by positivity) (by positivity)
  have : N + 53 / 10 * u * (2 * N) ≤ (1 + 18 * u) * R := by
    have : N * (1 + 106 / 10 * u) ≤ (1 + 6 * u) * R * (1 + 106 / 10 * u) :=
      mul_le_mul_of_nonneg_right hN (by positivity)
    have : (1 + 6 * u) * (1 + 106 / 10 * u) ≤ 1 + 18 * u := by nlinarith
    nlinarith
  linarith

end

/-! ### The chain of stages -/

section
variable {α β L ρ η X Y P γ D : ℝ} {M : ℕ} {x : ℕ → ℝ} {s f : ℕ → ℕ → ℝ}

/-- The signals between the stages are bounded if the state is. -/
theorem signal_bound {S : ℝ} (h : Run α β L ρ η M x s f) (α0 : 0 ≤ α) (β0 : 0 ≤ β) (S0 : 0 ≤ S)
    (hx : ∀ n, |x n| ≤ X) (hS : ∀ n i, i < M → s n i ^ 2 ≤ S) (n : ℕ) : ∀ d ≤ M,
    f n (M - d) ^ 2 ≤ (1 + α) ^ d * (X ^ 2 + d * (S + β)) := by
  intro d
  induction d with
  | zero =>
    intro _
    rw [Nat.sub_zero, h.top, pow_zero, one_mul, Nat.cast_zero, zero_mul, add_zero, ← sq_abs]
    exact pow_le_pow_left₀ (abs_nonneg _) (hx n) 2
  | succ d ih =>
    intro hd
    have e := h.energy n (M - (d + 1)) (by omega)
    rw [show M - (d + 1) + 1 = M - d by omega] at e
    have i1 := ih (by omega)
    have s1 := hS n (M - (d + 1)) (by omega)
    have p1 : 1 ≤ (1 + α) ^ d := one_le_pow₀ (by linarith)
    rw [pow_succ (1 + α) d]
    push_cast
    have n1 := sq_nonneg (s (n + 1) (M - d))
    have a1 := mul_le_mul_of_nonneg_left i1 (by linarith : 0 ≤ 1 + α)
    have a2 := mul_le_mul_of_nonneg_left s1 (by linarith : 0 ≤ 1 + α)
    have a3 : (1 + α) * S + β ≤ (1 + α) ^ d * (1 + α) * (S + β) := by
      have b1 : 1 + α ≤ (1 + α) ^ d * (1 + α) := by nlinarith
      have b2 := mul_le_mul_of_nonneg_right b1 (by linarith : 0 ≤ S + β)
      nlinarith
    have a4 : (1 + α) ^ d * (1 + α) * (X ^ 2 + (d + 1) * (S + β)) =
        (1 + α) * ((1 + α) ^ d * (X ^ 2 + d * (S + β))) + (1 + α) ^ d * (1 + α) * (S + β) := by ring
    rw [a4]
    linarith

/-- Perturbations of at most `D` in each stage of the ideal filter. -/
theorem perturbed_bounded (γ0 : 0 < γ) (γ1 : γ ≤ 1) (D0 : 0 ≤ D) {k c : ℕ → ℕ → ℝ} (hkc : ∀ n i, i < M → k n i ^ 2 + c n i ^ 2 ≤ 1)
    (hc : ∀ n i, i < M → γ ≤ c n i) (hP : 3 / γ ≤ P) (top : ∀ n, f n M = 0) (bottom : ∀ n, s (n + 1) 0 = f n 0)
    (h0 : ∀ i, s 0 i = 0) (h1 : ∀ n i, i < M → |s (n + 1) (i + 1) - (k n i * f n (i + 1) + c n i * s n i)| ≤ D)
    (h2 : ∀ n i, i < M → |f n i - (c n i * f n (i + 1) - k n i * s n i)| ≤ D) (n : ℕ) :
    energy (M + 1) (s n) ≤ 650 * (M + 1) ^ 8 * P ^ (4 * M) * D ^ 2 := by
  have hP3 : 3 ≤ P := by
    refine le_trans ?_ hP
    rw [le_div_iff₀ γ0]; nlinarith
  have hPM : 1 ≤ P ^ (2 * M) := one_le_pow₀ (by linarith)
  have hM1 : (1 : ℝ) ≤ M + 1 := by have : (0 : ℝ) ≤ M := Nat.cast_nonneg M; linarith
  obtain ⟨T, hT⟩ : ∃ T : ℝ, 8 * ((M : ℝ) + 1) ^ 4 * P ^ (2 * M) = T := ⟨_, rfl⟩
  have hM4 : (1 : ℝ) ≤ (M + 1) ^ 4 := one_le_pow₀ hM1
  have hT8 : 8 ≤ T := by rw [← hT]; nlinarith
  have T0 : 0 < T := by linarith
  have hK : ∀ n i, i < M → |k n i| ≤ 1 := fun n i hi =>
    abs_le_one_iff_mul_self_le_one.mpr (by nlinarith [hkc n i hi, sq_nonneg (c n i)])
  have hC : ∀ n i, i < M → |c n i| ≤ 1 := fun n i hi =>
    abs_le_one_iff_mul_self_le_one.mpr (by nlinarith [hkc n i hi, sq_nonneg (k n i)])
  have run : Run (1 / T) (2 * (1 + T) * D ^ 2) (1 / γ) 0 D M (fun _ => 0) s f := by
    refine ⟨top, bottom, ?_, ?_, ?_⟩
    · intro n i hi
      have key : ∀ e d : ℝ, |d| ≤ D → (e + d) ^ 2 ≤ (1 + 1 / T) * e ^ 2 + (1 + T) * D ^ 2 := by
        intro e d hd
        have b1 : d ^ 2 ≤ D ^ 2 := by rw [← sq_abs d]; exact pow_le_pow_left₀ (abs_nonneg d) hd 2
        have b2 : 0 ≤ (e - T * d) ^ 2 / T := by positivity
        have b3 : (e - T * d) ^ 2 / T = 1 / T * e ^ 2 - 2 * (e * d) + T * d ^ 2 := by field_simp; ring
        nlinarith
      have k1 := key (k n i * f n (i + 1) + c n i * s n i) _ (h1 n i hi)
      have k2 := key (c n i * f n (i + 1) - k n i * s n i) _ (h2 n i hi)
      rw [add_sub_cancel] at k1 k2
      have e : (k n i * f n (i + 1) + c n i * s n i) ^ 2 + (c n i * f n (i + 1) - k n i * s n i) ^ 2 =
          (k n i ^ 2 + c n i ^ 2) * (f n (i + 1) ^ 2 + s n i ^ 2) := by ring
      have e2 := mul_le_mul_of_nonneg_right (hkc n i hi) (by positivity : 0 ≤ f n (i + 1) ^ 2 + s n i ^ 2)
      have e3 : (1 + 1 / T) * ((k n i * f n (i + 1) + c n i * s n i) ^ 2 + (c n i * f n (i + 1) - k n i * s n i) ^ 2) ≤
          (1 + 1 / T) * (f n (i + 1) ^ 2 + s n i ^ 2) :=
        mul_le_mul_of_nonneg_left (by rw [e]; linarith) (by positivity)
      linarith
    · intro n i hi
      have a0 := abs_le.mp (h1 n i hi)
      have a1 : |c n i * s n i| ≤ |s (n + 1) (i + 1)| + |k n i * f n (i + 1)| + D := by
        have t1 := abs_sub (s (n + 1) (i + 1)) (k n i * f n (i + 1))
        have t2 := abs_sub_le (c n i * s n i) (s (n + 1) (i + 1) - k n i * f n (i + 1)) 0
        rw [sub_zero, sub_zero] at t2
        have t3 : |c n i * s n i - (s (n + 1) (i + 1) - k n i * f n (i + 1))| ≤ D := by
          rw [abs_sub_comm, show s (n + 1) (i + 1) - k n i * f n (i + 1) - c n i * s n i =
            s (n + 1) (i + 1) - (k n i * f n (i + 1) + c n i * s n i) by ring]
          exact h1 n i hi
        linarith
      rw [abs_mul, abs_mul] at a1
      have a2 := mul_le_mul_of_nonneg_right (hK n i hi) (abs_nonneg (f n (i + 1)))
      have a3 := mul_le_mul_of_nonneg_right ((hc n i hi).trans (le_abs_self _)) (abs_nonneg (s n i))
      rw [one_div, ← div_eq_inv_mul, le_div_iff₀ γ0]
      linarith
    · intro n i hi
      have t1 := abs_sub (c n i * f n (i + 1)) (k n i * s n i)
      have t2 := abs_sub_le (f n i) (c n i * f n (i + 1) - k n i * s n i) 0
      rw [sub_zero, sub_zero] at t2
      have t3 := h2 n i hi
      rw [abs_mul, abs_mul] at t1
      have a2 := mul_le_mul_of_nonneg_right (hK n i hi) (abs_nonneg (s n i))
      have a3 := mul_le_mul_of_nonneg_right (hC n i hi) (abs_nonneg (f n (i + 1)))
      linarith
  have hA : 4 * ((M : ℝ) + 1) ^ 2 * P ^ (2 * M) * (((1 + 1 / T) ^ M) ^ (M + 1) - 1) ≤ 1 := by
    rw [← pow_mul]
    have hm : ((M * (M + 1) : ℕ) : ℝ) ≤ ((M : ℝ) + 1) ^ 2 := by push_cast; nlinarith
    have hM2 : ((M : ℝ) + 1) ^ 2 ≤ (M + 1) ^ 4 := pow_le_pow_right₀ hM1 (by norm_num)
    have hq : ((M * (M + 1) : ℕ) : ℝ) * (1 / T) ≤ ((M : ℝ) + 1) ^ 2 * (1 / T) :=
      mul_le_mul_of_nonneg_right hm (by positivity)
    have hT2 : ((M : ℝ) + 1) ^ 2 * (1 / T) ≤ 1 / 2 := by
      rw [mul_one_div, div_le_iff₀ T0, ← hT]; nlinarith
    have := pow_linear (x := 1 / T) (by positivity) (M * (M + 1)) (by linarith)
    calc 4 * ((M : ℝ) + 1) ^ 2 * P ^ (2 * M) * ((1 + 1 / T) ^ (M * (M + 1)) - 1)
        ≤ 4 * ((M : ℝ) + 1) ^ 2 * P ^ (2 * M) * (2 * (((M : ℝ) + 1) ^ 2 * (1 / T))) :=
          mul_le_mul_of_nonneg_left (by linarith) (by positivity)
      _ = T * (1 / T) := by rw [← hT]; ring
      _ = 1 := by field_simp
      _ ≤ 1 := le_rfl
  have hLP : (1 + (0 : ℝ)) * (1 + 2 * (1 / γ)) ≤ P := by
    refine le_trans ?_ hP
    rw [le_div_iff₀ γ0]
    have : (1 + (0 : ℝ)) * (1 + 2 * (1 / γ)) * γ = γ + 2 := by rw [add_zero, one_mul]; field_simp
    linarith
  have hb := run_bounded run (X := 0) (Y := D) ((one_le_div γ0).mpr γ1) (by positivity) (by positivity) le_rfl D0 le_rfl D0
    (fun _ => by simp) hLP hA (by simp [energy, h0]) n
  refine hb.trans ?_
  have e1 : 2 * ((0 : ℝ) ^ 2 + M * (2 * (1 + T) * D ^ 2)) + D ^ 2 = (4 * M * (1 + T) + 1) * D ^ 2 := by ring
  rw [e1]
  have e2 : 4 * (M : ℝ) * (1 + T) + 1 ≤ 65 * ((M : ℝ) + 1) ^ 5 * P ^ (2 * M) := by
    have c1 : 4 * (M : ℝ) * (1 + T) + 1 ≤ ((M : ℝ) + 1) * (5 * T) := by
      have : (0 : ℝ) ≤ M := Nat.cast_nonneg M
      nlinarith
    refine c1.trans ?_
    rw [← hT]
    have : (0 : ℝ) ≤ ((M : ℝ) + 1) ^ 5 * P ^ (2 * M) := by positivity
    nlinarith
  calc 10 * ((M : ℝ) + 1) ^ 3 * P ^ (2 * M) * ((4 * M * (1 + T) + 1) * D ^ 2)
      ≤ 10 * ((M : ℝ) + 1) ^ 3 * P ^ (2 * M) * (65 * ((M : ℝ) + 1) ^ 5 * P ^ (2 * M) * D ^ 2) := by
        apply mul_le_mul_of_nonneg_left _ (by positivity)
        exact mul_le_mul_of_nonneg_right e2 (sq_nonneg D)
    _ = 650 * ((M : ℝ) + 1) ^ 8 * P ^ (4 * M) * D ^ 2 := by
        rw [show 4 * M = 2 * M + 2 * M by ring, pow_add]; ring

end

end Verif.FloatLadder
