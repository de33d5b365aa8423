import Verif.Proof.Ladder
import Mathlib.Analysis.Complex.Polynomial.Basic

/-! Second-order stability: the Jury conditions and boundedness of the response. -/

namespace Verif.Ladder
open Finset Verif.LinearFilter.Spec Verif.Series

/-- A quadratic with real coefficients splits over `ℂ`. -/
theorem exists_roots (p q : ℝ) : ∃ z w : ℂ, z + w = -(p : ℂ) ∧ z * w = (q : ℂ) := by
  obtain ⟨s, hs⟩ := IsAlgClosed.exists_pow_nat_eq ((p : ℂ) ^ 2 - 4 * q) (n := 2) (by norm_num)
  exact ⟨(-p + s) / 2, (-p - s) / 2, by ring, by
    linear_combination (-(1 : ℂ) / 4) * hs⟩

theorem isRoot_iff {p q : ℝ} {z w : ℂ} (h1 : z + w = -(p : ℂ)) (h2 : z * w = (q : ℂ)) (t : ℂ) :
    t ^ 2 + p * t + q = 0 ↔ t = z ∨ t = w := by
  have : t ^ 2 + p * t + q = (t - z) * (t - w) := by
    linear_combination t * h1 - h2
  rw [this, mul_eq_zero, sub_eq_zero, sub_eq_zero]

theorem jury {p q : ℝ} : (|q| < 1 ∧ |p| < 1 + q) ↔
    ∀ t : ℂ, t ^ 2 + (p : ℂ) * t + q = 0 → ‖t‖ < 1 := by
  constructor
  · rintro ⟨hq, hp⟩ t ht
    by_cases him : t.im = 0
    · -- real root
      have htr : t = (t.re : ℂ) := Complex.ext rfl (by simp [him])
      rw [htr] at ht ⊢
      have hr : t.re ^ 2 + p * t.re + q = 0 := by exact_mod_cast ht
      rw [Complex.norm_real, Real.norm_eq_abs]
      generalize t.re = r at hr
      rw [abs_lt] at hp hq ⊢
      constructor
      · by_contra h
        push Not at h
        nlinarith
      · by_contra h
        push Not at h
        nlinarith
    · have hre := congrArg Complex.re ht
      have hii := congrArg Complex.im ht
      simp [pow_two] at hre hii
      have h2 : 2 * t.re + p = 0 := by
        apply mul_right_cancel₀ him
        linarith
      have h3 : t.re * t.re + t.im * t.im = q := by linear_combination t.re * h2 - hre
      have h4 : ‖t‖ ^ 2 = q := by
        rw [← Complex.normSq_eq_norm_sq, Complex.normSq_apply, h3]
      rw [abs_lt] at hq
      nlinarith [norm_nonneg t]
  · intro h
    obtain ⟨z, w, h1, h2⟩ := exists_roots p q
    have hz := h z ((isRoot_iff h1 h2 z).mpr (Or.inl rfl))
    have hw := h w ((isRoot_iff h1 h2 w).mpr (Or.inr rfl))
    constructor
    · have : ‖(q : ℂ)‖ < 1 := by
        rw [← h2, norm_mul]
        nlinarith [norm_nonneg z, norm_nonneg w]
      rwa [Complex.norm_real, Real.norm_eq_abs] at this
    · -- no real root outside (-1, 1), and the quadratic is positive at ±1
      have hreal : ∀ r : ℝ, 1 ≤ |r| → r ^ 2 + p * r + q ≠ 0 := by
        intro r hr hc
        have := h (r : ℂ) (by exact_mod_cast hc)
        rw [Complex.norm_real, Real.norm_eq_abs] at this
        linarith
      -- a quadratic nonpositive at ±1 has a real root beyond it
      have hroot : ∀ s : ℝ, (s = 1 ∨ s = -1) → 0 < s ^ 2 + p * s + q := by
        intro s hs
        by_contra hc
        push Not at hc
        have hd : 0 ≤ p ^ 2 - 4 * q := by
          rcases hs with rfl | rfl <;> nlinarith [sq_nonneg (p + 2), sq_nonneg (p - 2)]
        have hsq := Real.sq_sqrt hd
        have hs0 := Real.sqrt_nonneg (p ^ 2 - 4 * q)
        generalize Real.sqrt (p ^ 2 - 4 * q) = d at hsq hs0
        rcases hs with rfl | rfl
        · apply hreal ((-p + d) / 2) _ (by nlinarith)
          rw [le_abs]; left
          nlinarith
        · apply hreal ((-p - d) / 2) _ (by nlinarith)
          rw [le_abs]; right
          nlinarith
      have ha := hroot 1 (Or.inl rfl)
      have hb := hroot (-1) (Or.inr rfl)
      rw [abs_lt]
      constructor <;> linarith

/-- A first-order recursion with pole inside the unit circle stays bounded. -/
theorem firstOrder_bound {z : ℂ} (hz : ‖z‖ < 1) {G : ℝ} (hG : 0 ≤ G) {u g : ℕ → ℂ}
    (h0 : u 0 = g 0) (hs : ∀ n, u (n + 1) = z * u n + g (n + 1)) {N : ℕ}
    (hg : ∀ n, n < N → ‖g n‖ ≤ G) : ∀ n, n < N → ‖u n‖ ≤ G / (1 - ‖z‖) := by
  have hpos : 0 < 1 - ‖z‖ := by linarith
  have hle : G ≤ G / (1 - ‖z‖) := by
    rw [le_div_iff₀ hpos]; nlinarith [norm_nonneg z]
  intro n
  induction n with
  | zero => intro hn; rw [h0]; exact (hg 0 hn).trans hle
  | succ n ih =>
    intro hn
    rw [hs]
    calc ‖z * u n + g (n + 1)‖ ≤ ‖z‖ * ‖u n‖ + ‖g (n + 1)‖ := by
          rw [← norm_mul]; exact norm_add_le _ _
      _ ≤ ‖z‖ * (G / (1 - ‖z‖)) + G :=
          add_le_add (mul_le_mul_of_nonneg_left (ih (by omega)) (norm_nonneg _)) (hg _ hn)
      _ = G / (1 - ‖z‖) := by field_simp; ring

/-- Second-order recursion. -/
theorem secondOrder_bound {z w : ℂ} (hz : ‖z‖ < 1) (hw : ‖w‖ < 1) {G : ℝ} (hG : 0 ≤ G)
    {y g : ℕ → ℂ} (h0 : y 0 = g 0) (h1 : y 1 = (z + w) * y 0 + g 1)
    (hs : ∀ n, y (n + 2) = (z + w) * y (n + 1) - z * w * y n + g (n + 2)) {N : ℕ}
    (hg : ∀ n, n < N → ‖g n‖ ≤ G) :
    ∀ n, n < N → ‖y n‖ ≤ G / (1 - ‖z‖) / (1 - ‖w‖) := by
  let u : ℕ → ℂ := fun n => match n with
    | 0 => y 0
    | n + 1 => y (n + 1) - w * y n
  have hu : ∀ n, n < N → ‖u n‖ ≤ G / (1 - ‖z‖) := by
    apply firstOrder_bound hz hG (u := u) (g := g) h0 _ hg
    intro n
    cases n with
    | zero => simp only [u]; rw [h1]; ring
    | succ n => simp only [u]; rw [hs]; ring
  have hpos : 0 < 1 - ‖z‖ := by linarith
  apply firstOrder_bound hw (div_nonneg hG hpos.le) (u := y) (g := u) rfl _ hu
  intro n
  simp only [u]; ring

end Verif.Ladder
