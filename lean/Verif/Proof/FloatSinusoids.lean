import Verif.Model.FloatSinusoids
import Verif.Proof.FloatPhasor
import Verif.Proof.FloatLadder

/-! Lemmas about the oscillators in floating point. -/

namespace Verif.FloatSinusoids
open Verif.Rounding

section
variable {m : Machine} {d : ℝ → ℝ} {u η δ : ℝ}

/-- One complex multiplication. -/
theorem Product.error (hd : Accurate d u η) (u0 : 0 ≤ u) (u1 : u ≤ 1 / 100) {p w q : ℂ} (h : Product d p w q) :
    ‖q - p * w‖ ≤ 3 * u * (‖p‖ * ‖w‖) + 5 * η := by
  have hη := hd.eta_nonneg
  obtain ⟨h0, h1⟩ := h
  have e0 := h0.error hd u0
  have e1 := h1.error hd u0
  have c0 := FloatPhasor.cauchy p w
  have c1 := FloatPhasor.cauchy' w p
  rw [mul_comm w.im, mul_comm w.re, mul_comm ‖w‖] at c1
  rw [show |(-p.im) * w.im| = |p.im * w.im| by rw [neg_mul, abs_neg]] at e0
  have k : ∀ x : ℝ, x ≤ ‖p‖ * ‖w‖ →
      (2 * u + u ^ 2) * x + (3 + 2 * u) * η ≤ 201 / 100 * u * (‖p‖ * ‖w‖) + 302 / 100 * η := by
    intro x hx
    have a1 := mul_le_mul_of_nonneg_left hx (by positivity : 0 ≤ 2 * u + u ^ 2)
    have a2 := mul_le_mul_of_nonneg_right (by nlinarith : 2 * u + u ^ 2 ≤ 201 / 100 * u)
      (by positivity : 0 ≤ ‖p‖ * ‖w‖)
    have a3 := mul_le_mul_of_nonneg_right u1 hη
    linarith
  have b0 : |(q - p * w).re| ≤ 201 / 100 * u * (‖p‖ * ‖w‖) + 302 / 100 * η := by
    rw [Complex.sub_re, Complex.mul_re, show p.re * w.re - p.im * w.im = p.re * w.re + -p.im * w.im by ring]
    exact e0.trans (k _ c0)
  have b1 : |(q - p * w).im| ≤ 201 / 100 * u * (‖p‖ * ‖w‖) + 302 / 100 * η := by
    rw [Complex.sub_im, Complex.mul_im]
    exact e1.trans (k _ c1)
  have := FloatPhasor.norm_le_of_parts (by positivity) b0 b1
  have : 0 ≤ u * (‖p‖ * ‖w‖) := by positivity
  linarith

theorem rotate_step {κ ν e N : ℝ} {p q c z : ℂ} (hc : ‖c‖ = 1) (κ0 : 0 ≤ κ) (hz : ‖z‖ = N)
    (h : ‖q - p * c‖ ≤ κ * ‖p‖ + ν) (he : ‖p - z‖ ≤ e) : ‖q - z * c‖ ≤ e + κ * (N + e) + ν := by
  have t := norm_add_le (q - p * c) ((p - z) * c)
  rw [show q - p * c + (p - z) * c = q - z * c by ring, norm_mul, hc, mul_one] at t
  have t2 := norm_add_le (p - z) z
  rw [sub_add_cancel, hz] at t2
  have := mul_le_mul_of_nonneg_left (t2.trans (add_le_add_left he N)) κ0
  linarith

/-- Repeated multiplication by a number close to a point of the circle. -/
theorem rotate_error {κ ν : ℝ} {c : ℂ} {p : ℕ → ℂ} (hc : ‖c‖ = 1) (κ0 : 0 ≤ κ) (ν0 : 0 ≤ ν)
    (h : ∀ k, ‖p (k + 1) - p k * c‖ ≤ κ * ‖p k‖ + ν) (n : ℕ) :
    ‖p n - p 0 * c ^ n‖ ≤ ((1 + κ) ^ n - 1) * ‖p 0‖ + n * (1 + κ) ^ n * ν := by
  induction n with
  | zero => simp
  | succ n ih =>
    have s := rotate_step (z := p 0 * c ^ n) (N := ‖p 0‖) hc κ0 (by rw [norm_mul, norm_pow, hc, one_pow, mul_one]) (h n) ih
    rw [mul_assoc, ← pow_succ] at s
    refine s.trans ?_
    have one : 1 ≤ (1 + κ) ^ (n + 1) := one_le_pow₀ (by linarith)
    have := mul_le_mul_of_nonneg_right one ν0
    rw [pow_succ] at this ⊢
    push_cast
    have e : ((1 + κ) ^ n - 1) * ‖p 0‖ + n * (1 + κ) ^ n * ν +
        κ * (‖p 0‖ + (((1 + κ) ^ n - 1) * ‖p 0‖ + n * (1 + κ) ^ n * ν)) + ν =
      ((1 + κ) ^ n * (1 + κ) - 1) * ‖p 0‖ + n * ((1 + κ) ^ n * (1 + κ)) * ν + ν := by ring
    linarith

/-- `std::polar`. -/
theorem polar_error (hd : Accurate m.d u η) (u0 : 0 ≤ u) (hcos : ∀ x, |m.cosine x - Real.cos x| ≤ δ)
    (hsin : ∀ x, |m.sine x - Real.sin x| ≤ δ) {r : ℝ} (r0 : 0 ≤ r) (θ : ℝ) :
    ‖m.polar r θ - r * Complex.exp (θ * Complex.I)‖ ≤ 283 / 200 * ((u + (1 + u) * δ) * r + η) := by
  have δ0 : 0 ≤ δ := (abs_nonneg _).trans (hcos 0)
  have η0 := hd.eta_nonneg
  have k : ∀ a b : ℝ, |b| ≤ 1 → |a - b| ≤ δ → |m.d (r * a) - r * b| ≤ (u + (1 + u) * δ) * r + η := by
    intro a b hb hab
    have e := hd (r * a)
    have t := abs_add_le (m.d (r * a) - r * a) (r * a - r * b)
    rw [sub_add_sub_cancel, ← mul_sub, abs_mul r (a - b), abs_of_nonneg r0] at t
    have ha : |a| ≤ 1 + δ := by
      have := abs_add_le (a - b) b
      rw [sub_add_cancel] at this
      linarith
    rw [abs_mul, abs_of_nonneg r0] at e
    have a1 := mul_le_mul_of_nonneg_left hab r0
    have a2 := mul_le_mul_of_nonneg_left (mul_le_mul_of_nonneg_left ha r0) u0
    linarith
  apply FloatPhasor.norm_le_of_parts (by positivity)
  · rw [Complex.sub_re, Complex.re_ofReal_mul, Complex.exp_ofReal_mul_I_re]
    exact k _ _ (Real.abs_cos_le_one θ) (hcos θ)
  · rw [Complex.sub_im, Complex.im_ofReal_mul, Complex.exp_ofReal_mul_I_im]
    exact k _ _ (Real.abs_sin_le_one θ) (hsin θ)

end

end Verif.FloatSinusoids
