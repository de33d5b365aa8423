import Verif.Proof.FloatMelOverflow
import Verif.Spec.FloatMel
import Verif.Proof.FloatVector
import Verif.Proof.FloatLadder

/-! Errors of the mel filterbank in floating point (C112). -/

namespace Verif.FloatMel
open Verif.Rounding Verif.Mfcc Verif.MfccSpec Verif.FloatMelSpec Finset

theorem log_error {b g κ : ℝ} (hb : 1 ≤ b) (hg : 1 ≤ g) (hκ : κ ≤ 1 / 10) (h : |b - g| ≤ κ * g) :
    |Real.log b - Real.log g| ≤ κ * (10 / 9) := by
  have b0 : 0 < b := by linarith
  have g0 : 0 < g := by linarith
  rw [abs_le] at h
  have k0 : 0 ≤ κ := by
    by_contra hc
    have : κ * g < 0 := mul_neg_of_neg_of_pos (not_le.1 hc) g0
    linarith [h.1, h.2]
  have h1 := Real.log_le_sub_one_of_pos (div_pos b0 g0)
  have h2 := Real.log_le_sub_one_of_pos (div_pos g0 b0)
  rw [Real.log_div b0.ne' g0.ne'] at h1
  rw [Real.log_div g0.ne' b0.ne'] at h2
  have h3 : b / g - 1 ≤ κ := by
    rw [div_sub_one g0.ne', div_le_iff₀ g0]; linarith [h.2]
  have h4 : g / b - 1 ≤ κ * (10 / 9) := by
    rw [div_sub_one b0.ne', div_le_iff₀ b0]
    have : g * (1 - κ) ≤ b := by linarith [h.1]
    have : g * (9 / 10) ≤ b := le_trans (mul_le_mul_of_nonneg_left (by linarith) g0.le) this
    have : κ * g ≤ κ * (b * (10 / 9)) := mul_le_mul_of_nonneg_left (by linarith) k0
    linarith [h.1]
  rw [abs_le]
  constructor <;> linarith

variable {M : Machine} {u v η : ℝ}

/-- The error of `FreqToMel`. -/
theorem mel_error (A : M.Accurate u v η) (R : Regular M.rnd) (u1 : u ≤ 1 / 1000) (v0 : 0 ≤ v) (v1 : v ≤ 1 / 1000)
    (hη : η ≤ u / 2000) {f f' F : ℝ} (f0 : 0 ≤ f) (f0' : 0 ≤ f') (hf : |f' - f| ≤ u * f + η) (hF : f ≤ F) :
    |freqToMel M f' - mel f| ≤ 1127 * (10 * u + 2 * (u + v) * Real.log (1 + F / 700)) := by
  have η0 := A.rnd.eta_nonneg
  have u0 : 0 ≤ u := by linarith
  have g1 : 1 ≤ 1 + f / 700 := by linarith [div_nonneg f0 (show (0 : ℝ) ≤ 700 by norm_num)]
  have l0 : 0 ≤ Real.log (1 + f / 700) := Real.log_nonneg g1
  have lF : Real.log (1 + f / 700) ≤ Real.log (1 + F / 700) :=
    Real.log_le_log (by linarith) (by linarith [div_le_div_of_nonneg_right hF (show (0 : ℝ) ≤ 700 by norm_num)])
  unfold freqToMel mel
  have ea := A.rnd (f' / 700)
  have a0 : 0 ≤ M.rnd (f' / 700) := R.nonneg (by positivity)
  rw [abs_of_nonneg (div_nonneg f0' (by norm_num : (0 : ℝ) ≤ 700))] at ea
  generalize M.rnd (f' / 700) = a at *
  have eb := A.rnd (1 + a)
  rw [abs_of_nonneg (by linarith : 0 ≤ 1 + a)] at eb
  have b1 : 1 ≤ M.rnd (1 + a) := by
    have := R.mono (show (1 : ℝ) ≤ 1 + a by linarith)
    rwa [R.one] at this
  generalize M.rnd (1 + a) = b at *
  have hb : |b - (1 + f / 700)| ≤ 4 * u * (1 + f / 700) := by
    rw [abs_le] at hf ea eb ⊢
    have x0 : 0 ≤ f / 700 := by positivity
    have e1 : f' / 700 ≤ f / 700 * (1 + u) + η := by
      linarith [hf.2, div_le_div_of_nonneg_right hf.2 (show (0 : ℝ) ≤ 700 by norm_num)]
    have e2 : f / 700 * (1 - u) - η ≤ f' / 700 := by linarith [hf.1]
    generalize f / 700 = x at *
    generalize f' / 700 = x' at *
    have e3 : u * x' ≤ u * (x * (1 + u) + η) := mul_le_mul_of_nonneg_left e1 u0
    have e4 : u * (x * (1 + u) + η) ≤ u * (x * (1001 / 1000) + 1 / 1000 * u) := by
      apply mul_le_mul_of_nonneg_left _ u0
      have : x * (1 + u) ≤ x * (1001 / 1000) := mul_le_mul_of_nonneg_left (by linarith) x0
      linarith
    have e5 : u * u ≤ 1 / 1000 * u := mul_le_mul_of_nonneg_right u1 u0
    have ux : 0 ≤ u * x := mul_nonneg u0 x0
    have a2 : a ≤ x + 21 / 10 * (u * x) + 1 / 500 * u := by linarith [ea.2]
    have a3 : u * a ≤ u * (x + 21 / 10 * (u * x) + 1 / 500 * u) := mul_le_mul_of_nonneg_left a2 u0
    have e6 : u * (u * x) ≤ 1 / 1000 * (u * x) := mul_le_mul_of_nonneg_right u1 ux
    constructor <;> linarith [ea.1, ea.2, eb.1, eb.2]
  have hl := log_error b1 g1 (by linarith) hb
  have ec := A.log b b1
  generalize M.log b = L at *
  have ed := A.rnd (1127 * L)
  generalize Real.log (1 + f / 700) = ℓ at *
  generalize Real.log b = ℓb at *
  generalize Real.log (1 + F / 700) = ℓF at *
  have e7 : |L - ℓ| ≤ v * ℓ + 6 * u := by
    rw [abs_le] at hl ec ⊢
    have : v * ℓb ≤ v * (ℓ + 5 * u) := mul_le_mul_of_nonneg_left (by linarith [hl.2]) v0
    have : v * u ≤ 1 / 1000 * u := mul_le_mul_of_nonneg_right v1 u0
    constructor <;> linarith [hl.1, hl.2, ec.1, ec.2]
  have vl : 0 ≤ v * ℓ := mul_nonneg v0 l0
  have e8 : |L| ≤ ℓ + v * ℓ + 6 * u := by
    have := abs_add_le (L - ℓ) ℓ
    rw [sub_add_cancel, abs_of_nonneg l0] at this
    linarith
  rw [abs_mul, abs_of_pos (by norm_num : (0 : ℝ) < 1127)] at ed
  have e9 : u * |L| ≤ u * (ℓ + v * ℓ + 6 * u) := mul_le_mul_of_nonneg_left e8 u0
  have e10 : u * (v * ℓ) ≤ 1 / 1000 * (v * ℓ) := mul_le_mul_of_nonneg_right u1 vl
  have e11 : u * u ≤ 1 / 1000 * u := mul_le_mul_of_nonneg_right u1 u0
  have e12 : (u + v) * ℓ ≤ (u + v) * ℓF := mul_le_mul_of_nonneg_left lF (by linarith)
  have e13 : 0 ≤ u * ℓ := mul_nonneg u0 l0
  have e14 := abs_add_le (M.rnd (1127 * L) - 1127 * L) (1127 * (L - ℓ))
  rw [abs_mul, abs_of_pos (by norm_num : (0 : ℝ) < 1127)] at e14
  rw [show M.rnd (1127 * L) - 1127 * L + 1127 * (L - ℓ) = M.rnd (1127 * L) - 1127 * ℓ by ring] at e14
  nlinarith

/-- The error of the position of a bin. -/
theorem position_error {rnd : ℝ → ℝ} (h : Rounding.Accurate rnd u η) (u0 : 0 ≤ u) (u1 : u ≤ 1 / 1000)
    (hη : η ≤ u / 2000) {D d E N a b : ℝ} (D0 : 0 < D) (d0 : 0 ≤ d) (dD : d ≤ D) (N1 : 1 ≤ N) (E0 : 0 ≤ E)
    (hE : 6 * E / D + 12 * u ≤ 1 / 16) (hηN : η * N ≤ u * D) (ha : |a - D| ≤ 2 * E) (hb : |b - d| ≤ 2 * E) :
    |rnd (rnd (rnd b / rnd (rnd a / N)) - 1) - (d / D * N - 1)| ≤ N * (6 * E / D + 12 * u) := by
  have η0 := h.eta_nonneg
  have ηD : η ≤ u * D := by nlinarith
  obtain ⟨r, hr⟩ : ∃ r, r = E / D := ⟨_, rfl⟩
  have r0 : 0 ≤ r := by rw [hr]; positivity
  have Er : E = r * D := by rw [hr, div_mul_cancel₀ _ D0.ne']
  rw [mul_div_assoc, ← hr] at hE ⊢
  have key : ∀ {a d : ℝ}, 0 ≤ d → d ≤ D → |a - d| ≤ 2 * E → |rnd a / D - d / D| ≤ 2002 / 1000 * r + 2 * u := by
    intro a d d0 dD ha
    have e := h a
    have e1 := abs_add_le (rnd a - a) (a - d)
    rw [sub_add_sub_cancel] at e1
    have e2 : |a| ≤ D + 2 * E := by
      have := abs_add_le (a - d) d
      rw [sub_add_cancel, abs_of_nonneg d0] at this
      linarith
    have e3 : u * |a| ≤ u * (D + 2 * E) := mul_le_mul_of_nonneg_left e2 u0
    have e4 : u * E ≤ 1 / 1000 * E := mul_le_mul_of_nonneg_right u1 E0
    rw [← sub_div, abs_div, abs_of_pos D0, div_le_iff₀ D0]
    linarith [Er]
  have hX := key D0.le le_rfl ha
  have hY := key d0 dD hb
  rw [div_self D0.ne'] at hX
  have y0 : 0 ≤ d / D := by positivity
  have y1 : d / D ≤ 1 := by rw [div_le_one D0]; exact dD
  have es := h (rnd a / N)
  have N0 : 0 < N := by linarith
  obtain ⟨X, hX'⟩ : ∃ X, X = rnd a / D := ⟨_, rfl⟩
  obtain ⟨Y, hY'⟩ : ∃ Y, Y = rnd b / D := ⟨_, rfl⟩
  obtain ⟨S, hS'⟩ : ∃ S, S = rnd (rnd a / N) * N / D := ⟨_, rfl⟩
  rw [← hX'] at hX
  rw [← hY'] at hY
  have hS : |S - X| ≤ u * |X| + u := by
    have e1 : S - X = (rnd (rnd a / N) - rnd a / N) * (N / D) := by rw [hS', hX']; field_simp
    have e2 : |X| = |rnd a / N| * (N / D) := by
      rw [hX', ← abs_of_pos (div_pos N0 D0), ← abs_mul]
      congr 1; field_simp
    rw [e1, abs_mul, abs_of_pos (div_pos N0 D0), e2]
    have e3 : |rnd (rnd a / N) - rnd a / N| * (N / D) ≤ (u * |rnd a / N| + η) * (N / D) :=
      mul_le_mul_of_nonneg_right es (by positivity)
    have e4 : η * (N / D) ≤ u := by rw [← mul_div_assoc, div_le_iff₀ D0]; exact hηN
    linarith [add_mul (u * |rnd a / N|) η (N / D)]
  have hq0 : rnd b / rnd (rnd a / N) = N * (Y / S) := by
    rw [hY', hS']
    by_cases hz : rnd (rnd a / N) = 0
    · rw [hz]; simp
    · field_simp
  rw [hq0]
  generalize d / D = y at *
  clear hX' hY' hS' es key ha hb hq0
  have S1 : |S - 1| ≤ 2005 / 1000 * r + 4004 / 1000 * u := by
    have e1 := abs_add_le (S - X) (X - 1)
    rw [sub_add_sub_cancel] at e1
    have e2 := abs_add_le (X - 1) 1
    rw [sub_add_cancel, abs_one] at e2
    have e3 : u * |X| ≤ u * (1 + (2002 / 1000 * r + 2 * u)) := mul_le_mul_of_nonneg_left (by linarith) u0
    have e4 : u * r ≤ 1 / 1000 * r := mul_le_mul_of_nonneg_right u1 r0
    have e5 : u * u ≤ 1 / 1000 * u := mul_le_mul_of_nonneg_right u1 u0
    linarith
  have S2 : 15 / 16 ≤ S := by rw [abs_le] at S1; linarith [S1.1]
  have hQ : |Y / S - y| ≤ 9 / 2 * r + 13 / 2 * u := by
    have S0 : 0 < S := by linarith
    rw [div_sub' S0.ne', abs_div, abs_of_pos S0, div_le_iff₀ S0]
    have e1 := abs_add_le (Y - y) (y * (1 - S))
    rw [show Y - y + y * (1 - S) = Y - S * y by ring, abs_mul, abs_of_nonneg y0, abs_sub_comm 1 S] at e1
    have e2 : y * |S - 1| ≤ 1 * |S - 1| := mul_le_mul_of_nonneg_right y1 (abs_nonneg _)
    have e3 : (9 / 2 * r + 13 / 2 * u) * (15 / 16) ≤ (9 / 2 * r + 13 / 2 * u) * S :=
      mul_le_mul_of_nonneg_left S2 (by linarith)
    linarith
  have eq := h (N * (Y / S))
  generalize rnd (N * (Y / S)) = q at *
  have ep := h (q - 1)
  generalize rnd (q - 1) = p at *
  generalize Y / S = Q at *
  have Q1 : |Q| ≤ 6 / 5 := by
    have := abs_add_le (Q - y) y
    rw [sub_add_cancel, abs_of_nonneg y0] at this
    linarith
  have uN : u ≤ u * N := by nlinarith
  have e1 : u * |N * Q| ≤ u * N * (6 / 5) := by
    rw [abs_mul, abs_of_pos N0, ← mul_assoc]
    exact mul_le_mul_of_nonneg_left Q1 (by positivity)
  have e2 : |N * Q| ≤ N * (6 / 5) := by
    rw [abs_mul, abs_of_pos N0]; exact mul_le_mul_of_nonneg_left Q1 N0.le
  have e3 : |N * Q - N * y| ≤ N * (9 / 2 * r + 13 / 2 * u) := by
    rw [← mul_sub, abs_mul, abs_of_pos N0]; exact mul_le_mul_of_nonneg_left hQ N0.le
  have e4 : |q - 1| ≤ N * (23 / 10) := by
    have a1 := abs_add_le (q - N * Q) (N * Q - 1)
    rw [sub_add_sub_cancel] at a1
    have a2 := abs_sub (N * Q) 1
    rw [abs_one] at a2
    have : u * N ≤ 1 / 1000 * N := mul_le_mul_of_nonneg_right u1 N0.le
    linarith
  have e5 : u * |q - 1| ≤ u * (N * (23 / 10)) := mul_le_mul_of_nonneg_left e4 u0
  have a1 := abs_add_le (p - (q - 1)) (q - N * Q)
  have a2 := abs_add_le (p - (q - 1) + (q - N * Q)) (N * Q - N * y)
  rw [show p - (q - 1) + (q - N * Q) + (N * Q - N * y) = p - (y * N - 1) by ring] at a2
  linarith [mul_nonneg N0.le r0]

theorem triangle_lipschitz (c : ℕ) (p q : ℝ) : |triangle c p - triangle c q| ≤ |p - q| := by
  unfold triangle
  have h := abs_max_sub_max_le_abs (1 - |p - c|) (1 - |q - c|) 0
  rw [max_comm _ (0 : ℝ), max_comm _ (0 : ℝ)] at h
  refine h.trans ?_
  rw [sub_sub_sub_cancel_left, abs_sub_comm p q]
  refine (abs_abs_sub_abs_le _ _).trans ?_
  rw [sub_sub_sub_cancel_right]

/-- The weight of a bin. -/
theorem weight_bounds {rnd : ℝ → ℝ} (h : Rounding.Accurate rnd u η) (R : Regular rnd) (u0 : 0 ≤ u) (hη : η ≤ u / 2000)
    {t : ℝ} (t0 : 0 ≤ t) (t1 : t ≤ 1) :
    0 ≤ rnd (1 - rnd t) ∧ rnd (1 - rnd t) ≤ 1 ∧ |rnd (1 - rnd t) - (1 - t)| ≤ 21 / 10 * u := by
  have r0 : 0 ≤ rnd t := R.nonneg t0
  have r1 : rnd t ≤ 1 := by have := R.mono t1; rwa [R.one] at this
  have e1 := h t
  have e2 := h (1 - rnd t)
  refine ⟨R.nonneg (by linarith), ?_, ?_⟩
  · have := R.mono (show 1 - rnd t ≤ 1 by linarith)
    rwa [R.one] at this
  · rw [abs_of_nonneg t0] at e1
    rw [abs_of_nonneg (by linarith : 0 ≤ 1 - rnd t)] at e2
    generalize rnd (1 - rnd t) = w at *
    generalize rnd t = t' at *
    have a1 : u * t ≤ u * 1 := mul_le_mul_of_nonneg_left t1 u0
    have a2 : u * (1 - t') ≤ u * 1 := mul_le_mul_of_nonneg_left (by linarith) u0
    rw [abs_le] at e1 e2 ⊢
    constructor <;> linarith [e1.1, e1.2, e2.1, e2.2]

/-- The two contributions of a bin. -/
theorem parts_error {rnd : ℝ → ℝ} (h : Rounding.Accurate rnd u η) (R : Regular rnd) (u0 : 0 ≤ u) (u1 : u ≤ 1 / 1000)
    {w t x : ℝ} (w0 : 0 ≤ w) (w1 : w ≤ 1) (hw : |w - (1 - t)| ≤ 21 / 10 * u) (t0 : 0 ≤ t) (t1 : t ≤ 1) (x0 : 0 ≤ x) :
    |rnd (rnd x * w) - (1 - t) * x| ≤ 5 * u * x + 3 * η ∧
    |rnd (rnd x - rnd (rnd x * w)) - t * x| ≤ 8 * u * x + 6 * η := by
  have η0 := h.eta_nonneg
  have r0 : 0 ≤ rnd x := R.nonneg x0
  have e1 := h x
  have e2 := h (rnd x * w)
  have e3 := h (rnd x - rnd (rnd x * w))
  have p0 : 0 ≤ rnd x * w := mul_nonneg r0 w0
  have q0 : 0 ≤ rnd (rnd x * w) := R.nonneg p0
  have p1 : rnd x * w ≤ rnd x := mul_le_of_le_one_right r0 w1
  have q1 : rnd (rnd x * w) ≤ rnd x := by
    have := R.mono p1
    rwa [R.idem] at this
  rw [abs_of_nonneg x0] at e1
  rw [abs_of_nonneg p0] at e2
  rw [abs_of_nonneg (by linarith : 0 ≤ rnd x - rnd (rnd x * w))] at e3
  have ux : 0 ≤ u * x := mul_nonneg u0 x0
  have hr : rnd x ≤ x + u * x + η := by linarith [(abs_le.1 e1).2]
  have a1 : u * (rnd x * w) ≤ u * (x + u * x + η) := mul_le_mul_of_nonneg_left (p1.trans hr) u0
  have a2 : u * (u * x) ≤ 1 / 1000 * (u * x) := mul_le_mul_of_nonneg_right u1 ux
  have a3 : u * η ≤ 1 / 1000 * η := mul_le_mul_of_nonneg_right u1 η0
  have m : |rnd x * w - (1 - t) * x| ≤ 31 / 10 * (u * x) + η := by
    have b1 := abs_add_le ((rnd x - x) * w) (x * (w - (1 - t)))
    rw [show (rnd x - x) * w + x * (w - (1 - t)) = rnd x * w - (1 - t) * x by ring, abs_mul, abs_mul, abs_of_nonneg w0,
      abs_of_nonneg x0] at b1
    have b2 : |rnd x - x| * w ≤ |rnd x - x| * 1 := mul_le_mul_of_nonneg_left w1 (abs_nonneg _)
    have b3 : x * |w - (1 - t)| ≤ x * (21 / 10 * u) := mul_le_mul_of_nonneg_left hw x0
    linarith
  have f1 : |rnd (rnd x * w) - (1 - t) * x| ≤ 5 * u * x + 3 * η := by
    have b1 := abs_add_le (rnd (rnd x * w) - rnd x * w) (rnd x * w - (1 - t) * x)
    rw [sub_add_sub_cancel] at b1
    linarith
  refine ⟨f1, ?_⟩
  generalize rnd (rnd x - rnd (rnd x * w)) = z at *
  generalize rnd (rnd x * w) = y at *
  generalize rnd x = r at *
  have b4 : u * (r - y) ≤ u * (x + u * x + η) := mul_le_mul_of_nonneg_left (by linarith) u0
  rw [abs_le] at e1 e3 f1 ⊢
  constructor <;> linarith [e1.1, e1.2, e3.1, e3.2, f1.1, f1.2]

/-- What one bin adds to channel `c`. -/
noncomputable def part (M : Machine) (k : ℤ) (w x : ℝ) (c : ℕ) : ℝ :=
  (if (c : ℤ) = k then M.rnd (M.rnd x * w) else 0) + if (c : ℤ) = k + 1 then M.rnd (M.rnd x - M.rnd (M.rnd x * w)) else 0

theorem part_error (A : M.Accurate u v η) (R : Regular M.rnd) (u1 : u ≤ 1 / 1000) (hη : η ≤ u / 2000)
    {p pos δ x : ℝ} (hp : |p - pos| ≤ δ) (x0 : 0 ≤ x) (c : ℕ) :
    |part M (⌈p⌉ - 1) (M.rnd (1 - M.rnd (p - ((⌈p⌉ - 1 : ℤ) : ℝ)))) x c - triangle c pos * x| ≤
      (δ + 8 * u) * x + 6 * η := by
  have η0 := A.rnd.eta_nonneg
  have u0 : 0 ≤ u := by linarith
  obtain ⟨k1, k2⟩ := ceil_bounds p
  have ht := triangle_eq c _ p k1 k2
  generalize ⌈p⌉ - 1 = k at *
  obtain ⟨w0, w1, hw⟩ := weight_bounds A.rnd R u0 hη (by linarith : 0 ≤ p - k) (by linarith)
  obtain ⟨f1, f2⟩ := parts_error A.rnd R u0 u1 w0 w1 hw (by linarith : 0 ≤ p - k) (by linarith) x0
  have ux : 0 ≤ u * x := mul_nonneg u0 x0
  have g : |part M k (M.rnd (1 - M.rnd (p - k))) x c - triangle c p * x| ≤ 8 * u * x + 6 * η := by
    unfold part
    rw [ht]
    by_cases h1 : (c : ℤ) = k
    · rw [if_pos h1, if_pos h1, if_neg (by omega), if_neg (by omega), add_zero, add_zero]
      linarith
    · by_cases h2 : (c : ℤ) = k + 1
      · rw [if_neg h1, if_neg h1, if_pos h2, if_pos h2, zero_add, zero_add]
        exact f2
      · rw [if_neg h1, if_neg h1, if_neg h2, if_neg h2]
        simp
        linarith
  have l := mul_le_mul_of_nonneg_right ((triangle_lipschitz c p pos).trans hp) x0
  have b := abs_add_le (part M k (M.rnd (1 - M.rnd (p - k))) x c - triangle c p * x) ((triangle c p - triangle c pos) * x)
  rw [abs_mul, abs_of_nonneg x0] at b
  rw [show part M k (M.rnd (1 - M.rnd (p - k))) x c - triangle c p * x + (triangle c p - triangle c pos) * x =
    part M k (M.rnd (1 - M.rnd (p - k))) x c - triangle c pos * x by ring] at b
  linarith

/-- All elements of a vector are doubles. -/
def Doubles (M : Machine) (l : List ℝ) : Prop := ∀ c, M.rnd (l.getD c 0) = l.getD c 0

theorem addAt_ok (R : Regular M.rnd) (l : List ℝ) (hd : Doubles M l) (k : ℤ) (x : ℝ) (h0 : 0 ≤ k) (h1 : k < l.length) :
    ∃ l', addAt M l k x = .ok l' ∧ l'.length = l.length ∧ Doubles M l' ∧
      ∀ c < l.length, l'.getD c 0 = M.rnd (l.getD c 0 + if (c : ℤ) = k then x else 0) := by
  have key : ∀ c, (l.set k.toNat (M.rnd (l.getD k.toNat 0 + x))).getD c 0 =
      M.rnd (l.getD c 0 + if (c : ℤ) = k then x else 0) := by
    intro c
    by_cases hc : c < l.length
    · rw [List.getD_eq_getElem _ _ (by simpa using hc), List.getElem_set]
      by_cases h : k.toNat = c
      · rw [if_pos h, if_pos (by omega), h]
      · rw [if_neg h, if_neg (by omega), add_zero, hd c, List.getD_eq_getElem _ _ hc]
    · rw [List.getD_eq_default _ _ (by simpa using hc), List.getD_eq_default _ _ (not_lt.1 hc), if_neg (by omega), add_zero,
        R.zero]
  exact ⟨_, if_pos ⟨h0, h1⟩, by simp, fun c => by rw [key, R.idem], fun c _ => key c⟩

theorem addAtIf_ok (R : Regular M.rnd) (b : Bool) (l : List ℝ) (hd : Doubles M l) (k : ℤ) (x : ℝ)
    (h : b = true → 0 ≤ k ∧ k < l.length) (hb : b = false → ¬ (0 ≤ k ∧ k < l.length)) :
    ∃ l', addAtIf M b l k x = .ok l' ∧ l'.length = l.length ∧ Doubles M l' ∧
      ∀ c < l.length, l'.getD c 0 = M.rnd (l.getD c 0 + if (c : ℤ) = k then x else 0) := by
  cases b with
  | true =>
    obtain ⟨l', h1, h2, h3, h4⟩ := addAt_ok R l hd k x (h rfl).1 (h rfl).2
    exact ⟨l', by rw [addAtIf, if_pos rfl, h1], h2, h3, h4⟩
  | false =>
    refine ⟨l, by rw [addAtIf, if_neg (by simp)], rfl, hd, fun c hc => ?_⟩
    rw [if_neg (fun e => hb rfl (by omega)), add_zero, hd c]

/-- Two conditional additions to different elements. -/
theorem add_pair (R : Regular M.rnd) (n : ℕ) (k : ℤ) (hk : -1 ≤ k) (hk' : k < n) (a b : ℝ) (l : List ℝ) (hl : l.length = n)
    (hd : Doubles M l) :
    ∃ l', (do
      let l ← addAtIf M (k ≥ 0) l k a
      addAtIf M (k + 1 < n) l (k + 1) b) = Except.ok l' ∧ l'.length = n ∧ Doubles M l' ∧
      ∀ c < n, l'.getD c 0 =
        M.rnd (l.getD c 0 + ((if (c : ℤ) = k then a else 0) + if (c : ℤ) = k + 1 then b else 0)) := by
  obtain ⟨l1, h1, hl1, hd1, g1⟩ := addAtIf_ok R (k ≥ 0) l hd k a (by simp; omega) (by simp; omega)
  obtain ⟨l2, h2, hl2, hd2, g2⟩ := addAtIf_ok R (k + 1 < n) l1 hd1 (k + 1) b (by simp; omega) (by simp; omega)
  refine ⟨l2, ?_, by omega, hd2, fun c hc => ?_⟩
  · rw [h1]; exact h2
  · rw [g2 c (by omega), g1 c (by omega)]
    by_cases e1 : (c : ℤ) = k
    · rw [if_pos e1, if_neg (by omega), add_zero, add_zero, R.idem]
    · rw [if_neg e1, add_zero, hd c, zero_add]

theorem add_pair' (R : Regular M.rnd) (n : ℕ) (k : ℤ) (hk : -1 ≤ k) (hk' : k < n) (a b : ℝ) (l : List ℝ) (hl : l.length = n)
    (hd : Doubles M l) :
    ∃ l', (do
      let l ← addAtIf M (k + 1 < n) l (k + 1) b
      addAtIf M (k ≥ 0) l k a) = Except.ok l' ∧ l'.length = n ∧ Doubles M l' := by
  obtain ⟨l1, h1, hl1, hd1, g1⟩ := addAtIf_ok R (k + 1 < n) l hd (k + 1) b (by simp; omega) (by simp; omega)
  obtain ⟨l2, h2, hl2, hd2, g2⟩ := addAtIf_ok R (k ≥ 0) l1 hd1 k a (by simp; omega) (by simp; omega)
  exact ⟨l2, by rw [h1]; exact h2, by omega, hd2⟩

theorem foldlM_ok {P : List ℝ → Prop} (f : List ℝ → ℕ → Except Err (List ℝ)) (is : List ℕ)
    (h : ∀ i ∈ is, ∀ l, P l → ∃ l', f l i = .ok l' ∧ P l') (l : List ℝ) (hl : P l) :
    ∃ l', is.foldlM f l = .ok l' ∧ P l' := by
  induction is generalizing l with
  | nil => exact ⟨l, rfl, hl⟩
  | cons i is ih =>
    obtain ⟨l1, h1, p1⟩ := h i (by simp) l hl
    obtain ⟨l2, h2, p2⟩ := ih (fun j hj => h j (by simp [hj])) l1 p1
    exact ⟨l2, by rw [List.foldlM_cons, h1]; exact h2, p2⟩

theorem foldlM_sum (n : ℕ) (f : List ℝ → ℕ → Except Err (List ℝ)) (g : ℕ → ℕ → ℝ) (is : List ℕ)
    (h : ∀ i ∈ is, ∀ l : List ℝ, l.length = n → Doubles M l → ∃ l', f l i = .ok l' ∧ l'.length = n ∧ Doubles M l' ∧
      ∀ c < n, l'.getD c 0 = M.rnd (l.getD c 0 + g c i)) (l : List ℝ) (hl : l.length = n) (hd : Doubles M l) :
    ∃ l', is.foldlM f l = .ok l' ∧ l'.length = n ∧
      ∀ c < n, l'.getD c 0 = (is.map (g c)).foldl (fun s v => M.rnd (s + v)) (l.getD c 0) := by
  induction is generalizing l with
  | nil => exact ⟨l, rfl, hl, fun c _ => by simp⟩
  | cons i is ih =>
    obtain ⟨l1, h1, hl1, hd1, g1⟩ := h i (by simp) l hl hd
    obtain ⟨l2, h2, hl2, g2⟩ := ih (fun j hj => h j (by simp [hj])) l1 hl1 hd1
    refine ⟨l2, by rw [List.foldlM_cons, h1]; exact h2, hl2, fun c hc => ?_⟩
    rw [g2 c hc, g1 c hc, List.map_cons, List.foldl_cons]

/-- The error of a rounded sum of terms that are themselves known up to an error. -/
theorem sum_of_parts {rnd : ℝ → ℝ} (h : Rounding.Accurate rnd u η) (u0 : 0 ≤ u) (u1 : u ≤ 1 / 1000) {δ : ℝ} (δ1 : 0 ≤ δ)
    (δ2 : δ ≤ 1 / 8) (is : List ℕ) (hK : 8 * (is.length * u) ≤ 1) (g t x : ℕ → ℝ)
    (hg : ∀ i ∈ is, |g i - t i * x i| ≤ (δ + 8 * u) * x i + 6 * η) (ht : ∀ i ∈ is, |t i| ≤ 1) (hx : ∀ i ∈ is, 0 ≤ x i) :
    |FloatVector.sum rnd (is.map g) - (is.map fun i => t i * x i).sum| ≤
      (δ + (3 * is.length + 8) * u) * (is.map x).sum + 10 * is.length * η := by
  have η0 := h.eta_nonneg
  have e := FloatVector.sum_error h u0 (is.map g)
  rw [List.length_map] at e
  have hp := FloatLadder.pow_linear u0 is.length (by linarith)
  have W1 : (1 : ℝ) ≤ (1 + u) ^ is.length := one_le_pow₀ (by linarith)
  have X0 : 0 ≤ (is.map x).sum := List.sum_nonneg (by
    simp only [List.mem_map, forall_exists_index, and_imp]; rintro _ i hi rfl; exact hx i hi)
  have s1 : |(is.map g).sum - (is.map fun i => t i * x i).sum| ≤ (δ + 8 * u) * (is.map x).sum + 6 * is.length * η ∧
      ((is.map g).map (|·|)).sum ≤ 6 / 5 * (is.map x).sum + 6 * is.length * η := by
    clear e hp W1 X0 hK
    induction is with
    | nil => simp
    | cons i is ih =>
      obtain ⟨i1, i2⟩ := ih (fun j hj => hg j (by simp [hj])) (fun j hj => ht j (by simp [hj])) (fun j hj => hx j (by simp [hj]))
      have a1 := hg i (by simp)
      have a2 := ht i (by simp)
      have a3 := hx i (by simp)
      simp only [List.map_cons, List.sum_cons, List.length_cons]
      push_cast
      constructor
      · have b := abs_add_le (g i - t i * x i) ((is.map g).sum - (is.map fun i => t i * x i).sum)
        rw [show g i - t i * x i + ((is.map g).sum - (is.map fun i => t i * x i).sum) =
          g i + (is.map g).sum - (t i * x i + (is.map fun i => t i * x i).sum) by ring] at b
        linarith
      · have b := abs_add_le (g i - t i * x i) (t i * x i)
        rw [sub_add_cancel, abs_mul, abs_of_nonneg a3] at b
        have c1 : |t i| * x i ≤ 1 * x i := mul_le_mul_of_nonneg_right a2 a3
        have c2 : (δ + 8 * u) * x i ≤ 1 / 5 * x i := mul_le_mul_of_nonneg_right (by linarith) a3
        linarith
  obtain ⟨s1, s2⟩ := s1
  have e1 := abs_add_le (FloatVector.sum rnd (is.map g) - (is.map g).sum) ((is.map g).sum - (is.map fun i => t i * x i).sum)
  rw [sub_add_sub_cancel] at e1
  have K0 : (0 : ℝ) ≤ is.length := Nat.cast_nonneg _
  generalize ((is.map g).map (|·|)).sum = G at *
  generalize (is.map x).sum = X at *
  generalize (is.length : ℝ) = K at *
  generalize (1 + u) ^ is.length = W at *
  have Ku : 0 ≤ K * u := mul_nonneg K0 u0
  have Kη : 0 ≤ K * η := mul_nonneg K0 η0
  have b1 : (W - 1) * G ≤ 2 * (K * u) * (6 / 5 * X + 6 * K * η) := by
    have c1 : (W - 1) * G ≤ (W - 1) * (6 / 5 * X + 6 * K * η) := by
      exact mul_le_mul_of_nonneg_left s2 (by linarith)
    exact c1.trans (mul_le_mul_of_nonneg_right (by linarith) (by linarith))
  have b2 : K * W * η ≤ K * (5 / 4) * η :=
    mul_le_mul_of_nonneg_right (mul_le_mul_of_nonneg_left (by linarith) K0) η0
  have b3 : K * u * (K * η) ≤ 1 / 8 * (K * η) := mul_le_mul_of_nonneg_right (by linarith) Kη
  have b4 : 0 ≤ K * u * X := mul_nonneg Ku X0
  linarith

end Verif.FloatMel
