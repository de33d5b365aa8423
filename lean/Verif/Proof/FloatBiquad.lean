import Verif.Model.FloatBiquad
import Verif.Proof.Rounding
import Verif.Proof.Series
import Verif.Proof.Stability

/-! Lemmas about the biquad filters in floating point. -/

namespace Verif.FloatBiquad
open Verif.Rounding Verif.Biquad Verif.Series

/-- What both implementations have in common: the error of the new state and of the output. -/
structure Close (f : Biquad.Filter ℝ) (ε τ : ℝ) (s : ℝ × ℝ) (x : ℝ) (s' : ℝ × ℝ) (y : ℝ) : Prop where
  shift : s'.2 = s.1
  next : |s'.1 - (x - (s.1 * f.fb1 + s.2 * f.fb2))| ≤ ε * (|x| + |s.1 * f.fb1| + |s.2 * f.fb2|) + τ
  out : |y - (s'.1 * f.ff0 + (s.1 * f.ff1 + s.2 * f.ff2))| ≤
    ε * (|s'.1 * f.ff0| + |s.1 * f.ff1| + |s.2 * f.ff2|) + τ

theorem Step.close {rnd : ℝ → ℝ} {u η : ℝ} (h : Accurate rnd u η) (u0 : 0 ≤ u) (u1 : u ≤ 1 / 10) {f : Biquad.Filter ℝ}
    {s s' : ℝ × ℝ} {x y : ℝ} (hs : Step rnd f s x s' y) : Close f (4 * u) (6 * η) s x s' y := by
  obtain ⟨⟨p, hp, rfl⟩, q, hq, hy⟩ := hs
  have hη := h.eta_nonneg
  have u2 : u ^ 2 ≤ u / 10 := by nlinarith
  have uη := mul_le_mul_of_nonneg_right u1 hη
  have key : ∀ {a b r t : ℝ}, |r - t| ≤ (2 * u + u ^ 2) * (a + b) + (3 + 2 * u) * η → |t| ≤ a + b → 0 ≤ a → 0 ≤ b →
      |r| ≤ 13 / 10 * (a + b) + 4 * η := by
    intro a b r t h1 h2 ha hb
    have := abs_add_le (r - t) t
    rw [sub_add_cancel] at this
    nlinarith
  refine ⟨rfl, ?_, ?_⟩
  · have e := hp.error h u0
    have n1 := abs_nonneg (s.1 * f.fb1)
    have n2 := abs_nonneg (s.2 * f.fb2)
    have hpa := key e (abs_add_le _ _) n1 n2
    have e2 := h (x - p)
    have a1 := abs_sub x p
    have a2 := abs_add_le (rnd (x - p) - (x - p)) (-(p - (s.1 * f.fb1 + s.2 * f.fb2)))
    rw [abs_neg, show rnd (x - p) - (x - p) + -(p - (s.1 * f.fb1 + s.2 * f.fb2)) =
      rnd (x - p) - (x - (s.1 * f.fb1 + s.2 * f.fb2)) by ring] at a2
    have a3 := mul_le_mul_of_nonneg_left (a1.trans (add_le_add_right hpa _)) u0
    have m1 := mul_nonneg u0 n1
    have m2 := mul_nonneg u0 n2
    have m3 := mul_nonneg u0 (abs_nonneg x)
    have q1 := mul_le_mul_of_nonneg_right u2 n1
    have q2 := mul_le_mul_of_nonneg_right u2 n2
    dsimp only
    linarith
  · have e := hq.error h u0
    have n1 := abs_nonneg (s.1 * f.ff1)
    have n2 := abs_nonneg (s.2 * f.ff2)
    have n3 := abs_nonneg (rnd (x - p) * f.ff0)
    have hqa := key e (abs_add_le _ _) n1 n2
    have e2 := hy.error h u0
    dsimp only at e2 ⊢
    have a2 := abs_add_le (y - (rnd (x - p) * f.ff0 + q)) (q - (s.1 * f.ff1 + s.2 * f.ff2))
    rw [show y - (rnd (x - p) * f.ff0 + q) + (q - (s.1 * f.ff1 + s.2 * f.ff2)) =
      y - (rnd (x - p) * f.ff0 + (s.1 * f.ff1 + s.2 * f.ff2)) by ring] at a2
    have a3 := mul_le_mul_of_nonneg_left hqa u0
    have m1 := mul_nonneg u0 n1
    have m2 := mul_nonneg u0 n2
    have m3 := mul_nonneg u0 n3
    have q1 := mul_le_mul_of_nonneg_right u2 n1
    have q2 := mul_le_mul_of_nonneg_right u2 n2
    have q3 := mul_le_mul_of_nonneg_right u2 n3
    linarith

theorem PortableStep.close {rnd : ℝ → ℝ} {u η : ℝ} (h : Accurate rnd u η) (u0 : 0 ≤ u) (u1 : u ≤ 1 / 10) {f : Biquad.Filter ℝ}
    {s s' : ℝ × ℝ} {x y : ℝ} (hs : PortableStep rnd f s x s' y) : Close f (4 * u) (6 * η) s x s' y := by
  obtain ⟨⟨t, next, ht, hn, rfl⟩, q, hq, hy⟩ := hs
  have hη := h.eta_nonneg
  have u2 : u ^ 2 ≤ u / 10 := by nlinarith
  have uη := mul_le_mul_of_nonneg_right u1 hη
  refine ⟨rfl, ?_, ?_⟩
  · have e1 := ht.error h u0
    have e2 := hn.error h u0
    have n0 := abs_nonneg x
    have n1 := abs_nonneg (s.1 * f.fb1)
    have n2 := abs_nonneg (s.2 * f.fb2)
    rw [neg_mul, abs_neg, mul_comm f.fb1] at e1
    rw [neg_mul, abs_neg, mul_comm f.fb2] at e2
    have b1 : |t| ≤ 11 / 10 * |x| + 13 / 10 * |s.1 * f.fb1| + 3 * η := by
      have a1 := abs_add_le (t - (-(s.1 * f.fb1) + x)) (-(s.1 * f.fb1) + x)
      rw [sub_add_cancel] at a1
      have a2 := abs_add_le (-(s.1 * f.fb1)) x
      rw [abs_neg] at a2
      have q1 := mul_le_mul_of_nonneg_right u2 n1
      have q2 := mul_le_mul_of_nonneg_right u1 n1
      have q3 := mul_le_mul_of_nonneg_right u1 n0
      linarith
    have a2 := abs_add_le (next - (-(s.2 * f.fb2) + t)) (t - (-(s.1 * f.fb1) + x))
    rw [show next - (-(s.2 * f.fb2) + t) + (t - (-(s.1 * f.fb1) + x)) =
      next - (x - (s.1 * f.fb1 + s.2 * f.fb2)) by ring] at a2
    have a3 := mul_le_mul_of_nonneg_left b1 u0
    have m1 := mul_nonneg u0 n1
    have m2 := mul_nonneg u0 n2
    have m3 := mul_nonneg u0 n0
    have q1 := mul_le_mul_of_nonneg_right u2 n1
    have q2 := mul_le_mul_of_nonneg_right u2 n2
    dsimp only
    linarith
  · have e := hq.error h u0
    have e2 := hy.error h u0
    dsimp only at e e2 ⊢
    rw [mul_comm f.ff0, mul_comm f.ff1] at e
    rw [mul_comm f.ff2] at e2
    have n0 := abs_nonneg (next * f.ff0)
    have n1 := abs_nonneg (s.1 * f.ff1)
    have n2 := abs_nonneg (s.2 * f.ff2)
    have b1 : |q| ≤ 13 / 10 * (|next * f.ff0| + |s.1 * f.ff1|) + 4 * η := by
      have a1 := abs_add_le (q - (next * f.ff0 + s.1 * f.ff1)) (next * f.ff0 + s.1 * f.ff1)
      rw [sub_add_cancel] at a1
      have a2 := abs_add_le (next * f.ff0) (s.1 * f.ff1)
      have q1 := mul_le_mul_of_nonneg_right u2 n1
      have q2 := mul_le_mul_of_nonneg_right u1 n1
      have q3 := mul_le_mul_of_nonneg_right u1 n0
      have q4 := mul_le_mul_of_nonneg_right u2 n0
      linarith
    have a2 := abs_add_le (y - (s.2 * f.ff2 + q)) (q - (next * f.ff0 + s.1 * f.ff1))
    rw [show y - (s.2 * f.ff2 + q) + (q - (next * f.ff0 + s.1 * f.ff1)) =
      y - (next * f.ff0 + (s.1 * f.ff1 + s.2 * f.ff2)) by ring] at a2
    have a3 := mul_le_mul_of_nonneg_left b1 u0
    have m1 := mul_nonneg u0 n1
    have m2 := mul_nonneg u0 n2
    have m3 := mul_nonneg u0 n0
    have q1 := mul_le_mul_of_nonneg_right u2 n1
    have q2 := mul_le_mul_of_nonneg_right u2 n2
    have q3 := mul_le_mul_of_nonneg_right u2 n0
    linarith

/-! ### The exact filter -/

/-- The exact output for the input signal `x`. -/
noncomputable def exact (f : Biquad.Filter ℝ) (x : ℕ → ℝ) : ℕ → ℝ := outAt (step f) resetState x

theorem stateAt_sub (f : Biquad.Filter ℝ) (x y : ℕ → ℝ) (n : ℕ) :
    stateAt (step f) resetState (fun k => x k - y k) n =
      stateAt (step f) resetState x n - stateAt (step f) resetState y n := by
  induction n with
  | zero => simp [stateAt, resetState]
  | succ n ih =>
    simp only [stateAt, ih, step]
    apply Prod.ext
    · simp only [Prod.fst_sub, Prod.snd_sub]; ring
    · simp

theorem exact_sub (f : Biquad.Filter ℝ) (x y : ℕ → ℝ) (n : ℕ) :
    exact f (fun k => x k - y k) n = exact f x n - exact f y n := by
  simp only [exact, outAt, stateAt_sub, step, Prod.fst_sub, Prod.snd_sub]
  ring

/-- `G` bounds the gain from the input to the state of the exact filter. -/
def StateGain (f : Biquad.Filter ℝ) (G : ℝ) : Prop :=
  ∀ (x : ℕ → ℝ) (D : ℝ) (n : ℕ), 0 ≤ D → (∀ k, k < n → |x k| ≤ D) → |(stateAt (step f) resetState x n).1| ≤ G * D

/-- `H` bounds the gain from the input to the output of the exact filter. -/
def OutputGain (f : Biquad.Filter ℝ) (H : ℝ) : Prop :=
  ∀ (x : ℕ → ℝ) (D : ℝ) (n : ℕ), 0 ≤ D → (∀ k, k ≤ n → |x k| ≤ D) → |exact f x n| ≤ H * D

theorem state_snd (f : Biquad.Filter ℝ) (x : ℕ → ℝ) (n : ℕ) :
    (stateAt (step f) resetState x (n + 1)).2 = (stateAt (step f) resetState x n).1 := rfl

theorem StateGain.snd {f : Biquad.Filter ℝ} {G : ℝ} (h : StateGain f G) (hG : 0 ≤ G) (x : ℕ → ℝ) (D : ℝ) (n : ℕ) (hD : 0 ≤ D)
    (hx : ∀ k, k < n → |x k| ≤ D) : |(stateAt (step f) resetState x n).2| ≤ G * D := by
  cases n with
  | zero => simp [stateAt, resetState]; positivity
  | succ n =>
    rw [state_snd]
    exact h x D n hD (fun k hk => hx k (by omega))

/-- The output gain is at most the state gain times the sum of the feedforward coefficients. -/
theorem StateGain.output {f : Biquad.Filter ℝ} {G : ℝ} (h : StateGain f G) (hG : 0 ≤ G) :
    OutputGain f ((|f.ff0| + |f.ff1| + |f.ff2|) * G) := by
  intro x D n hD hx
  have h0 := h x D (n + 1) hD (fun k hk => hx k (by omega))
  have h1 := h x D n hD (fun k hk => hx k (by omega))
  have h2 := h.snd hG x D n hD (fun k hk => hx k (by omega))
  have e : exact f x n = (stateAt (step f) resetState x (n + 1)).1 * f.ff0 +
      ((stateAt (step f) resetState x n).1 * f.ff1 + (stateAt (step f) resetState x n).2 * f.ff2) := rfl
  rw [e]
  refine (abs_add_le _ _).trans ?_
  have := abs_add_le ((stateAt (step f) resetState x n).1 * f.ff1) ((stateAt (step f) resetState x n).2 * f.ff2)
  rw [abs_mul, abs_mul] at this
  rw [abs_mul]
  have m0 := mul_le_mul_of_nonneg_right h0 (abs_nonneg f.ff0)
  have m1 := mul_le_mul_of_nonneg_right h1 (abs_nonneg f.ff1)
  have m2 := mul_le_mul_of_nonneg_right h2 (abs_nonneg f.ff2)
  linarith

/-- The state gain from the poles. -/
theorem stateGain_of_poles {f : Biquad.Filter ℝ} {z w : ℂ} (h1 : z + w = -(f.fb1 : ℂ)) (h2 : z * w = (f.fb2 : ℂ))
    (hz : ‖z‖ < 1) (hw : ‖w‖ < 1) : StateGain f (1 / ((1 - ‖z‖) * (1 - ‖w‖))) := by
  intro x D n hD hx
  cases n with
  | zero =>
    have : 0 < 1 - ‖z‖ := by linarith
    have : 0 < 1 - ‖w‖ := by linarith
    simp [stateAt, resetState]
    positivity
  | succ n =>
    have := Ladder.secondOrder_bound hz hw hD (y := fun k => ((stateAt (step f) resetState x (k + 1)).1 : ℂ))
      (g := fun k => (x k : ℂ)) (by simp [stateAt, step, resetState])
      (by
        rw [h1]
        simp [stateAt, step, resetState]
        ring)
      (by
        intro k
        rw [h1, h2]
        simp only [stateAt, step]
        push_cast
        ring) (N := n + 1) (by
        intro k hk
        rw [Complex.norm_real]
        exact hx k hk) n (by omega)
    rw [Complex.norm_real, Real.norm_eq_abs] at this
    refine this.trans (le_of_eq ?_)
    rw [div_div]
    ring

theorem stateGain_exists {f : Biquad.Filter ℝ} (h : |f.fb2| < 1 ∧ |f.fb1| < 1 + f.fb2) : ∃ G, 0 ≤ G ∧ StateGain f G := by
  obtain ⟨z, w, h1, h2⟩ := Ladder.exists_roots f.fb1 f.fb2
  have j := Ladder.jury.1 h
  have hz := j z ((Ladder.isRoot_iff h1 h2 z).2 (.inl rfl))
  have hw := j w ((Ladder.isRoot_iff h1 h2 w).2 (.inr rfl))
  have : 0 < 1 - ‖z‖ := by linarith
  have : 0 < 1 - ‖w‖ := by linarith
  exact ⟨_, by positivity, stateGain_of_poles h1 h2 hz hw⟩

/-! ### Uniform bounds -/

/-- All that the error depends on. -/
theorem response_error {f : Biquad.Filter ℝ} {ε τ G H X e : ℝ} (hG : StateGain f G) (hH : OutputGain f H) (G0 : 0 ≤ G)
    (H0 : 0 ≤ H) (X0 : 0 ≤ X) (e0 : 0 ≤ e) (ε0 : 0 ≤ ε) (τ0 : 0 ≤ τ) (small : G * ε * (|f.fb1| + |f.fb2|) ≤ 1 / 2)
    {x x' y : ℕ → ℝ} (hx' : ∀ n, |x' n| ≤ X) (he : ∀ n, |x' n - x n| ≤ e) (hr : Response (Close f ε τ) x' y) (n : ℕ) :
    |y n - exact f x n| ≤
      H * (e + ε * (X + (|f.fb1| + |f.fb2|) * (2 * G * (X * (1 + ε) + τ))) + τ) +
        ε * ((|f.ff0| + |f.ff1| + |f.ff2|) * (2 * G * (X * (1 + ε) + τ))) + τ := by
  obtain ⟨s, s0, hs⟩ := hr
  generalize hF : |f.fb1| + |f.fb2| = F at small ⊢
  have F0 : 0 ≤ F := by rw [← hF]; positivity
  generalize hM : 2 * G * (X * (1 + ε) + τ) = M
  have M0 : 0 ≤ M := by rw [← hM]; positivity
  -- the error of the state update, as an additional input
  let d : ℕ → ℝ := fun k => (s (k + 1)).1 - (x' k - ((s k).1 * f.fb1 + (s k).2 * f.fb2))
  have es : ∀ k, stateAt (step f) resetState (fun k => x' k + d k) k = s k := by
    intro k
    induction k with
    | zero => exact s0.symm
    | succ k ih =>
      simp only [stateAt, ih, step, d]
      apply Prod.ext
      · dsimp only
        ring
      · exact ((hs k).shift).symm
  have hd : ∀ k, |(s k).1| ≤ M → |(s k).2| ≤ M → |d k| ≤ ε * (X + F * M) + τ := by
    intro k k1 k2
    refine ((hs k).next).trans ?_
    rw [abs_mul, abs_mul]
    have m1 := mul_le_mul_of_nonneg_right k1 (abs_nonneg f.fb1)
    have m2 := mul_le_mul_of_nonneg_right k2 (abs_nonneg f.fb2)
    have : |x' k| + |(s k).1| * |f.fb1| + |(s k).2| * |f.fb2| ≤ X + F * M := by
      rw [← hF]
      linarith [hx' k]
    have := mul_le_mul_of_nonneg_left this ε0
    linarith
  have hc : G * (X + (ε * (X + F * M) + τ)) ≤ M := by
    have h1 : G * ε * F * M ≤ 1 / 2 * M := mul_le_mul_of_nonneg_right small M0
    have h2 : G * (X + (ε * (X + F * M) + τ)) = 1 / 2 * M + G * ε * F * M := by
      rw [← hM]
      ring
    linarith
  have hM' : ∀ k, |(s k).1| ≤ M ∧ |(s k).2| ≤ M := by
    intro k
    induction k using Nat.strong_induction_on with
    | _ k ih =>
      have hb : ∀ j, j < k → |x' j + d j| ≤ X + (ε * (X + F * M) + τ) := by
        intro j hj
        exact (abs_add_le _ _).trans (add_le_add (hx' j) (hd j (ih j hj).1 (ih j hj).2))
      have p0 : 0 ≤ X + (ε * (X + F * M) + τ) := by positivity
      have r1 := hG (fun k => x' k + d k) _ k p0 hb
      have r2 := hG.snd G0 (fun k => x' k + d k) _ k p0 hb
      rw [es] at r1 r2
      exact ⟨r1.trans hc, r2.trans hc⟩
  have hy := (hs n).out
  have ey : exact f (fun k => x' k + d k) n =
      (s (n + 1)).1 * f.ff0 + ((s n).1 * f.ff1 + (s n).2 * f.ff2) := by
    have e1 := es n
    have e2 := es (n + 1)
    rw [← e1, ← e2]
    rfl
  rw [← ey] at hy
  have hlin := exact_sub f (fun k => x' k + d k) x n
  have b1 := hH (fun k => x' k + d k - x k) (e + ε * (X + F * M) + τ) n (by positivity) (by
    intro k _
    have := abs_add_le (x' k - x k) (d k)
    rw [show x' k - x k + d k = x' k + d k - x k by ring] at this
    have := he k
    have := hd k (hM' k).1 (hM' k).2
    linarith)
  rw [hlin] at b1
  have b2 := abs_add_le (y n - exact f (fun k => x' k + d k) n) (exact f (fun k => x' k + d k) n - exact f x n)
  rw [sub_add_sub_cancel] at b2
  have m0 := mul_le_mul_of_nonneg_right (hM' (n + 1)).1 (abs_nonneg f.ff0)
  have m1 := mul_le_mul_of_nonneg_right (hM' n).1 (abs_nonneg f.ff1)
  have m2 := mul_le_mul_of_nonneg_right (hM' n).2 (abs_nonneg f.ff2)
  rw [abs_mul, abs_mul, abs_mul] at hy
  have m3 : |(s (n + 1)).1| * |f.ff0| + |(s n).1| * |f.ff1| + |(s n).2| * |f.ff2| ≤
      (|f.ff0| + |f.ff1| + |f.ff2|) * M := by linarith
  have := mul_le_mul_of_nonneg_left m3 ε0
  linarith

/-- One stage of a cascade whose input already has an error. -/
theorem stage_bound {f : Biquad.Filter ℝ} (hf : |f.fb2| < 1 ∧ |f.fb1| < 1 + f.fb2) :
    ∃ u₀ C : ℝ, 0 < u₀ ∧ 1 ≤ C ∧ ∀ (u η : ℝ), 0 ≤ u → u ≤ u₀ → 0 ≤ η → ∀ (X e : ℝ) (x x' y : ℕ → ℝ), 0 ≤ e →
      (∀ n, |x n| ≤ X) → (∀ n, |x' n - x n| ≤ e) → Response (Close f (4 * u) (6 * η)) x' y →
      ∀ n, |exact f x n| ≤ C * X ∧ |y n - exact f x n| ≤ C * (e + u * X + η) := by
  obtain ⟨G, G0, hG⟩ := stateGain_exists hf
  have hH := hG.output G0
  generalize hB : |f.ff0| + |f.ff1| + |f.ff2| = B at hH
  have B0 : 0 ≤ B := by rw [← hB]; positivity
  generalize hHH : B * G = H at hH
  have H0 : 0 ≤ H := by rw [← hHH]; positivity
  generalize hF : |f.fb1| + |f.fb2| = F
  have F0 : 0 ≤ F := by rw [← hF]; positivity
  let K := H * (1 + 4 * F * G) + 4 * B * G
  have K0 : 0 ≤ K := by positivity
  let L := 12 * G * (H * F + B)
  have L0 : 0 ≤ L := by positivity
  refine ⟨1 / (10 + 8 * G * F), 4 * K + H + L + 6 * (H + 1) + 1, by positivity, by linarith, ?_⟩
  intro u η u0 u1 η0 X e x x' y e0 hx he hr n
  have X0 : 0 ≤ X := (abs_nonneg _).trans (hx 0)
  have gf : 0 ≤ G * F := by positivity
  rw [le_div_iff₀ (by positivity)] at u1
  have ugf : 0 ≤ u * (G * F) := mul_nonneg u0 gf
  have u10 : u ≤ 1 / 10 := by linarith
  constructor
  · refine (hH x X n X0 (fun k _ => hx k)).trans ?_
    apply mul_le_mul_of_nonneg_right _ X0
    linarith
  · have hx' : ∀ k, |x' k| ≤ X + e := by
      intro k
      have := abs_add_le (x' k - x k) (x k)
      rw [sub_add_cancel] at this
      linarith [hx k, he k]
    have b := response_error hG hH G0 H0 (by linarith : 0 ≤ X + e) e0 (by linarith : 0 ≤ 4 * u)
      (by linarith : 0 ≤ 6 * η) (by rw [hF]; linarith) hx' he hr n
    rw [hB, hF] at b
    refine b.trans ?_
    have m1 : (X + e) * (1 + 4 * u) + 6 * η ≤ 2 * (X + e) + 6 * η := by nlinarith
    have m2 : 2 * G * ((X + e) * (1 + 4 * u) + 6 * η) ≤ 4 * G * (X + e) + 12 * G * η := by
      have := mul_le_mul_of_nonneg_left m1 (by positivity : 0 ≤ 2 * G)
      linarith
    generalize 2 * G * ((X + e) * (1 + 4 * u) + 6 * η) = M at m2 ⊢
    have m3 := mul_le_mul_of_nonneg_left m2 (by positivity : 0 ≤ H * (4 * u) * F)
    have m4 := mul_le_mul_of_nonneg_left m2 (by positivity : 0 ≤ 4 * u * B)
    have m5 : 4 * u * e * K ≤ e * K := by
      have := mul_le_mul_of_nonneg_right (by linarith : 4 * u ≤ 1) (mul_nonneg e0 K0)
      linarith
    have m6 : 4 * u * η * L ≤ η * L := by
      have := mul_le_mul_of_nonneg_right (by linarith : 4 * u ≤ 1) (mul_nonneg η0 L0)
      linarith
    have t : H * (e + 4 * u * (X + e + F * M) + 6 * η) + 4 * u * (B * M) + 6 * η ≤
        H * e + 4 * u * X * K + 4 * u * e * K + 4 * u * η * L + 6 * (H + 1) * η := by
      simp only [K, L]
      linarith
    refine t.trans ?_
    have p1 := mul_nonneg (mul_nonneg u0 X0) (by linarith : 0 ≤ H + L + 6 * (H + 1) + 1)
    have p2 := mul_nonneg e0 (by linarith : 0 ≤ 3 * K + L + 6 * (H + 1) + 1)
    have p3 := mul_nonneg η0 (by linarith : 0 ≤ 4 * K + H + 1)
    linarith

/-- The exact output of a cascade. -/
noncomputable def exactCascade : List (Biquad.Filter ℝ) → (ℕ → ℝ) → ℕ → ℝ
  | [], x => x
  | f :: fs, x => exactCascade fs (exact f x)

theorem cascade_bound : ∀ {fs : List (Biquad.Filter ℝ)}, (∀ f ∈ fs, |f.fb2| < 1 ∧ |f.fb1| < 1 + f.fb2) →
    ∃ u₀ C : ℝ, 0 < u₀ ∧ 1 ≤ C ∧ ∀ (u η : ℝ), 0 ≤ u → u ≤ u₀ → 0 ≤ η → ∀ (X e : ℝ) (x x' y : ℕ → ℝ), 0 ≤ e →
      (∀ n, |x n| ≤ X) → (∀ n, |x' n - x n| ≤ e) → CascadeResponse (fun f => Close f (4 * u) (6 * η)) fs x' y →
      ∀ n, |y n - exactCascade fs x n| ≤ C * (e + u * X + η)
  | [], _ => by
    refine ⟨1, 1, one_pos, le_refl _, ?_⟩
    rintro u η u0 - η0 X e x x' y e0 hx he rfl n
    have X0 : 0 ≤ X := (abs_nonneg _).trans (hx 0)
    have := mul_nonneg u0 X0
    simp only [exactCascade]
    linarith [he n]
  | f :: fs, h => by
    obtain ⟨u₁, C₁, p1, q1, r1⟩ := stage_bound (h f (by simp))
    obtain ⟨u₂, C₂, p2, q2, r2⟩ := cascade_bound (fs := fs) (fun g hg => h g (by simp [hg]))
    refine ⟨min u₁ u₂, C₂ * (2 * C₁ + 1), lt_min p1 p2, by nlinarith, ?_⟩
    rintro u η u0 hu η0 X e x x' y e0 hx he ⟨t, ht, hy⟩ n
    have X0 : 0 ≤ X := (abs_nonneg _).trans (hx 0)
    have k := r1 u η u0 (hu.trans (min_le_left _ _)) η0 X e x x' t e0 hx he ht
    have uX := mul_nonneg u0 X0
    have b := r2 u η u0 (hu.trans (min_le_right _ _)) η0 (C₁ * X) (C₁ * (e + u * X + η)) (exact f x) t y
      (by positivity) (fun n => (k n).1) (fun n => (k n).2) hy n
    refine b.trans ?_
    rw [mul_assoc C₂]
    apply mul_le_mul_of_nonneg_left _ (by linarith)
    have := mul_nonneg (by linarith : 0 ≤ C₁) e0
    have := mul_nonneg (by linarith : 0 ≤ C₁) η0
    have := mul_nonneg (by linarith : 0 ≤ C₁) uX
    linarith

theorem CascadeResponse.imp {P Q : Biquad.Filter ℝ → ℝ × ℝ → ℝ → ℝ × ℝ → ℝ → Prop}
    (h : ∀ f s x s' y, P f s x s' y → Q f s x s' y) : ∀ {fs : List (Biquad.Filter ℝ)} {x y : ℕ → ℝ},
    CascadeResponse P fs x y → CascadeResponse Q fs x y
  | [], _, _, hr => hr
  | _ :: _, _, _, ⟨t, ⟨s, s0, hs⟩, hr⟩ => ⟨t, ⟨s, s0, fun n => h _ _ _ _ _ (hs n)⟩, CascadeResponse.imp h hr⟩

end Verif.FloatBiquad
