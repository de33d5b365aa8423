import Verif.Proof.FloatBiquad
import Verif.Spec.BiquadResponse
import Mathlib.Tactic.IntervalCases

/-!
# C100: biquad filters and cascades in floating point
-/

namespace Verif.FloatBiquad
open Verif.Rounding Verif.Biquad Verif.BiquadResponse Verif.Series

theorem exact_isResponse (f : Biquad.Filter ℝ) (x : ℕ → ℝ) : IsResponse f x (exact f x) := by
  intro n
  match n with
  | 0 => simp [delayed, exact, outAt, stateAt, step, resetState]; ring
  | 1 => simp [delayed, exact, outAt, stateAt, step, resetState]; ring
  | n + 2 => simp [delayed, exact, outAt, stateAt, step]; ring

theorem isResponse_unique {f : Biquad.Filter ℝ} {x y z : ℕ → ℝ} (hy : IsResponse f x y) (hz : IsResponse f x z) :
    y = z := by
  funext n
  induction n using Nat.strong_induction_on with
  | _ n ih =>
    have e : ∀ k, 0 < k → delayed y k n = delayed z k n := by
      intro k hk
      unfold delayed
      split_ifs
      · exact ih _ (by omega)
      · rfl
    have h1 := hy n
    have h2 := hz n
    rw [e 1 (by norm_num), e 2 (by norm_num)] at h1
    linarith

theorem cascadeResponse_eq : ∀ {fs : List (Biquad.Filter ℝ)} {x y : ℕ → ℝ}, IsCascadeResponse fs x y →
    y = exactCascade fs x
  | [], _, _, h => h
  | f :: fs, x, _, ⟨t, h1, h2⟩ => by
    rw [isResponse_unique h1 (exact_isResponse f x)] at h2
    exact cascadeResponse_eq (fs := fs) h2

/-- The two implementations: `BiquadFilter` in C++ and `BiquadFilterProcessOneSample` in C. -/
inductive Implementation
  | cpp
  | portable

/-- The step of an implementation. -/
def Implementation.step (i : Implementation) (rnd : ℝ → ℝ) (f : Biquad.Filter ℝ) :
    ℝ × ℝ → ℝ → ℝ × ℝ → ℝ → Prop :=
  match i with
  | .cpp => Step rnd f
  | .portable => PortableStep rnd f

theorem Implementation.close (i : Implementation) {rnd : ℝ → ℝ} {u η : ℝ} (h : Accurate rnd u η) (u0 : 0 ≤ u)
    (u1 : u ≤ 1 / 10) (f : Biquad.Filter ℝ) (s : ℝ × ℝ) (x : ℝ) (s' : ℝ × ℝ) (y : ℝ) (hs : i.step rnd f s x s' y) :
    Close f (4 * u) (6 * η) s x s' y := by
  cases i with
  | cpp => exact Step.close h u0 u1 hs
  | portable => exact PortableStep.close h u0 u1 hs

/-- **C100.** Both implementations have a response to every input, for every rounding. -/
theorem C100_total (i : Implementation) (rnd : ℝ → ℝ) (f : Biquad.Filter ℝ) (x : ℕ → ℝ) :
    ∃ y, Response (i.step rnd f) x y := by
  have h : ∀ s x, ∃ p : (ℝ × ℝ) × ℝ, i.step rnd f s x p.1 p.2 := by
    intro s x
    have : ∃ s' y, i.step rnd f s x s' y := by
      cases i with
      | cpp => exact ⟨_, _, ⟨_, .inl rfl, rfl⟩, _, .inl rfl, .inl rfl⟩
      | portable => exact ⟨_, _, ⟨_, _, .inl rfl, .inl rfl, rfl⟩, _, .inl rfl, .inl rfl⟩
    obtain ⟨s', y, h⟩ := this
    exact ⟨(s', y), h⟩
  choose g hg using h
  let s : ℕ → ℝ × ℝ := fun n => Nat.rec resetState (fun n t => (g t (x n)).1) n
  exact ⟨fun n => (g (s n) (x n)).2, s, rfl, fun n => hg (s n) (x n)⟩

/-- **C100.** The rounding error does not accumulate. Let `z` and `w` be the poles of a stable filter,
`G = 1 / ((1 - |z|) (1 - |w|))`, `F = |fb1| + |fb2|`, `B = |ff0| + |ff1| + |ff2|`, and let the rounding unit satisfy
`4 u G F ≤ 1/2`. Then for every input bounded by `X`, at every time, the output differs from the exact response by at
most `4 u B G (4 + 3 F G) (X + 6 η) + 6 (B G + 1) η`. -/
theorem C100_error (i : Implementation) {rnd : ℝ → ℝ} {u η : ℝ} (h : Accurate rnd u η) (u0 : 0 ≤ u) (u1 : u ≤ 1 / 10)
    {f : Biquad.Filter ℝ} {z w : ℂ} (h1 : z + w = -(f.fb1 : ℂ)) (h2 : z * w = (f.fb2 : ℂ))
    (hz : ‖z‖ < 1) (hw : ‖w‖ < 1) {G F B X : ℝ} (hG : G = 1 / ((1 - ‖z‖) * (1 - ‖w‖)))
    (hF : F = |f.fb1| + |f.fb2|) (hB : B = |f.ff0| + |f.ff1| + |f.ff2|) (small : 4 * u * G * F ≤ 1 / 2)
    {x y y₀ : ℕ → ℝ} (hx : ∀ n, |x n| ≤ X) (hr : Response (i.step rnd f) x y) (hy₀ : IsResponse f x y₀) (n : ℕ) :
    |y n - y₀ n| ≤ 4 * u * B * G * (4 + 3 * F * G) * (X + 6 * η) + 6 * (B * G + 1) * η := by
  have η0 := h.eta_nonneg
  have X0 : 0 ≤ X := (abs_nonneg _).trans (hx 0)
  have g := stateGain_of_poles h1 h2 hz hw
  rw [← hG] at g
  have G0 : 0 ≤ G := by
    have : 0 < 1 - ‖z‖ := by linarith
    have : 0 < 1 - ‖w‖ := by linarith
    rw [hG]
    positivity
  have F0 : 0 ≤ F := by rw [hF]; positivity
  have B0 : 0 ≤ B := by rw [hB]; positivity
  obtain ⟨s, s0, hs⟩ := hr
  have b := response_error g (g.output G0) G0 (by positivity) X0 (le_refl 0) (by linarith : 0 ≤ 4 * u)
    (by linarith : 0 ≤ 6 * η) (by rw [← hF]; linarith) hx (fun n => by simp : ∀ n, |x n - x n| ≤ 0)
    ⟨s, s0, fun n => i.close h u0 u1 _ _ _ _ _ (hs n)⟩ n
  rw [isResponse_unique hy₀ (exact_isResponse f x)]
  refine b.trans ?_
  rw [← hF, ← hB]
  have m1 : X * (1 + 4 * u) + 6 * η ≤ 3 / 2 * (X + 6 * η) := by nlinarith
  have m2 : 2 * G * (X * (1 + 4 * u) + 6 * η) ≤ 3 * G * (X + 6 * η) := by
    have := mul_le_mul_of_nonneg_left m1 (by positivity : 0 ≤ 2 * G)
    linarith
  generalize 2 * G * (X * (1 + 4 * u) + 6 * η) = M at m2 ⊢
  have m3 := mul_le_mul_of_nonneg_left m2 (by positivity : 0 ≤ B * G * (4 * u) * F)
  have m4 := mul_le_mul_of_nonneg_left m2 (by positivity : 0 ≤ 4 * u * B)
  have p1 : 0 ≤ u * (B * G) * η := by positivity
  have p2 : 0 ≤ u * (B * G) * X := by positivity
  nlinarith

/-- **C100.** In particular, for every stable filter there are `u₀ > 0` and `C` such that for every rounding with unit
`u ≤ u₀`, every bounded input and every time the error is at most `C` times the rounding error of one sample. -/
theorem C100_stable (i : Implementation) {f : Biquad.Filter ℝ}
    (hf : ∀ t : ℂ, t ^ 2 + (f.fb1 : ℂ) * t + f.fb2 = 0 → ‖t‖ < 1) :
    ∃ u₀ C : ℝ, 0 < u₀ ∧ ∀ (rnd : ℝ → ℝ) (u η : ℝ), Accurate rnd u η → 0 ≤ u → u ≤ u₀ →
      ∀ (X : ℝ) (x y y₀ : ℕ → ℝ), (∀ n, |x n| ≤ X) → Response (i.step rnd f) x y → IsResponse f x y₀ →
      ∀ n, |y n - y₀ n| ≤ C * (u * X + η) := by
  obtain ⟨u₀, C, p, -, r⟩ := stage_bound (Ladder.jury.2 hf)
  refine ⟨min u₀ (1 / 10), C, lt_min p (by norm_num), ?_⟩
  rintro rnd u η h u0 hu X x y y₀ hx ⟨s, s0, hs⟩ hy n
  rw [isResponse_unique hy (exact_isResponse f x)]
  have := (r u η u0 (hu.trans (min_le_left _ _)) h.eta_nonneg X 0 x x y (le_refl 0) hx (fun n => by simp)
    ⟨s, s0, fun n => i.close h u0 (hu.trans (min_le_right _ _)) _ _ _ _ _ (hs n)⟩ n).2
  rwa [zero_add] at this

/-- **C100.** The same for cascades of any number of stable filters. -/
theorem C100_cascade (i : Implementation) {fs : List (Biquad.Filter ℝ)}
    (hf : ∀ f ∈ fs, ∀ t : ℂ, t ^ 2 + (f.fb1 : ℂ) * t + f.fb2 = 0 → ‖t‖ < 1) :
    ∃ u₀ C : ℝ, 0 < u₀ ∧ ∀ (rnd : ℝ → ℝ) (u η : ℝ), Accurate rnd u η → 0 ≤ u → u ≤ u₀ →
      ∀ (X : ℝ) (x y y₀ : ℕ → ℝ), (∀ n, |x n| ≤ X) → CascadeResponse (i.step rnd) fs x y → IsCascadeResponse fs x y₀ →
      ∀ n, |y n - y₀ n| ≤ C * (u * X + η) := by
  obtain ⟨u₀, C, p, -, r⟩ := cascade_bound (fun f hm => Ladder.jury.2 (hf f hm))
  refine ⟨min u₀ (1 / 10), C, lt_min p (by norm_num), ?_⟩
  intro rnd u η h u0 hu X x y y₀ hx hr hy n
  rw [cascadeResponse_eq hy]
  have := r u η u0 (hu.trans (min_le_left _ _)) h.eta_nonneg X 0 x x y (le_refl 0) hx (fun n => by simp)
    (hr.imp (fun f s x s' y hs => i.close h u0 (hu.trans (min_le_right _ _)) f s x s' y hs)) n
  rwa [zero_add] at this

/-- The filter `1 / (1 - z⁻¹/2)²` in single precision: for inputs in `[-1, 1]` the error stays below `2 · 10⁻⁵` for
ever. -/
example (i : Implementation) (x y y₀ : ℕ → ℝ) (hx : ∀ n, |x n| ≤ 1)
    (hr : Response (i.step binary32 ⟨1, 0, 0, -1, 1 / 4⟩) x y) (hy₀ : IsResponse ⟨1, 0, 0, -1, 1 / 4⟩ x y₀) (n : ℕ) :
    |y n - y₀ n| ≤ 2 / 10 ^ 5 := by
  have nh : ‖(1 / 2 : ℂ)‖ = 1 / 2 := by norm_num
  have := C100_error i binary32_accurate (by norm_num) (by norm_num) (f := ⟨1, 0, 0, -1, 1 / 4⟩) (z := 1 / 2)
    (w := 1 / 2) (by push_cast; norm_num) (by push_cast; norm_num) (by rw [nh]; norm_num) (by rw [nh]; norm_num)
    (G := 4) (F := 5 / 4) (B := 1) (by rw [nh]; norm_num) (by norm_num [abs_of_pos]) (by norm_num) (by norm_num)
    hx hr hy₀ n
  refine this.trans ?_
  norm_num

/-- There is a response to compare with. -/
example : ∃ y, Response (Implementation.cpp.step binary32 ⟨1, 0, 0, -1, 1 / 4⟩) (fun n => if n = 0 then 1 else 0) y :=
  C100_total _ _ _ _

end Verif.FloatBiquad
