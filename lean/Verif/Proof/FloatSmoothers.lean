import Verif.Model.FloatSmoothers
import Verif.Theorems.Smoothers
import Verif.Proof.Rounding
import Verif.Proof.Ieee

/-! Lemmas about the smoothers in floating point. -/

namespace Verif.FloatSmoothers
open Verif.Rounding Verif.VectorUtil

section
variable {rnd : ℝ → ℝ} {u η c : ℝ}

/-- The error of one pass for numbers up to `B`. -/
noncomputable def passError (u η c B : ℝ) : ℝ := 2 * (7 * u + u / c) * B + 4 * η / c

theorem passError_nonneg (u0 : 0 ≤ u) (η0 : 0 ≤ η) (c0 : 0 < c) {B : ℝ} (B0 : 0 ≤ B) : 0 ≤ passError u η c B := by
  unfold passError; positivity

/-- One step. -/
theorem step_close (hr : Accurate rnd u η) (u0 : 0 ≤ u) (u1 : u ≤ 1 / 64) (c0 : 0 < c) (c1 : c ≤ 1)
    {B ε G s x s' x' s1 : ℝ} (hG : G = passError u η c B) (B0 : 0 ≤ B) (hε : 0 ≤ ε) (hB : ε + G ≤ B) (hs : |s| ≤ B) (hx : |x| ≤ B)
    (es : |s' - s| ≤ ε + G) (ex : |x' - x| ≤ ε) (h : IsMulAdd rnd c (rnd (x' - s')) s' s1) :
    |s1 - (s + c * (x - s))| ≤ ε + G := by
  have η0 := hr.eta_nonneg
  have G0 : 0 ≤ G := hG ▸ passError_nonneg u0 η0 c0 B0
  have e1 := hr (x' - s')
  have e2 := h.error hr u0
  generalize rnd (x' - s') = d at *
  have s2 : |s'| ≤ 2 * B := by
    have := abs_add_le (s' - s) s
    rw [sub_add_cancel] at this
    linarith
  have x2 : |x'| ≤ 2 * B := by
    have := abs_add_le (x' - x) x
    rw [sub_add_cancel] at this
    linarith
  have d1 : |x' - s'| ≤ 4 * B := (abs_sub x' s').trans (by linarith)
  have d2 : |d - (x' - s')| ≤ u * (4 * B) + η := by
    have := mul_le_mul_of_nonneg_left d1 u0
    linarith
  have d3 : |d| ≤ 4 * B + (u * (4 * B) + η) := by
    have := abs_add_le (d - (x' - s')) (x' - s')
    rw [sub_add_cancel] at this
    linarith
  have m : (1 - c) * |s' - s| ≤ (1 - c) * (ε + G) := mul_le_mul_of_nonneg_left es (by linarith)
  have m2 : c * |x' - x| ≤ c * ε := mul_le_mul_of_nonneg_left ex c0.le
  have m3 : c * |d - (x' - s')| ≤ c * (u * (4 * B) + η) := mul_le_mul_of_nonneg_left d2 c0.le
  have t : |s1 - (s + c * (x - s))| ≤ |s1 - (c * d + s')| + (c * |d - (x' - s')| + ((1 - c) * |s' - s| + c * |x' - x|)) := by
    have a1 := abs_add_le (s1 - (c * d + s')) (c * (d - (x' - s')) + ((1 - c) * (s' - s) + c * (x' - x)))
    have a2 := abs_add_le (c * (d - (x' - s'))) ((1 - c) * (s' - s) + c * (x' - x))
    have a3 := abs_add_le ((1 - c) * (s' - s)) (c * (x' - x))
    rw [show s1 - (c * d + s') + (c * (d - (x' - s')) + ((1 - c) * (s' - s) + c * (x' - x))) =
      s1 - (s + c * (x - s)) by ring] at a1
    rw [abs_mul, abs_of_pos c0] at a2
    rw [abs_mul, abs_mul, abs_of_pos c0, abs_of_nonneg (by linarith : (0 : ℝ) ≤ 1 - c)] at a3
    linarith
  have m4 : |c * d| ≤ c * (4 * B + (u * (4 * B) + η)) := by
    rw [abs_mul, abs_of_pos c0]; exact mul_le_mul_of_nonneg_left d3 c0.le
  have m5 := mul_le_mul_of_nonneg_left m4 (by positivity : 0 ≤ 2 * u + u ^ 2)
  have m6 := mul_le_mul_of_nonneg_left s2 u0
  have cG : c * G = 14 * (c * (u * B)) + 2 * (u * B) + 4 * η := by
    rw [hG]; unfold passError; field_simp; ring
  have q1 : 0 ≤ c * (u * B) := by positivity
  have q2 : (2 * u + u ^ 2) * (c * (4 * B + (u * (4 * B) + η))) ≤ 17 / 2 * (c * (u * B)) + 1 / 20 * η := by
    have w1 : 2 * u + u ^ 2 ≤ 129 / 64 * u := by nlinarith
    have w2 : c * (4 * B + (u * (4 * B) + η)) ≤ 65 / 16 * (c * B) + η := by
      have := mul_le_mul_of_nonneg_right u1 (by positivity : 0 ≤ c * B)
      have := mul_le_mul_of_nonneg_right c1 η0
      linarith
    have w3 := mul_le_mul w1 w2 (by positivity) (by positivity)
    have w4 := mul_le_mul_of_nonneg_right u1 η0
    linarith
  have q3 := mul_le_mul_of_nonneg_right c1 η0
  have q4 := mul_le_mul_of_nonneg_right u1 η0
  linarith

/-- Element by element, two lists differ by at most `ε`. -/
def Close (ε : ℝ) (x x' : List ℝ) : Prop := List.Forall₂ (fun a b => |b - a| ≤ ε) x x'

theorem forwardSmooth_cons (c s v : ℝ) (x : List ℝ) : forwardSmooth c s (v :: x) =
    ((forwardSmooth c (s + c * (v - s)) x).1, (s + c * (v - s)) :: (forwardSmooth c (s + c * (v - s)) x).2) := rfl

/-- One forward pass. -/
theorem forward_close (hr : Accurate rnd u η) (u0 : 0 ≤ u) (u1 : u ≤ 1 / 64) (c0 : 0 < c) (c1 : c ≤ 1)
    {B ε G : ℝ} (hG : G = passError u η c B) (B0 : 0 ≤ B) (hε : 0 ≤ ε) (hB : ε + G ≤ B) :
    ∀ {x x' : List ℝ} {s s' t : ℝ} {y : List ℝ}, |s| ≤ B → (∀ v ∈ x, |v| ≤ B) → |s' - s| ≤ ε + G → Close ε x x' →
      Forward rnd c s' x' t y → |t - (forwardSmooth c s x).1| ≤ ε + G ∧ Close (ε + G) (forwardSmooth c s x).2 y := by
  intro x
  induction x with
  | nil =>
    intro x' s s' t y hs _ es hx h
    cases hx
    obtain ⟨rfl, rfl⟩ := h
    exact ⟨es, .nil⟩
  | cons v x ih =>
    intro x' s s' t y hs hx es hc h
    cases hc with
    | cons hv hc =>
      obtain ⟨s1, y', h1, h2, rfl⟩ := h
      have vB := hx v (by simp)
      have e := step_close hr u0 u1 c0 c1 hG B0 hε hB hs vB es hv h1
      have sB : |s + c * (v - s)| ≤ B := by
        rw [abs_le] at hs vB ⊢
        constructor <;> nlinarith
      obtain ⟨i1, i2⟩ := ih sB (fun w hw => hx w (by simp [hw])) e hc h2
      rw [forwardSmooth_cons]
      exact ⟨i1, .cons e i2⟩

theorem backward_close (hr : Accurate rnd u η) (u0 : 0 ≤ u) (u1 : u ≤ 1 / 64) (c0 : 0 < c) (c1 : c ≤ 1)
    {B ε G : ℝ} (hG : G = passError u η c B) (B0 : 0 ≤ B) (hε : 0 ≤ ε) (hB : ε + G ≤ B)
    {x x' : List ℝ} {s s' t : ℝ} {y : List ℝ} (hs : |s| ≤ B) (hx : ∀ v ∈ x, |v| ≤ B) (es : |s' - s| ≤ ε + G)
    (hc : Close ε x x') (h : Backward rnd c s' x' t y) :
    |t - (backwardSmooth c s x).1| ≤ ε + G ∧ Close (ε + G) (backwardSmooth c s x).2 y := by
  obtain ⟨h1, h2⟩ := forward_close hr u0 u1 c0 c1 hG B0 hε hB hs (by simpa using hx) es
    (List.forall₂_reverse_iff.2 hc) h
  refine ⟨h1, ?_⟩
  have := List.forall₂_reverse_iff.2 h2
  rwa [List.reverse_reverse] at this

/-- `state *= (1.0f - coefficient)`. -/
theorem scale_close (hr : Accurate rnd u η) (u0 : 0 ≤ u) (u1 : u ≤ 1 / 64) (hη : η ≤ u) (c0 : 0 < c) (c1 : c ≤ 1)
    {B ε G s s' : ℝ} (hG : G = passError u η c B) (B0 : 0 ≤ B) (hB : ε ≤ B) (hs : |s| ≤ B) (es : |s' - s| ≤ ε) :
    |rnd (s' * rnd (1 - c)) - s * (1 - c)| ≤ ε + G := by
  have η0 := hr.eta_nonneg
  have e1 := hr (1 - c)
  rw [abs_of_nonneg (by linarith : (0 : ℝ) ≤ 1 - c)] at e1
  have e1' : |rnd (1 - c) - (1 - c)| ≤ u + η := by
    have := mul_le_mul_of_nonneg_left (by linarith : 1 - c ≤ 1) u0
    linarith
  have e2 := hr (s' * rnd (1 - c))
  generalize rnd (1 - c) = r at *
  have s2 : |s'| ≤ 2 * B := by
    have := abs_add_le (s' - s) s
    rw [sub_add_cancel] at this
    linarith
  have r2 : |r| ≤ 1 + (u + η) := by
    have := abs_add_le (r - (1 - c)) (1 - c)
    rw [sub_add_cancel, abs_of_nonneg (by linarith : (0 : ℝ) ≤ 1 - c)] at this
    linarith
  have t : |rnd (s' * r) - s * (1 - c)| ≤ |rnd (s' * r) - s' * r| + (|s'| * |r - (1 - c)| + |s' - s| * (1 - c)) := by
    have a1 := abs_add_le (rnd (s' * r) - s' * r) (s' * (r - (1 - c)) + (s' - s) * (1 - c))
    have a2 := abs_add_le (s' * (r - (1 - c))) ((s' - s) * (1 - c))
    rw [show rnd (s' * r) - s' * r + (s' * (r - (1 - c)) + (s' - s) * (1 - c)) = rnd (s' * r) - s * (1 - c) by ring] at a1
    rw [abs_mul, abs_mul, abs_of_nonneg (by linarith : (0 : ℝ) ≤ 1 - c)] at a2
    linarith
  have m1 : |s'| * |r - (1 - c)| ≤ 2 * B * (u + η) := mul_le_mul s2 e1' (abs_nonneg _) (by positivity)
  have m2 : |s' - s| * (1 - c) ≤ ε := by
    have := abs_nonneg (s' - s)
    nlinarith
  have m3 : u * |s' * r| ≤ u * (2 * B * (1 + (u + η))) := by
    rw [abs_mul]
    exact mul_le_mul_of_nonneg_left (mul_le_mul s2 r2 (abs_nonneg _) (by positivity)) u0
  have gG : 14 * (u * B) + 4 * η ≤ G := by
    rw [hG]
    unfold passError
    have : 0 ≤ 2 * (u / c) * B := by positivity
    have : η ≤ η / c := by rw [le_div_iff₀ c0]; nlinarith
    rw [mul_div_assoc]
    linarith
  have m4 := mul_le_mul_of_nonneg_right hη B0
  have m5 : u * (2 * B * (1 + (u + η))) ≤ 17 / 8 * (u * B) := by
    have := mul_le_mul_of_nonneg_left (by linarith : 1 + (u + η) ≤ 17 / 16) (by positivity : 0 ≤ 2 * (u * B))
    linarith
  have := mul_nonneg u0 B0
  linarith

/-- One iteration of the loop. -/
theorem pass_close (hr : Accurate rnd u η) (u0 : 0 ≤ u) (u1 : u ≤ 1 / 64) (hη : η ≤ u) (c0 : 0 < c) (c1 : c ≤ 1)
    {B ε G : ℝ} (hG : G = passError u η c B) (B0 : 0 ≤ B) (hε : 0 ≤ ε) (hB : ε + 2 * G ≤ B)
    {x x' : List ℝ} {s s' t : ℝ} {y : List ℝ} (hs : |s| ≤ B) (hx : ∀ v ∈ x, |v| ≤ B) (es : |s' - s| ≤ ε)
    (hc : Close ε x x') (h : Pass rnd c s' x' t y) :
    |t - (smoothPass c (s, x)).1| ≤ ε + 2 * G ∧ Close (ε + 2 * G) (smoothPass c (s, x)).2 y := by
  have G0 : 0 ≤ G := hG ▸ passError_nonneg u0 hr.eta_nonneg c0 B0
  obtain ⟨s1, y1, hf, hb⟩ := h
  have sc : ∀ s : ℝ, |s| ≤ B → |s * (1 - c)| ≤ B := by
    intro s hs
    rw [abs_mul, abs_of_nonneg (by linarith : (0 : ℝ) ≤ 1 - c)]
    have := abs_nonneg s
    nlinarith
  have e1 := scale_close hr u0 u1 hη c0 c1 hG B0 (by linarith) hs es
  obtain ⟨f1, f2⟩ := forward_close hr u0 u1 c0 c1 hG B0 hε (by linarith) (sc s hs) hx e1 hc hf
  have rg := forward_range c (-B) B c0.le c1 x (s * (1 - c)) (abs_le.1 (sc s hs)).1 (abs_le.1 (sc s hs)).2
    (fun v hv => abs_le.1 (hx v hv))
  have e2 := scale_close hr u0 u1 hη c0 c1 hG B0 (by linarith) (abs_le.2 rg.1) f1
  have := backward_close hr u0 u1 c0 c1 hG B0 (by linarith) (by linarith) (sc _ (abs_le.2 rg.1))
    (fun v hv => abs_le.2 (rg.2 v hv)) e2 f2 hb
  rwa [show ε + G + G = ε + 2 * G by ring] at this

end

end Verif.FloatSmoothers
