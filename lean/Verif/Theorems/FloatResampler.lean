import Verif.Model.FloatResampler
import Verif.Proof.FloatResampler
import Verif.Theorems.Resampler

/-!
# C102: accuracy of the resamplers in floating point

`Rounding.Accurate rnd u η` is what is used of the rounding: `binary32` has `u = 2^-24` and `η = 2^-150`
(`Rounding.binary32_accurate`). The coefficients `h` are the numbers stored in the filters.
-/

namespace Verif.FloatResampler

open Verif.Rounding
open Verif.Resampler (Mac St GoodFactor makeC makeQ reset runBlocks processC)

variable {rnd : ℝ → ℝ} {u η : ℝ}

theorem forall₂_getElem? {α β : Type*} {P : α → β → Prop} {l : List α} {m : List β} (h : List.Forall₂ P l m) (k : ℕ) :
    (l[k]? = none ∧ m[k]? = none) ∨ ∃ x y, l[k]? = some x ∧ m[k]? = some y ∧ P x y := by
  induction h generalizing k with
  | nil => left; simp
  | cons h _ ih =>
    cases k with
    | zero => right; exact ⟨_, _, rfl, rfl, h⟩
    | succ k => simpa using ih k

theorem getD_channel {ι : Type} (r : ℕ) (l : List (ι → ℝ)) (i : ι) (k : ℕ) :
    (List.replicate r (0 : ℝ) ++ l.map (fun v : ι → ℝ => v i)).getD k 0 = (List.replicate r (0 : ι → ℝ) ++ l).getD k 0 i := by
  have : List.replicate r (0 : ℝ) ++ l.map (fun v : ι → ℝ => v i) = (List.replicate r (0 : ι → ℝ) ++ l).map (fun v : ι → ℝ => v i) := by
    rw [List.map_append, List.map_replicate]; rfl
  rw [this, List.getD_eq_getElem?_getD, List.getD_eq_getElem?_getD, List.getElem?_map]
  cases (List.replicate r (0 : ι → ℝ) ++ l)[k]? <;> rfl

/-- **C102.** The C resampler in floating point, with or without fused multiply-add, for every cutting of the input into
blocks it accepts: it produces an output exactly when the exact resampler does, and the error of output `m` is at most
`((1 + u)^n - 1)` times the sum of the absolute values of the products it is the sum of, with `n = 2 r + 2`, and a term
for underflow. -/
theorem C102_c_accuracy (hr : Accurate rnd u η) (hu : 0 ≤ u) [A : Mac ℝ ℝ]
    (hA : ∀ s h v, IsMulAdd rnd h v s (A.mac s h v)) {h : ℚ → ℝ} {a b r : ℕ} (hG : GoodFactor a b r) (maxInput : ℕ)
    (bs : List (List ℝ)) (hbs : ∀ x ∈ bs, x.length ≤ maxInput) :
    ∃ yss s', runBlocks (processC (makeC h a b r) maxInput) (reset (makeC h a b r)) bs = some (yss, s') ∧
      ∀ m, if m * a / b + r < bs.flatten.length then
        ∃ y, yss.flatten[m]? = some y ∧ |y - Resampler.Spec.polyphase h a b r bs.flatten m| ≤
          ((1 + u) ^ (2 * r + 2) - 1) * Resampler.Spec.polyphase (fun q => |h q|) a b r (bs.flatten.map abs) m
            + (4 * r + 3) * η * (1 + u) ^ (2 * r + 2)
        else yss.flatten[m]? = none := by
  have hc : (makeC h a b r).Wf := Resampler.Built.wf (Or.inl rfl) hG
  have hs := Resampler.reset_ok (M := ℝ) hc
  rw [Resampler.runBlocks_processC hG maxInput bs _ hs hbs]
  obtain ⟨yss, h1, h2⟩ := Resampler.runBlocks_ok hc hs bs
  refine ⟨yss, _, h1, fun m => ?_⟩
  rw [← h2]
  change if m * a / b + r < bs.flatten.length then
    ∃ y, (Resampler.outFrom (makeC h a b r) 0 (List.replicate r 0 ++ bs.flatten))[m]? = some y ∧ _ else
      (Resampler.outFrom (makeC h a b r) 0 (List.replicate r 0 ++ bs.flatten))[m]? = none
  rw [Resampler.outFrom_reset_tap (Or.inl rfl) hG]
  split
  · rename_i hm
    refine ⟨_, rfl, ?_⟩
    obtain ⟨d, k, d1, _, d2, d3⟩ := dotSum_machine hA
      (fun t => (makeC h a b r).coeffs.getD (m * a % b * (2 * r + 1) + t) 0)
      (fun t => (List.replicate r 0 ++ bs.flatten).getD (m * a / b + t) 0) (2 * r + 1)
    have hl := products_length h a b r bs.flatten m
    have e := IsDot.bound (l := products h a b r bs.flatten m) hr hu d3 (by omega) (by omega)
    rw [exactDot_products h hG.2.1, absDot_products h hG.2.1, hl, dotBound] at e
    refine e.trans (le_of_eq ?_)
    push_cast
    ring
  · rfl

/-- **C102.** The same for `QResampler`, for every channel, whatever order Eigen chooses for its sums. -/
theorem C102_q_accuracy (hr : Accurate rnd u η) (hu : 0 ≤ u) {ι : Type} {h : ℚ → ℝ} {a b r : ℕ} (hG : GoodFactor a b r)
    (calls : List (Arith ℝ (ι → ℝ) × List (ι → ℝ))) (hcalls : ∀ c ∈ calls, c.1.Rounds rnd) :
    ∃ yss s', runCalls (makeQ h a b r) (reset (makeQ h a b r)) calls = some (yss, s') ∧
      ∀ m, if m * a / b + r < (calls.map Prod.snd).flatten.length then
        ∃ y, yss.flatten[m]? = some y ∧ ∀ i,
          |y i - Resampler.Spec.polyphase h a b r ((calls.map Prod.snd).flatten.map (· i)) m| ≤
            ((1 + u) ^ (2 * r + 2) - 1) *
                Resampler.Spec.polyphase (fun q => |h q|) a b r (((calls.map Prod.snd).flatten.map (· i)).map abs) m
              + (4 * r + 3) * η * (1 + u) ^ (2 * r + 2)
        else yss.flatten[m]? = none := by
  have hc : (makeQ h a b r).Wf := Resampler.Built.wf (Or.inr rfl) hG
  have hs := Resampler.reset_ok (M := ι → ℝ) hc
  obtain ⟨zss, h1, h2⟩ := runCalls_ok hc hs.1 hs.2 calls
  refine ⟨zss, _, h1, fun m => ?_⟩
  have h3 := Resampler.outFrom_reset_tap (M := Sym ℝ (ι → ℝ)) (c := makeQ h a b r) (Or.inr rfl) hG
    ((calls.map Prod.snd).flatten.map emb) m
  have hx : (List.replicate r 0 ++ (calls.map Prod.snd).flatten.map emb : List (Sym ℝ (ι → ℝ))) =
      (List.replicate r 0 ++ (calls.map Prod.snd).flatten).map emb := by
    rw [List.map_append, List.map_replicate]; rfl
  rw [hx, List.length_map] at h3
  have h4 := forall₂_getElem? h2 m
  change (_ ∧ (Resampler.outFrom (makeQ h a b r) 0 ((List.replicate r 0 ++ (calls.map Prod.snd).flatten).map emb))[m]? = none) ∨
    ∃ x y, _ ∧ (Resampler.outFrom (makeQ h a b r) 0 ((List.replicate r 0 ++ (calls.map Prod.snd).flatten).map emb))[m]? = some y
      ∧ _ at h4
  rw [h3] at h4
  split at h4 <;> rename_i hm
  · rw [if_pos hm]
    rcases h4 with ⟨_, h4⟩ | ⟨z, y, h4, h5, c, h6, h7⟩
    · cases h4
    refine ⟨z, h4, fun i => ?_⟩
    injection h5 with h5
    have e := evaluates_error hr hu (hcalls c h6) h7 i
    have hy := tapAt_sym (makeQ h a b r) (List.replicate r 0 ++ (calls.map Prod.snd).flatten) (m * a)
    have hp : (y.2.map fun p => (p.1, p.2 i)) = products h a b r ((calls.map Prod.snd).flatten.map (· i)) m := by
      rw [← h5, hy, List.map_map]
      apply List.map_congr_left
      intro t _
      simp only [Function.comp, Prod.mk.injEq]
      refine ⟨rfl, ?_⟩
      exact (getD_channel r (calls.map Prod.snd).flatten i _).symm
    have hl : y.2.length = 2 * r + 1 := by
      rw [← h5, hy, List.length_map, List.length_range]; rfl
    rw [hp, exactDot_products h hG.2.1, absDot_products h hG.2.1, hl, dotBound] at e
    refine e.trans (le_of_eq ?_)
    push_cast
    ring
  · rw [if_neg hm]
    rcases h4 with ⟨h4, _⟩ | ⟨z, y, _, h5, _⟩
    · exact h4
    · cases h5

/-- **C102.** The bound in terms of the peak `X` of the input and of the largest sum `H` of the absolute values of the
coefficients of a filter: with `2 (2 r + 2) u ≤ 1`, at most `(4 r + 4) u H X` and a term for underflow. -/
theorem C102_bound (hη : 0 ≤ η) (hu : 0 ≤ u) {h : ℚ → ℝ} {a b r : ℕ} (hb : 0 < b) (hur : 2 * (2 * r + 2) * u ≤ 1)
    {x : List ℝ} {H X : ℝ} (hX0 : 0 ≤ X)
    (hH : ∀ p < b, ∑ t ∈ Finset.range (2 * r + 1), |h ((p : ℚ) / b + (r - t))| ≤ H) (hX : ∀ v ∈ x, |v| ≤ X) (m : ℕ) :
    ((1 + u) ^ (2 * r + 2) - 1) * Resampler.Spec.polyphase (fun q => |h q|) a b r (x.map abs) m
        + (4 * r + 3) * η * (1 + u) ^ (2 * r + 2) ≤
      (4 * r + 4) * u * (H * X) + (8 * r + 6) * η := by
  have e1 := absDot_products_le (a := a) h hb x m hH hX hX0
  have e0 := absDot_nonneg (products h a b r x m)
  rw [absDot_products h hb] at e1 e0
  have e2 := pow_bound hu (2 * r + 2) (by push_cast; linarith)
  push_cast at e2
  have e3 : (1 : ℝ) ≤ (1 + u) ^ (2 * r + 2) := one_le_pow₀ (by linarith)
  generalize (1 + u) ^ (2 * r + 2) = g at *
  generalize Resampler.Spec.polyphase (fun q => |h q|) a b r (x.map abs) m = P at *
  have hr0 : (0 : ℝ) ≤ r := Nat.cast_nonneg r
  have a1 : (g - 1) * P ≤ (4 * r + 4) * u * P := mul_le_mul_of_nonneg_right (by linarith) e0
  have a2 : (4 * r + 4) * u * P ≤ (4 * r + 4) * u * (H * X) := mul_le_mul_of_nonneg_left e1 (by positivity)
  have a3 : (4 * r + 3) * η * g ≤ (4 * r + 3) * η * 2 := mul_le_mul_of_nonneg_left (by linarith) (by positivity)
  linarith

/-! An arithmetic that rounds: `float` with loops. -/

/-- A product of matrices as a loop over the columns for each channel. -/
noncomputable def loopArith (rnd : ℝ → ℝ) (ι : Type) : Arith ℝ (ι → ℝ) where
  dot _ h v i := (h.zip (v.map (· i))).foldl (fun s p => rnd (s + rnd (p.1 * p.2))) 0
  add x y i := rnd (x i + y i)

theorem loopArith_rounds (rnd : ℝ → ℝ) (ι : Type) : (loopArith rnd ι).Rounds rnd :=
  ⟨fun _ _ _ _ _ => foldl_machine _, fun _ _ _ => rfl⟩

/-- The hypotheses of `C102_q_accuracy` and of `C102_bound` hold for `float`, two channels, the factor 3/2 and radius
5. -/
example (h : ℚ → ℝ) (x y : List (Fin 2 → ℝ)) : ∃ yss s', runCalls (makeQ h 3 2 5) (reset (makeQ h 3 2 5))
    [(loopArith binary32 (Fin 2), x), (loopArith binary32 (Fin 2), y)] = some (yss, s') ∧
      (4 < x.length + y.length - 5 → ∃ z, yss.flatten[3]? = some z) := by
  obtain ⟨yss, s', h1, h2⟩ := C102_q_accuracy binary32_accurate (by norm_num) (h := h) (a := 3) (b := 2) (r := 5)
    (by decide) [(loopArith binary32 (Fin 2), x), (loopArith binary32 (Fin 2), y)]
    (by
      intro c hc
      simp only [List.mem_cons, List.not_mem_nil, or_false] at hc
      rcases hc with rfl | rfl <;> exact loopArith_rounds _ _)
  refine ⟨yss, s', h1, fun hl => ?_⟩
  have h3 := h2 3
  rw [if_pos (by simp; omega)] at h3
  obtain ⟨z, hz, _⟩ := h3
  exact ⟨z, hz⟩

example : 2 * (2 * (5 : ℕ) + 2) * ((1 : ℝ) / 2 ^ 24) ≤ 1 := by norm_num

/-- The hypothesis of `C102_c_accuracy` on the arithmetic. -/
example : ∃ A : Mac ℝ ℝ, ∀ s h v, IsMulAdd binary32 h v s (A.mac s h v) :=
  ⟨⟨fun s h v => binary32 (h * v + s)⟩, fun _ _ _ => Or.inr rfl⟩

end Verif.FloatResampler
