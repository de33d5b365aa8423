import Verif.Model.Biquad
import Verif.Proof.Series
import Mathlib.Tactic.FieldSimp

/-!
# C21: biquad filters realise their difference equation
-/

namespace Verif.Biquad
open Verif.Stream Verif.LinearFilter.Spec Verif.Series PowerSeries

variable {K : Type} [Field K]

/-- The unnormalised coefficient lists of the documented transfer function. -/
def Coeffs.num (c : Coeffs K) : List K := [c.b0, c.b1, c.b2]
def Coeffs.den (c : Coeffs K) : List K := [c.a0, c.a1, c.a2]

theorem step_series (f : Filter K) (x : ℕ → K) :
    ps [1, f.fb1, f.fb2] * PowerSeries.mk (outAt (step f) resetState x)
      = ps [f.ff0, f.ff1, f.ff2] * PowerSeries.mk x := by
  let s1 : ℕ → K := fun n => (stateAt (step f) resetState x n).1
  let s2 : ℕ → K := fun n => (stateAt (step f) resetState x n).2
  let w : ℕ → K := fun n => x n - (s1 n * f.fb1 + s2 n * f.fb2)
  have h1 : PowerSeries.mk s1 = X * PowerSeries.mk w := mk_delay rfl (fun n => rfl)
  have h2 : PowerSeries.mk s2 = X * PowerSeries.mk s1 := mk_delay rfl (fun n => rfl)
  have hw : PowerSeries.mk w + C f.fb1 * PowerSeries.mk s1 + C f.fb2 * PowerSeries.mk s2
      = PowerSeries.mk x := by
    ext n; simp [w]; ring
  have hy : PowerSeries.mk (outAt (step f) resetState x)
      = C f.ff0 * PowerSeries.mk w + C f.ff1 * PowerSeries.mk s1 + C f.ff2 * PowerSeries.mk s2 := by
    ext n; simp [w, outAt, step, s1, s2]; ring
  rw [hy, ← hw, h2, h1]
  simp only [ps_cons, ps_nil, map_one]
  ring

theorem step_diffEq [DecidableEq K] {c : Coeffs K} {f : Filter K} (hf : init c = some f) (xs : List K) :
    DiffEq c.num c.den xs (runSamples (step f) resetState xs).2 := by
  unfold init at hf
  split at hf
  · simp at hf
  · rename_i h0
    simp at hf
    subst hf
    have h := diffEq_of_series (step_series
      (⟨1 / c.a0 * c.b0, 1 / c.a0 * c.b1, 1 / c.a0 * c.b2, 1 / c.a0 * c.a1, 1 / c.a0 * c.a2⟩ :
        Filter K) (fun n => xs.getD n 0))
    simp only [one_div] at h
    refine DiffEq.scale c.a0 ?_ ?_ h
    · simp only [Coeffs.num, ps_cons, ps_nil, map_mul]
      have : C c.a0 * C c.a0⁻¹ = (1 : K⟦X⟧) := by rw [← map_mul, mul_inv_cancel₀ h0, map_one]
      linear_combination (-(C c.b0 + X * (C c.b1 + X * C c.b2))) * this
    · simp only [Coeffs.den, ps_cons, ps_nil, map_mul, map_one]
      have : C c.a0 * C c.a0⁻¹ = (1 : K⟦X⟧) := by rw [← map_mul, mul_inv_cancel₀ h0, map_one]
      linear_combination (-(X * (C c.a1 + X * C c.a2))) * this

theorem runSamples_stepMulti {C : ℕ} (f : Filter K) (ch : Fin C) : ∀ (xs : List (Fin C → K))
    (s : Fin C → K × K),
    (runSamples (stepMulti f) s xs).1 ch = (runSamples (step f) (s ch) (xs.map (· ch))).1 ∧
    (runSamples (stepMulti f) s xs).2.map (· ch)
      = (runSamples (step f) (s ch) (xs.map (· ch))).2
  | [], s => ⟨rfl, rfl⟩
  | x :: xs, s => by
    obtain ⟨h1, h2⟩ := runSamples_stepMulti f ch xs (stepMulti f s x).1
    exact ⟨by simpa [runSamples, stepMulti] using h1, by simpa [runSamples, stepMulti] using h2⟩

/-- **C21.** For all coefficients with `a0 ≠ 0`, every number of channels, every input and every way
of cutting it into `ProcessBlock` calls after `Init`, each channel of the concatenated output
satisfies the documented difference equation
`a0 y[n] + a1 y[n-1] + a2 y[n-2] = b0 x[n] + b1 x[n-1] + b2 x[n-2]` with zero history; each
returned block has the length of its input block. -/
theorem C21_difference_equation [DecidableEq K] {C : ℕ} (c : Coeffs K) (h0 : c.a0 ≠ 0)
    (blocks : List (List (Fin C → K))) :
    ∃ f, init c = some f ∧
      let outs := (runBlocks (processBlock f) (fun _ => resetState) blocks).2
      outs.map List.length = blocks.map List.length ∧
      ∀ ch, DiffEq [c.b0, c.b1, c.b2] [c.a0, c.a1, c.a2]
        (blocks.flatten.map (· ch)) (outs.flatten.map (· ch)) := by
  refine ⟨⟨1 / c.a0 * c.b0, 1 / c.a0 * c.b1, 1 / c.a0 * c.b2, 1 / c.a0 * c.a1, 1 / c.a0 * c.a2⟩,
    by simp [init, h0], ?_⟩
  obtain ⟨_, h2, h3⟩ := runBlocks_runSamples (stepMulti
    (⟨1 / c.a0 * c.b0, 1 / c.a0 * c.b1, 1 / c.a0 * c.b2, 1 / c.a0 * c.a1, 1 / c.a0 * c.a2⟩ :
      Filter K)) blocks (fun _ : Fin C => resetState)
  refine ⟨h3, ?_⟩
  intro ch
  show DiffEq _ _ _ ((runBlocks (runSamples (stepMulti _)) _ blocks).2.flatten.map _)
  rw [h2, (runSamples_stepMulti _ ch _ _).2]
  exact step_diffEq (c := c) (by simp [init, h0]) _

/-- **C21.** The difference equation determines the output, so the theorem above fixes every output
sample. -/
theorem C21_unique (c : Coeffs K) (h0 : c.a0 ≠ 0) {xs ys zs : List K}
    (h1 : DiffEq [c.b0, c.b1, c.b2] [c.a0, c.a1, c.a2] xs ys)
    (h2 : DiffEq [c.b0, c.b1, c.b2] [c.a0, c.a1, c.a2] xs zs) : ys = zs :=
  DiffEq.unique rfl (isUnit_iff_ne_zero.mpr h0) h1 h2

/-- **C21.** `Init` aborts exactly when `a0 = 0`. -/
theorem C21_init_check [DecidableEq K] (c : Coeffs K) : init c = none ↔ c.a0 = 0 := by
  unfold init; split <;> simp_all

/-- **C21.** After `SetSteadyStateCondition(v)`, a constant input `v` of any length gives the
constant output `v (b0+b1+b2)/(a0+a1+a2)` from the first sample on. -/
theorem C21_steady_state [DecidableEq K] {c : Coeffs K} {f : Filter K} (hf : init c = some f)
    (hdc : c.a0 + c.a1 + c.a2 ≠ 0) (v : K) (n : ℕ) :
    (runSamples (step f) (steadyState f v) (List.replicate n v)).2
      = List.replicate n (v * ((c.b0 + c.b1 + c.b2) / (c.a0 + c.a1 + c.a2))) := by
  unfold init at hf
  split at hf
  · simp at hf
  · rename_i h0
    simp at hf
    subst hf
    have hsum : (c.a0⁻¹ * c.a1 + c.a0⁻¹ * c.a2 + 1) ≠ 0 := by
      intro h
      apply hdc
      have : c.a0 * (c.a0⁻¹ * c.a1 + c.a0⁻¹ * c.a2 + 1) = 0 := by rw [h, mul_zero]
      field_simp at this
      linear_combination this
    have hstep : step (⟨c.a0⁻¹ * c.b0, c.a0⁻¹ * c.b1, c.a0⁻¹ * c.b2, c.a0⁻¹ * c.a1, c.a0⁻¹ * c.a2⟩ :
        Filter K) (steadyState ⟨c.a0⁻¹ * c.b0, c.a0⁻¹ * c.b1, c.a0⁻¹ * c.b2, c.a0⁻¹ * c.a1,
          c.a0⁻¹ * c.a2⟩ v) v
        = (steadyState ⟨c.a0⁻¹ * c.b0, c.a0⁻¹ * c.b1, c.a0⁻¹ * c.b2, c.a0⁻¹ * c.a1,
          c.a0⁻¹ * c.a2⟩ v, v * ((c.b0 + c.b1 + c.b2) / (c.a0 + c.a1 + c.a2))) := by
      have hs2 : c.a0⁻¹ * c.a1 + c.a0⁻¹ * c.a2 + 1 = (c.a0 + c.a1 + c.a2) / c.a0 := by
        field_simp; ring
      simp only [step, steadyState, hs2, Prod.mk.injEq]
      refine ⟨⟨?_, trivial⟩, ?_⟩
      · field_simp; ring
      · field_simp; ring
    induction n with
    | zero => rfl
    | succ n ih => rw [List.replicate_succ, List.replicate_succ, runSamples, hstep, ih]

/-- **C21.** The portable C filter computes the same samples as the C++ filter. -/
theorem C21_portable_same (f : Filter K) (s : K × K) (xs : List K) :
    runSamples (portableStep f) s xs = runSamples (step f) s xs := by
  have : portableStep f = step f := by
    funext s x
    simp only [portableStep, step, Prod.mk.injEq, and_true]
    refine ⟨by ring, by ring⟩
  rw [this]

/-- Non-vacuity: the impulse response of `(1 + 2z⁻¹)/(2 - z⁻¹)` over ℚ, two blocks. -/
example : (runBlocks (processBlock (C := 1) (⟨1/2, 1, 0, -1/2, 0⟩ : Filter ℚ)) (fun _ => resetState)
    [[fun _ => 1], [fun _ => 0, fun _ => 0]]).2.map (·.map (· 0)) = [[1/2], [5/4, 5/8]] := by
  norm_num [runBlocks, processBlock, runSamples, stepMulti, step, resetState]

/-! ## Cascades -/

section Cascade

-- any arithmetic
variable {K : Type} [Add K] [Sub K] [Mul K]

theorem cascadeStep_length : ∀ (fs : List (Filter K × (K × K))) (x : K),
    (cascadeStep fs x).1.length = fs.length
  | [], _ => rfl
  | (f, s) :: rest, x => by simp [cascadeStep, cascadeStep_length rest]

theorem cascadeBlock_nil (fs : List (Filter K × (K × K))) : cascadeBlock fs [] = (fs, []) := by
  induction fs with
  | nil => rfl
  | cons p fs ih => obtain ⟨f, s⟩ := p; simp [cascadeBlock, runSamples, ih]

theorem runSamples_cascadeStep_len : ∀ (n : ℕ) (fs : List (Filter K × (K × K))),
    fs.length = n → ∀ (xs : List K), runSamples cascadeStep fs xs = cascadeBlock fs xs
  | 0, fs, hl, xs => by
    have : fs = [] := List.length_eq_zero_iff.mp hl
    subst this
    induction xs with
    | nil => rfl
    | cons x xs ih => simp [runSamples, cascadeStep, ih, cascadeBlock]
  | n + 1, [], hl, xs => by simp at hl
  | n + 1, (f, s) :: rest, hl, xs => by
    have hr : rest.length = n := by simpa using hl
    clear hl
    induction xs generalizing s rest with
    | nil => simp [runSamples, cascadeBlock_nil]
    | cons x xs ih =>
      simp only [runSamples, cascadeStep]
      rw [ih _ _ (by rw [cascadeStep_length]; exact hr)]
      simp only [cascadeBlock, runSamples]
      rw [← runSamples_cascadeStep_len n _ (by rw [cascadeStep_length]; exact hr),
        ← runSamples_cascadeStep_len n _ hr]
      simp [runSamples]

theorem runSamples_cascadeStep (fs : List (Filter K × (K × K))) (xs : List K) :
    runSamples cascadeStep fs xs = cascadeBlock fs xs :=
  runSamples_cascadeStep_len _ fs rfl xs

/-- **C21.** Processing a cascade sample by sample (`ProcessSample`) and block by block
(`ProcessBlock`, each stage in place over the whole block) gives the same output and state. -/
theorem C21_cascade_sample_block (fs : List (Filter K × (K × K))) (xs : List K) :
    runSamples cascadeStep fs xs = cascadeBlock fs xs := runSamples_cascadeStep fs xs

/-- **C21.** A cascade does not depend on the block split. -/
theorem C21_cascade_blocks (fs : List (Filter K × (K × K))) (blocks : List (List K)) :
    (runBlocks cascadeBlock fs blocks).2.flatten = (cascadeBlock fs blocks.flatten).2 := by
  have h : (cascadeBlock : List (Filter K × (K × K)) → List K → _) = runSamples cascadeStep := by
    funext fs xs; rw [runSamples_cascadeStep]
  rw [h]
  exact (runBlocks_runSamples cascadeStep blocks fs).2.1

end Cascade

end Verif.Biquad
