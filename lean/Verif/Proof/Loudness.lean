import Verif.Model.Loudness
import Verif.Spec.Loudness
import Verif.Theorems.Biquad
import Verif.Theorems.BiquadCascade
import Mathlib.Data.List.GetD

/-! # Lemmas about the loudness meter -/

namespace Verif.Loudness
open Verif.Stream Verif.Biquad Verif.BiquadCascade Verif.LinearFilter.Spec

variable {C : ℕ}

/-! ### Cascades -/

theorem cascadeBlock_length : ∀ (fs : List (Biquad.Filter ℝ × (ℝ × ℝ))) (xs : List ℝ),
    (cascadeBlock fs xs).2.length = xs.length
  | [], _ => rfl
  | (f, s) :: fs, xs => by
    simp only [cascadeBlock]
    rw [cascadeBlock_length fs, runSamples_length]

theorem cascadeBlock_append : ∀ (fs : List (Biquad.Filter ℝ × (ℝ × ℝ))) (xs ys : List ℝ),
    cascadeBlock fs (xs ++ ys) =
      ((cascadeBlock (cascadeBlock fs xs).1 ys).1,
        (cascadeBlock fs xs).2 ++ (cascadeBlock (cascadeBlock fs xs).1 ys).2) := by
  intro fs xs ys
  rw [← runSamples_cascadeStep, ← runSamples_cascadeStep, ← runSamples_cascadeStep]
  exact runSamples_append _ _ _ _

theorem cascadeBlock_nil : ∀ fs : List (Biquad.Filter ℝ × (ℝ × ℝ)), cascadeBlock fs [] = (fs, [])
  | [] => rfl
  | (f, s) :: fs => by simp only [cascadeBlock, runSamples, cascadeBlock_nil fs]

theorem cascadeBlock_reset : ∀ (fs : List (Biquad.Filter ℝ × (ℝ × ℝ))) (xs : List ℝ),
    cascadeReset (cascadeBlock fs xs).1 = cascadeReset fs
  | [], _ => rfl
  | (f, s) :: fs, xs => by
    have h := cascadeBlock_reset fs (runSamples (step f) s xs).2
    simp only [cascadeReset, cascadeBlock, List.map_cons] at h ⊢
    rw [h]

theorem cascadeInit_reset : ∀ {cs : List (Coeffs ℝ)} {fs : List (Biquad.Filter ℝ × (ℝ × ℝ))},
    cascadeInit cs = some fs → cascadeReset fs = fs
  | [], fs, h => by
    simp only [cascadeInit, List.mapM_nil, Option.pure_def, Option.some.injEq] at h
    subst h; rfl
  | c :: cs, fs, h => by
    simp only [cascadeInit, List.mapM_cons, Option.bind_eq_bind, Option.bind_eq_some_iff, Option.map_eq_some_iff,
      Option.pure_def, Option.some.injEq] at h
    obtain ⟨_, ⟨f, -, rfl⟩, gs, h2, rfl⟩ := h
    have := cascadeInit_reset (cs := cs) h2
    simp only [cascadeReset, List.map_cons] at this ⊢
    rw [this]

theorem coeffs_num {s : Stage ℝ} (h : s.Valid) : s.coeffs.num = s.b := by
  obtain ⟨b, a⟩ := s
  have h1 := h.lenB
  match b, h1 with
  | [x, y, z], _ => rfl

theorem coeffs_den {s : Stage ℝ} (h : s.Valid) : s.coeffs.den = s.a := by
  obtain ⟨b, a⟩ := s
  have h1 := h.lenA
  match a, h1 with
  | [x, y, z], _ => rfl

/-- A freshly initialised cascade realises the series of its stages. -/
theorem cascade_realises : ∀ {cs : List (Stage ℝ)}, (∀ s ∈ cs, s.Valid) →
    ∃ fs, cascadeInit (cs.map Stage.coeffs) = some fs ∧ ∀ xs, Spec.Series cs xs (cascadeBlock fs xs).2
  | [], _ => ⟨[], rfl, fun _ => rfl⟩
  | s :: cs, h => by
    obtain ⟨fs, e, hfs⟩ := cascade_realises (cs := cs) (fun t ht => h t (by simp [ht]))
    have hv := h s (by simp)
    obtain ⟨f, hf⟩ : ∃ f, Biquad.init s.coeffs = some f := by
      cases hi : Biquad.init s.coeffs with
      | none => exact absurd ((Biquad.C21_init_check _).1 hi) hv.a0
      | some f => exact ⟨f, rfl⟩
    refine ⟨(f, resetState) :: fs, ?_, ?_⟩
    · unfold cascadeInit at e ⊢
      rw [List.map_cons, List.mapM_cons, hf]
      simp only [Option.map_some, Option.bind_eq_bind, Option.bind_some, e]
      rfl
    · intro xs
      have h1 := Biquad.step_diffEq hf xs
      rw [coeffs_num hv, coeffs_den hv] at h1
      exact ⟨_, h1, hfs _⟩

/-! ### Series of filters -/

theorem Series.length : ∀ {cs : List (Stage ℝ)} {xs ys : List ℝ}, Spec.Series cs xs ys → ys.length = xs.length
  | [], _, _, h => congrArg List.length h
  | _ :: _, _, _, ⟨_, h1, h2⟩ => (Series.length h2).trans h1.1

theorem diffEq_unique {s : Stage ℝ} (hv : s.Valid) {xs ys zs : List ℝ} (h1 : DiffEq s.b s.a xs ys)
    (h2 : DiffEq s.b s.a xs zs) : ys = zs := by
  obtain ⟨b, a⟩ := s
  have hl := hv.lenA
  have h0 := hv.a0
  match a, hl with
  | x :: as, _ => exact DiffEq.unique rfl (isUnit_iff_ne_zero.mpr h0) h1 h2

theorem Series.unique : ∀ {cs : List (Stage ℝ)}, (∀ s ∈ cs, s.Valid) → ∀ {xs ys zs : List ℝ},
    Spec.Series cs xs ys → Spec.Series cs xs zs → ys = zs
  | [], _, _, _, _, h1, h2 => h1.trans h2.symm
  | s :: cs, h, xs, ys, zs, ⟨u, h1, h2⟩, ⟨v, h3, h4⟩ => by
    have := diffEq_unique (h s (by simp)) h1 h3
    subst this
    exact Series.unique (fun t ht => h t (by simp [ht])) h2 h4

theorem getD_map_mul (g : ℝ) (xs : List ℝ) (n : ℕ) : (xs.map (g * ·)).getD n 0 = g * xs.getD n 0 := by
  rw [List.getD_eq_getElem?_getD, List.getElem?_map, List.getD_eq_getElem?_getD]
  cases xs[n]? <;> simp

theorem past_map_mul (g : ℝ) (xs : List ℝ) (n k : ℕ) : past (xs.map (g * ·)) n k = g * past xs n k := by
  unfold past
  split
  · exact getD_map_mul g xs _
  · simp

theorem DiffEq.smul {b a xs ys : List ℝ} (g : ℝ) (h : DiffEq b a xs ys) :
    DiffEq b a (xs.map (g * ·)) (ys.map (g * ·)) := by
  refine ⟨by rw [List.length_map, List.length_map, h.1], fun n hn => ?_⟩
  rw [List.length_map] at hn
  have := h.2 n hn
  simp only [past_map_mul]
  simp only [mul_left_comm _ g]
  rw [← Finset.mul_sum, ← Finset.mul_sum, this]

theorem Series.smul (g : ℝ) : ∀ {cs : List (Stage ℝ)} {xs ys : List ℝ}, Spec.Series cs xs ys →
    Spec.Series cs (xs.map (g * ·)) (ys.map (g * ·))
  | [], _, _, h => congrArg (List.map (g * ·)) h
  | _ :: _, _, _, ⟨u, h1, h2⟩ => ⟨u.map (g * ·), DiffEq.smul g h1, Series.smul g h2⟩

/-! ### The meter -/

/-- The weighted sum of squares of one block. -/
noncomputable def sums (w : List ℝ) (y : Fin C → List ℝ) (n : ℕ) : List ℝ :=
  (List.range n).map fun t => ∑ c : Fin C, (y c).getD t 0 ^ 2 * w.getD c 0

theorem sums_length (w : List ℝ) (y : Fin C → List ℝ) (n : ℕ) : (sums w y n).length = n := by simp [sums]

theorem sums_append (w : List ℝ) (y z : Fin C → List ℝ) (n m : ℕ) (h : ∀ c, (y c).length = n) :
    sums w (fun c => y c ++ z c) (n + m) = sums w y n ++ sums w z m := by
  unfold sums
  rw [List.range_add, List.map_append, List.map_map]
  congr 1
  · apply List.map_congr_left
    intro t ht
    rw [List.mem_range] at ht
    refine Finset.sum_congr rfl fun c _ => ?_
    rw [List.getD_append _ _ _ _ (by rw [h]; exact ht)]
  · apply List.map_congr_left
    intro t ht
    dsimp only [Function.comp]
    refine Finset.sum_congr rfl fun c _ => ?_
    rw [List.getD_append_right _ _ _ _ (by rw [h]; omega), h, Nat.add_sub_cancel_left]

/-- A meter that can process. -/
structure Ready (m : Meter C) (f : Filters C) : Prop where
  filters : m.filters = some f
  weights : C ≤ m.weights.length

/-- The filters after a block. -/
noncomputable def Filters.after (f : Filters C) (w : List ℝ) (x : List (Fin C → ℝ)) : Filters C :=
  ⟨fun c => (cascadeBlock (f.kWeighting c) (x.map (· c))).1, f.averaging,
    (runSamples (Biquad.step f.averaging) f.averagingState
      (sums w (fun c => (cascadeBlock (f.kWeighting c) (x.map (· c))).2) x.length)).1⟩

/-- The averaged power of a block. -/
noncomputable def Filters.out (f : Filters C) (w : List ℝ) (x : List (Fin C → ℝ)) : List ℝ :=
  (runSamples (Biquad.step f.averaging) f.averagingState
    (sums w (fun c => (cascadeBlock (f.kWeighting c) (x.map (· c))).2) x.length)).2

theorem Ready.power {m : Meter C} {f : Filters C} (h : Ready m f) (x : List (Fin C → ℝ)) :
    m.power x = some (⟨m.weights, some (f.after m.weights x)⟩, f.out m.weights x) := by
  unfold Meter.power
  rw [h.filters]
  simp only
  rw [if_neg (not_lt.2 h.weights)]
  rfl

theorem out_length (f : Filters C) (w : List ℝ) (x : List (Fin C → ℝ)) : (f.out w x).length = x.length := by
  unfold Filters.out
  rw [runSamples_length, sums_length]

theorem after_nil (f : Filters C) (w : List ℝ) : f.after w [] = f := by
  obtain ⟨k, a, s⟩ := f
  simp [Filters.after, cascadeBlock_nil, sums, runSamples]

theorem sums_blocks (f : Filters C) (w : List ℝ) (x y : List (Fin C → ℝ)) :
    sums w (fun c => (cascadeBlock (f.kWeighting c) ((x ++ y).map (· c))).2) (x ++ y).length =
      sums w (fun c => (cascadeBlock (f.kWeighting c) (x.map (· c))).2) x.length ++
        sums w (fun c => (cascadeBlock ((f.after w x).kWeighting c) (y.map (· c))).2) y.length := by
  rw [List.length_append, ← sums_append]
  · congr 1
    funext c
    rw [List.map_append, cascadeBlock_append]
    rfl
  · intro c
    rw [cascadeBlock_length, List.length_map]

theorem after_append (f : Filters C) (w : List ℝ) (x y : List (Fin C → ℝ)) :
    f.after w (x ++ y) = (f.after w x).after w y := by
  have h := sums_blocks f w x y
  unfold Filters.after at h ⊢
  rw [h, runSamples_append]
  simp only [List.map_append, cascadeBlock_append]

theorem out_append (f : Filters C) (w : List ℝ) (x y : List (Fin C → ℝ)) :
    f.out w (x ++ y) = f.out w x ++ (f.after w x).out w y := by
  have h := sums_blocks f w x y
  unfold Filters.out
  rw [h, runSamples_append]
  rfl

/-- Any sequence of blocks gives the averaged power of the concatenated signal. -/
theorem Ready.run : ∀ (blocks : List (List (Fin C → ℝ))) {m : Meter C} {f : Filters C}, Ready m f →
    ∃ outs, m.run blocks = some (⟨m.weights, some (f.after m.weights blocks.flatten)⟩, outs) ∧
      outs.flatten = (f.out m.weights blocks.flatten).map powerDb ∧ outs.map List.length = blocks.map List.length
  | [], m, f, h => by
    refine ⟨[], ?_, ?_, rfl⟩
    · simp only [Meter.run, List.flatten_nil, after_nil, ← h.filters]
    · simp [Filters.out, sums, runSamples]
  | x :: xs, m, f, h => by
    obtain ⟨outs, h1, h2, h3⟩ := Ready.run xs (m := ⟨m.weights, some (f.after m.weights x)⟩)
      (f := f.after m.weights x) ⟨rfl, h.weights⟩
    refine ⟨(f.out m.weights x).map powerDb :: outs, ?_, ?_, ?_⟩
    · simp only [Meter.run, Meter.processBlock, h.power, h1, Option.map_some, List.flatten_cons, after_append]
    · rw [List.flatten_cons, List.flatten_cons, out_append, List.map_append, h2]
    · rw [List.map_cons, List.map_cons, h3, List.length_map, out_length]

/-- Filters as `Init` leaves them. -/
structure Fresh (cs : List (Stage ℝ)) (avg : Coeffs ℝ) (f : Filters C) : Prop where
  k : ∀ c xs, Spec.Series cs xs (cascadeBlock (f.kWeighting c) xs).2
  reset : ∀ c, cascadeReset (f.kWeighting c) = f.kWeighting c
  averaging : Biquad.init avg = some f.averaging
  state : f.averagingState = resetState

theorem Fresh.out {cs : List (Stage ℝ)} {avg : Coeffs ℝ} {f : Filters C} (h : Fresh cs avg f) (w : List ℝ)
    (x : List (Fin C → ℝ)) :
    Spec.Power cs [avg.b0, avg.b1, avg.b2] [avg.a0, avg.a1, avg.a2] (fun c => w.getD c 0) x (f.out w x) := by
  refine ⟨fun c => (cascadeBlock (f.kWeighting c) (x.map (· c))).2, fun c => h.k c _, ?_⟩
  have := Biquad.step_diffEq h.averaging (sums w (fun c => (cascadeBlock (f.kWeighting c) (x.map (· c))).2) x.length)
  unfold Filters.out
  rw [h.state]
  have e : (List.range x.length).map (fun t => ∑ c : Fin C, w.getD c 0 *
      ((cascadeBlock (f.kWeighting c) (x.map (· c))).2).getD t 0 ^ 2) =
      sums w (fun c => (cascadeBlock (f.kWeighting c) (x.map (· c))).2) x.length := by
    unfold sums
    simp only [mul_comm]
  rw [e]
  exact this

/-- Resetting the filters after any signal gives the fresh filters. -/
theorem Fresh.reset_after {cs : List (Stage ℝ)} {avg : Coeffs ℝ} {f : Filters C} (h : Fresh cs avg f) (w : List ℝ)
    (x : List (Fin C → ℝ)) :
    (⟨fun c => cascadeReset ((f.after w x).kWeighting c), (f.after w x).averaging, resetState⟩ : Filters C) = f := by
  obtain ⟨k, a, s⟩ := f
  have h1 := h.reset
  have h2 := h.state
  simp only [Filters.after, cascadeBlock_reset]
  simp only at h1 h2
  subst h2
  congr 1
  funext c
  exact h1 c

end Verif.Loudness
