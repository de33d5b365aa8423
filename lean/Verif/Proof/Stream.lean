import Verif.Model.Stream
import Verif.Spec.LinearFilter

namespace Verif.Stream
open Verif.LinearFilter.Spec Finset

variable {σ α β : Type}

@[simp] theorem runSamples_length (step : σ → α → σ × β) : ∀ (xs : List α) (s : σ),
    (runSamples step s xs).2.length = xs.length
  | [], _ => rfl
  | x :: xs, s => by simp [runSamples, runSamples_length step xs]

theorem runSamples_append (step : σ → α → σ × β) : ∀ (xs ys : List α) (s : σ),
    runSamples step s (xs ++ ys) =
      ((runSamples step (runSamples step s xs).1 ys).1,
        (runSamples step s xs).2 ++ (runSamples step (runSamples step s xs).1 ys).2)
  | [], ys, s => by simp [runSamples]
  | x :: xs, ys, s => by
    simp [runSamples, runSamples_append step xs ys]

/-- Processing blocks of any sizes is processing the concatenated stream. -/
theorem runBlocks_runSamples (step : σ → α → σ × β) : ∀ (blocks : List (List α)) (s : σ),
    (runBlocks (runSamples step) s blocks).1 = (runSamples step s blocks.flatten).1 ∧
    (runBlocks (runSamples step) s blocks).2.flatten = (runSamples step s blocks.flatten).2 ∧
    (runBlocks (runSamples step) s blocks).2.map List.length = blocks.map List.length
  | [], s => by simp [runBlocks, runSamples]
  | x :: xs, s => by
    obtain ⟨h1, h2, h3⟩ := runBlocks_runSamples step xs (runSamples step s x).1
    refine ⟨?_, ?_, ?_⟩
    · simp only [runBlocks, List.flatten_cons, h1]
      rw [runSamples_append]
    · simp only [runBlocks, List.flatten_cons, h2]
      rw [runSamples_append]
    · simp [runBlocks, h3]

/-- If an invariant relates the state to the reversed history and the output is a function of the
reversed history, then the n-th output is that function of the history at time n. -/
theorem runSamples_hist {step : σ → α → σ × β} (Inv : σ → List α → Prop) (F : List α → β)
    (h : ∀ s r x, Inv s r → Inv (step s x).1 (x :: r) ∧ (step s x).2 = F (x :: r)) :
    ∀ (xs : List α) (s : σ) (r : List α), Inv s r →
      Inv (runSamples step s xs).1 (xs.reverse ++ r) ∧
      ∀ n, n < xs.length →
        (runSamples step s xs).2[n]? = some (F ((xs.take (n + 1)).reverse ++ r))
  | [], s, r, hi => ⟨by simpa [runSamples] using hi, by intro n hn; simp at hn⟩
  | x :: xs, s, r, hi => by
    obtain ⟨h1, h2⟩ := h s r x hi
    obtain ⟨h3, h4⟩ := runSamples_hist Inv F h xs _ _ h1
    refine ⟨by simpa [runSamples] using h3, ?_⟩
    intro n hn
    cases n with
    | zero => simp [runSamples, h2]
    | succ n =>
      simp only [runSamples, List.getElem?_cons_succ]
      rw [h4 n (by simpa using hn)]
      simp

variable {R : Type} [CommRing R]

theorem past_eq_reverse (xs : List R) (n k : ℕ) (hn : n < xs.length) :
    past xs n k = ((xs.take (n + 1)).reverse).getD k 0 := by
  unfold past
  have hl : (xs.take (n + 1)).length = n + 1 := by simp; omega
  split
  · rename_i hk
    rw [List.getD_eq_getElem?_getD, List.getD_eq_getElem?_getD, List.getElem?_reverse (by omega), hl,
      List.getElem?_take, if_pos (by omega)]
    congr 2
  · rename_i hk
    rw [List.getD_eq_getElem?_getD, List.getElem?_eq_none (by simp; omega)]
    rfl

theorem past_zero (xs : List R) (n : ℕ) : past xs n 0 = xs.getD n 0 := by simp [past]

theorem past_succ (xs : List R) (n k : ℕ) :
    past xs (n + 1) (k + 1) = past xs n k := by
  unfold past
  by_cases h : k ≤ n
  · rw [if_pos (by omega), if_pos h]; congr 1; omega
  · rw [if_neg (by omega), if_neg h]

theorem past_zero_succ (xs : List R) (k : ℕ) : past xs 0 (k + 1) = 0 := by simp [past]

/-- The difference equation has at most one solution. -/
theorem DiffEq.unique {b a xs ys zs : List R} {a0 : R} {as : List R} (ha : a = a0 :: as)
    (hu : IsUnit a0) (h1 : DiffEq b a xs ys) (h2 : DiffEq b a xs zs) : ys = zs := by
  subst ha
  have key : ∀ n, n < xs.length → ys.getD n 0 = zs.getD n 0 := by
    intro n
    induction n using Nat.strong_induction_on with
    | _ n ih =>
      intro hn
      have e1 := h1.2 n hn
      have e2 := h2.2 n hn
      rw [← e2, List.length_cons, sum_range_succ', sum_range_succ'] at e1
      have hs : ∑ k ∈ range as.length, (a0 :: as).getD (k + 1) 0 * past ys n (k + 1)
          = ∑ k ∈ range as.length, (a0 :: as).getD (k + 1) 0 * past zs n (k + 1) := by
        apply sum_congr rfl
        intro k _
        congr 1
        unfold past
        split
        · exact ih _ (by omega) (by omega)
        · rfl
      rw [hs] at e1
      have e3 := add_left_cancel e1
      simp only [List.getD_cons_zero, past_zero] at e3
      exact hu.mul_left_cancel e3
  apply List.ext_getElem?
  intro n
  by_cases hn : n < xs.length
  · have := key n hn
    rw [List.getD_eq_getElem?_getD, List.getD_eq_getElem?_getD,
      List.getElem?_eq_getElem (by rw [h1.1]; exact hn), List.getElem?_eq_getElem (by rw [h2.1]; exact hn)] at this
    rw [List.getElem?_eq_getElem (by rw [h1.1]; exact hn), List.getElem?_eq_getElem (by rw [h2.1]; exact hn)]
    simpa using this
  · rw [List.getElem?_eq_none (by rw [h1.1]; omega), List.getElem?_eq_none (by rw [h2.1]; omega)]

end Verif.Stream
