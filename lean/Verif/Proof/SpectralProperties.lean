import Verif.Model.SpectralProperties
import Mathlib.Data.List.TakeWhile
import Mathlib.Data.List.GetD
import Mathlib.Algebra.BigOperators.Intervals

/-! # Lemmas for C96 -/

namespace Verif.SpectralProperties
open Verif.Windows

variable {tf : ℝ → ℝ}

theorem energies_length (ft : ℝ → ℝ) : (energies ft).length = 601 := by
  rw [energies, List.length_map, List.length_range]

theorem energies_get (ft : ℝ → ℝ) {k : ℕ} (hk : k < (energies ft).length) : (energies ft)[k] = ft (k / 200) ^ 2 := by
  simp only [energies, List.getElem_map, List.getElem_range, df]
  congr 2
  ring

theorem halfCutoff_le (half : ℝ) (l : List ℝ) : halfCutoff tf half l ≤ l.length :=
  (List.takeWhile_prefix _).length_le

theorem halfCutoff_below (half : ℝ) (l : List ℝ) {i : ℕ} (hi : i < halfCutoff tf half l) (hl : i < l.length) :
    half < tf l[i] := by
  classical
  have h := List.mem_takeWhile_imp (List.getElem_mem (l := l.takeWhile fun e => ¬ tf e ≤ half) hi)
  have e : (l.takeWhile fun e => ¬ tf e ≤ half)[i] = l[i] :=
    (List.takeWhile_prefix (l := l) _).getElem hi
  rw [e] at h
  simpa using h

theorem halfCutoff_at (half : ℝ) (l : List ℝ) (h : halfCutoff tf half l < l.length) :
    tf l[halfCutoff tf half l] ≤ half := by
  classical
  by_contra hc
  induction l with
  | nil => simp at h
  | cons a l ih =>
    by_cases ha : tf a ≤ half
    · have e : halfCutoff tf half (a :: l) = 0 := by simp [halfCutoff, ha]
      simp only [e] at hc
      exact hc ha
    · have e : halfCutoff tf half (a :: l) = halfCutoff tf half l + 1 := by
        simp only [halfCutoff]
        rw [List.takeWhile_cons_of_pos (by simpa using ha), List.length_cons]
      simp only [e, List.getElem_cons_succ] at hc h
      exact ih (by simpa using h) hc

theorem sortedUntil_le (l : List ℝ) : sortedUntil tf l ≤ l.length := by
  induction l with
  | nil => simp [sortedUntil]
  | cons a l ih =>
    cases l with
    | nil => simp [sortedUntil]
    | cons b l =>
      rw [sortedUntil]
      split_ifs
      · simp
      · simp only [List.length_cons] at ih ⊢; omega

theorem sortedUntil_pos (a : ℝ) (l : List ℝ) : 0 < sortedUntil tf (a :: l) := by
  cases l with
  | nil => simp [sortedUntil]
  | cons b l => rw [sortedUntil]; split_ifs <;> omega

theorem sortedUntil_below (l : List ℝ) {i : ℕ} (hi : i + 1 < sortedUntil tf l) (h1 : i + 1 < l.length) :
    tf l[i + 1] ≤ tf (l[i]'(by omega)) := by
  induction l generalizing i with
  | nil => simp at h1
  | cons a l ih =>
    cases l with
    | nil => simp at h1
    | cons b l =>
      rw [sortedUntil] at hi
      split_ifs at hi with h
      · omega
      · cases i with
        | zero => simpa using h
        | succ i => exact ih (by omega) (by simpa using h1)

theorem sortedUntil_at (l : List ℝ) (h : sortedUntil tf l < l.length) :
    tf (l[sortedUntil tf l - 1]'(by omega)) < tf l[sortedUntil tf l] := by
  induction l with
  | nil => simp at h
  | cons a l ih =>
    cases l with
    | nil => simp [sortedUntil] at h
    | cons b l =>
      by_cases hab : tf a < tf b
      · have e : sortedUntil tf (a :: b :: l) = 1 := by rw [sortedUntil, if_pos hab]
        simp only [e]
        exact hab
      · have e : sortedUntil tf (a :: b :: l) = sortedUntil tf (b :: l) + 1 := by
          rw [sortedUntil, if_neg hab]; omega
        have hp := sortedUntil_pos (tf := tf) b l
        obtain ⟨c, hc⟩ : ∃ c, sortedUntil tf (b :: l) = c + 1 := ⟨_, (Nat.succ_pred_eq_of_pos hp).symm⟩
        have ih' := ih (by simp only [List.length_cons] at h ⊢; omega)
        simp only [hc, Nat.add_sub_cancel] at ih'
        simp only [e, hc, Nat.add_sub_cancel, List.getElem_cons_succ]
        exact ih'

theorem energies_head (ft : ℝ → ℝ) : (energies ft).headD 0 = ft 0 ^ 2 := by
  rw [energies, List.range_succ_eq_map, List.map_cons, List.headD_cons, Nat.cast_zero, mul_zero]

theorem indices (tf ft : ℝ → ℝ) : ∃ j c, halfCutoff tf (1 / 2 * ft 0 ^ 2) (energies ft) = j ∧
    sortedUntil tf ((energies ft).drop j) = c ∧ j ≤ 601 ∧ j + c ≤ 601 ∧ (j < 601 → 0 < c) ∧
    (∀ i < j, ft 0 ^ 2 / 2 < tf (ft (i / 200) ^ 2)) ∧ (j < 601 → tf (ft (j / 200) ^ 2) ≤ ft 0 ^ 2 / 2) ∧
    (∀ i, j ≤ i → i + 1 < j + c → tf (ft ((i + 1 : ℕ) / 200) ^ 2) ≤ tf (ft (i / 200) ^ 2)) ∧
    (j + c < 601 → tf (ft ((j + c - 1 : ℕ) / 200) ^ 2) < tf (ft ((j + c : ℕ) / 200) ^ 2)) := by
  have hlen := energies_length ft
  refine ⟨_, _, rfl, rfl, ?_⟩
  set j := halfCutoff tf (1 / 2 * ft 0 ^ 2) (energies ft) with hj
  set c := sortedUntil tf ((energies ft).drop j) with hc
  have hjl : j ≤ 601 := by rw [← hlen]; exact halfCutoff_le _ _
  have hcl : c ≤ 601 - j := by
    have := sortedUntil_le (tf := tf) ((energies ft).drop j)
    rwa [List.length_drop, hlen, ← hc] at this
  have hcp : j < 601 → 0 < c := by
    intro h
    rw [hc, List.drop_eq_getElem_cons (by rw [hlen]; exact h)]
    exact sortedUntil_pos _ _
  refine ⟨hjl, by omega, hcp, fun i hi => ?_, fun h => ?_, fun i hi h => ?_, fun h => ?_⟩
  · have := halfCutoff_below (tf := tf) (1 / 2 * ft 0 ^ 2) (energies ft) (i := i) hi (by omega)
    rw [energies_get] at this
    linarith
  · have := halfCutoff_at (tf := tf) (1 / 2 * ft 0 ^ 2) (energies ft) (by omega)
    rw [energies_get, ← hj] at this
    linarith
  · have := sortedUntil_below (tf := tf) ((energies ft).drop j) (i := i - j) (by omega)
      (by rw [List.length_drop, hlen]; omega)
    simp only [List.getElem_drop, energies_get] at this
    rw [show j + (i - j + 1) = i + 1 by omega, show j + (i - j) = i by omega] at this
    exact this
  · have := sortedUntil_at (tf := tf) ((energies ft).drop j) (by rw [List.length_drop, hlen]; omega)
    simp only [List.getElem_drop, energies_get, ← hc] at this
    rw [← Nat.add_sub_assoc (hcp (by omega))] at this
    exact this

theorem foldl_max_spec (l : List ℝ) (a : ℝ) : l.foldl max a ∈ a :: l ∧ ∀ x ∈ a :: l, x ≤ l.foldl max a := by
  induction l generalizing a with
  | nil => simp
  | cons b l ih =>
    rw [List.foldl_cons]
    obtain ⟨h1, h2⟩ := ih (max a b)
    refine ⟨?_, fun x hx => ?_⟩
    · rcases List.mem_cons.1 h1 with h | h
      · rw [h]
        rcases max_choice a b with hm | hm <;> rw [hm] <;> simp
      · exact List.mem_cons_of_mem _ (List.mem_cons_of_mem _ h)
    · have h3 := h2 (max a b) (by simp)
      rcases List.mem_cons.1 hx with rfl | hx
      · exact (le_max_left _ _).trans h3
      · rcases List.mem_cons.1 hx with rfl | hx
        · exact (le_max_right _ _).trans h3
        · exact h2 x (List.mem_cons_of_mem _ hx)

theorem maxElement_spec {l : List ℝ} (h : l ≠ []) : maxElement l ∈ l ∧ ∀ x ∈ l, x ≤ maxElement l := by
  obtain ⟨a, l, rfl⟩ := List.exists_cons_of_ne_nil h
  exact foldl_max_spec l a

theorem foldl_add_eq (l : List ℝ) (a : ℝ) : l.foldl (· + ·) a = a + l.sum := by
  induction l generalizing a with
  | nil => simp
  | cons b l ih => rw [List.foldl_cons, ih, List.sum_cons, add_assoc]

theorem foldl_sq_eq (l : List ℝ) (a : ℝ) : l.foldl (fun t s => t + s * s) a = a + (l.map fun s => s ^ 2).sum := by
  induction l generalizing a with
  | nil => simp
  | cons b l ih => rw [List.foldl_cons, ih, List.map_cons, List.sum_cons, pow_two, add_assoc]

theorem sum_map_range (f : ℕ → ℝ) (n : ℕ) : ((List.range n).map f).sum = ∑ k ∈ Finset.range n, f k := by
  induction n with
  | zero => simp
  | succ n ih => rw [List.range_succ, List.map_append, List.sum_append, ih, Finset.sum_range_succ]; simp

theorem lobe_sum (ft : ℝ → ℝ) {m : ℕ} (hm : m ≤ 601) :
    (((energies ft).take m).drop 1).sum = ∑ k ∈ Finset.Ico 1 m, ft (k / 200) ^ 2 := by
  have e : (energies ft).take m = (List.range m).map fun k : ℕ => ft (k / 200) ^ 2 := by
    apply List.ext_getElem
    · rw [List.length_take, energies_length, List.length_map, List.length_range, min_eq_left hm]
    · intro i h1 h2
      rw [List.getElem_take, energies_get, List.getElem_map, List.getElem_range]
  rw [e]
  rcases Nat.eq_zero_or_pos m with rfl | h
  · simp
  · obtain ⟨m, rfl⟩ := Nat.exists_eq_succ_of_ne_zero h.ne'
    rw [List.range_succ_eq_map, List.map_cons, List.drop_one, List.tail_cons, List.map_map, sum_map_range,
      Finset.sum_Ico_eq_sum_range]
    apply Finset.sum_congr rfl
    intro k _
    simp only [Function.comp_apply]
    rw [add_comm 1 k]

theorem total_eq (w : Window) : totalEnergy w.radius (memoize w []) =
    (1 / 2 + ∑ k ∈ Finset.range 512, w.eval (w.radius / 512 * (k + 1)) ^ 2) * (2 * (w.radius / 512)) := by
  rw [totalEnergy, foldl_sq_eq, memoize, if_pos rfl, List.map_map, sum_map_range, List.length_map, List.length_range]
  norm_num [Function.comp_apply]

end Verif.SpectralProperties
