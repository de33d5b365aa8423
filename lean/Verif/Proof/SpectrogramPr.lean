import Verif.Proof.SpectrogramInv

/-! Synthesis window and reconstruction. -/

namespace Verif.Spectrogram

open Real Finset Spec

/-- Sum of the squared window elements that overlap with position `i`. -/
def overlapPower (w : List ℝ) (step i : ℕ) : ℝ :=
  ∑ m ∈ range w.length, if m % step = i % step then w.getD m 0 ^ 2 else 0

theorem denomLoop_eq (w : List ℝ) (step : ℕ) (hs : 0 < step) : ∀ (k offset : ℕ) (d : ℝ),
    w.length - offset ≤ k → denomLoop w step offset d =
      d + ∑ m ∈ range w.length, if offset ≤ m ∧ m % step = offset % step then w.getD m 0 ^ 2 else 0
  | 0, offset, d, hk => by
    unfold denomLoop
    rw [dif_neg (by omega), sum_eq_zero, add_zero]
    intro m hm
    rw [mem_range] at hm
    rw [if_neg (by omega)]
  | k + 1, offset, d, hk => by
    unfold denomLoop
    by_cases h : offset < w.length
    · rw [dif_pos ⟨h, hs⟩, denomLoop_eq w step hs k _ _ (by omega)]
      have : ∀ m, (if offset ≤ m ∧ m % step = offset % step then w.getD m 0 ^ 2 else 0) =
          (if m = offset then w.getD offset 0 ^ 2 else 0) +
          (if offset + step ≤ m ∧ m % step = (offset + step) % step then w.getD m 0 ^ 2 else 0) := by
        intro m
        rw [Nat.add_mod_right]
        by_cases h1 : m = offset
        · subst h1
          rw [if_pos ⟨le_rfl, rfl⟩, if_pos rfl, if_neg (by omega)]; ring
        · rw [if_neg h1, zero_add]
          by_cases h2 : offset ≤ m ∧ m % step = offset % step
          · have hle : offset + step ≤ m := by
              obtain ⟨h3, h4⟩ := h2
              have hd : step ∣ m - offset := (Nat.modEq_iff_dvd' h3).1 h4.symm
              obtain ⟨c, hc⟩ := hd
              have : c ≠ 0 := by rintro rfl; omega
              have : step * 1 ≤ step * c := Nat.mul_le_mul_left _ (by omega)
              omega
            rw [if_pos h2, if_pos ⟨hle, h2.2⟩]
          · rw [if_neg h2, if_neg]
            rintro ⟨h3, h4⟩
            exact h2 ⟨by omega, h4⟩
      simp only [this, sum_add_distrib]
      rw [sum_ite_eq' (range w.length) offset, if_pos (mem_range.2 h)]
      ring
    · rw [dif_neg (by omega), sum_eq_zero, add_zero]
      intro m hm
      rw [mem_range] at hm
      rw [if_neg (by omega)]

theorem denomLoop_power (w : List ℝ) (step : ℕ) (i : ℕ) (hi : i < step) :
    denomLoop w step i 0 = overlapPower w step i := by
  rw [denomLoop_eq w step (by omega) _ i 0 le_rfl, zero_add]
  unfold overlapPower
  apply sum_congr rfl
  intro m _
  by_cases h : m % step = i % step
  · have hle : i ≤ m := by
      have h' := h
      rw [Nat.mod_eq_of_lt hi] at h'
      have := Nat.mod_le m step
      omega
    rw [if_pos h, if_pos ⟨hle, h⟩]
  · rw [if_neg h, if_neg (by tauto)]

theorem divideLoop_eq (n step : ℕ) (hs : 0 < step) (denom : ℝ) : ∀ (k offset : ℕ) (r : List ℝ),
    n - offset ≤ k → r.length = n → (divideLoop n step offset denom r).length = n ∧
      ∀ m, (divideLoop n step offset denom r).getD m 0 =
        if offset ≤ m ∧ m % step = offset % step then r.getD m 0 / denom else r.getD m 0
  | 0, offset, r, hk, hr => by
    unfold divideLoop
    rw [dif_neg (by omega)]
    refine ⟨hr, fun m => ?_⟩
    split
    · rw [List.getD_eq_getElem?_getD, List.getElem?_eq_none (by omega)]; simp
    · rfl
  | k + 1, offset, r, hk, hr => by
    unfold divideLoop
    by_cases h : offset < n
    · rw [dif_pos ⟨h, hs⟩]
      obtain ⟨h1, h2⟩ := divideLoop_eq n step hs denom k (offset + step)
        (r.set offset (r.getD offset 0 / denom)) (by omega) (by simpa using hr)
      refine ⟨h1, fun m => ?_⟩
      rw [h2, getD_set_real _ _ _ _ (by omega), Nat.add_mod_right]
      by_cases hm : m = offset
      · subst hm
        rw [if_neg (by omega), if_pos rfl, if_pos ⟨le_rfl, rfl⟩]
      · rw [if_neg hm]
        by_cases h3 : offset ≤ m ∧ m % step = offset % step
        · have hle : offset + step ≤ m := by
            obtain ⟨h3, h4⟩ := h3
            have hd : step ∣ m - offset := (Nat.modEq_iff_dvd' h3).1 h4.symm
            obtain ⟨c, hc⟩ := hd
            have : c ≠ 0 := by rintro rfl; omega
            have : step * 1 ≤ step * c := Nat.mul_le_mul_left _ (by omega)
            omega
          rw [if_pos h3, if_pos ⟨hle, h3.2⟩]
        · rw [if_neg h3, if_neg]
          rintro ⟨h4, h5⟩
          exact h3 ⟨by omega, h5⟩
    · rw [dif_neg (by omega)]
      refine ⟨hr, fun m => ?_⟩
      split
      · rw [List.getD_eq_getElem?_getD, List.getElem?_eq_none (by omega)]; simp
      · rfl

theorem synthesisWindow_aux (w : List ℝ) (step : ℕ) : ∀ k, k ≤ step →
    ((List.range k).foldl (fun r i => divideLoop w.length step i (denomLoop w step i 0) r) w).length
      = w.length ∧ ∀ m, ((List.range k).foldl
        (fun r i => divideLoop w.length step i (denomLoop w step i 0) r) w).getD m 0 =
        if m % step < k then w.getD m 0 / overlapPower w step m else w.getD m 0
  | 0, _ => by simp
  | k + 1, hk => by
    obtain ⟨h1, h2⟩ := synthesisWindow_aux w step k (by omega)
    rw [List.range_succ, List.foldl_append, List.foldl_cons, List.foldl_nil]
    obtain ⟨h3, h4⟩ := divideLoop_eq w.length step (by omega) (denomLoop w step k 0) _ k _ le_rfl h1
    refine ⟨h3, fun m => ?_⟩
    rw [h4, h2, denomLoop_power w step k (by omega), Nat.mod_eq_of_lt (show k < step by omega)]
    have hml := Nat.mod_le m step
    by_cases h5 : m % step = k
    · rw [if_pos ⟨by omega, h5⟩, if_neg (by omega), if_pos (by omega)]
      congr 1
      unfold overlapPower
      rw [h5, Nat.mod_eq_of_lt (show k < step by omega)]
    · rw [if_neg (by tauto)]
      by_cases h6 : m % step < k
      · rw [if_pos h6, if_pos (by omega)]
      · rw [if_neg h6, if_neg (by omega)]

/-- Each element is divided by the power of the elements it overlaps with. -/
theorem generateSynthesisWindow_eq (w : List ℝ) (step : ℕ) (hs : 0 < step) :
    (generateSynthesisWindow w step).length = w.length ∧
    ∀ m, (generateSynthesisWindow w step).getD m 0 = w.getD m 0 / overlapPower w step m := by
  obtain ⟨h1, h2⟩ := synthesisWindow_aux w step step le_rfl
  refine ⟨h1, fun m => ?_⟩
  unfold generateSynthesisWindow
  rw [h2, if_pos (Nat.mod_lt _ hs)]

/-- The frames that cover position `t` see all the window elements congruent to `t`. -/
theorem sum_frames (w : List ℝ) (S J t : ℕ) (hS : 0 < S) (h1 : w.length ≤ t + S) (h2 : t < J * S) :
    (∑ j ∈ range J, if j * S ≤ t then w.getD (t - j * S) 0 ^ 2 else 0) = overlapPower w S t := by
  unfold overlapPower
  rw [← sum_filter, ← sum_filter]
  have key : ∀ j, j * S ≤ t → (t - j * S) % S = t % S := by
    intro j hj
    rw [Nat.mul_comm]
    rw [Nat.mul_comm] at hj
    exact Nat.sub_mul_mod hj
  have hz : ∑ j ∈ (range J).filter (fun j => j * S ≤ t), w.getD (t - j * S) 0 ^ 2
      = ∑ j ∈ (range J).filter (fun j => j * S ≤ t ∧ t - j * S < w.length), w.getD (t - j * S) 0 ^ 2 := by
    symm
    apply sum_subset
    · intro j hj
      simp only [mem_filter] at hj ⊢
      tauto
    · intro j hj hn
      simp only [mem_filter] at hj hn
      rw [List.getD_eq_getElem?_getD, List.getElem?_eq_none]
      · simp
      · by_contra hc
        exact hn ⟨hj.1, hj.2, by omega⟩
  rw [hz]
  apply sum_nbij' (fun j => t - j * S) (fun m => (t - m) / S)
  · intro j hj
    simp only [mem_filter, mem_range] at hj ⊢
    exact ⟨hj.2.2, key j hj.2.1⟩
  · intro m hm
    simp only [mem_filter, mem_range] at hm ⊢
    have hle : m ≤ t := by
      by_contra hc
      have hd : S ∣ m - t := (Nat.modEq_iff_dvd' (by omega)).1 hm.2.symm
      have := Nat.le_of_dvd (by omega) hd
      omega
    have hd : S ∣ t - m := (Nat.modEq_iff_dvd' hle).1 hm.2
    have he := Nat.div_mul_cancel hd
    refine ⟨?_, by omega, by omega⟩
    exact (Nat.div_lt_iff_lt_mul hS).2 (by omega)
  · intro j hj
    simp only [mem_filter, mem_range] at hj
    have : t - (t - j * S) = j * S := by omega
    rw [this, Nat.mul_div_cancel _ hS]
  · intro m hm
    simp only [mem_filter, mem_range] at hm
    have hle : m ≤ t := by
      by_contra hc
      have hd : S ∣ m - t := (Nat.modEq_iff_dvd' (by omega)).1 hm.2.symm
      have := Nat.le_of_dvd (by omega) hd
      omega
    have hd : S ∣ t - m := (Nat.modEq_iff_dvd' hle).1 hm.2
    rw [Nat.div_mul_cancel hd]
    omega
  · intro j _
    rfl

end Verif.Spectrogram
