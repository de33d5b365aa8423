import Verif.Model.Windows
import Mathlib.Tactic.Linarith
import Mathlib.Tactic.FieldSimp
import Mathlib.Data.List.GetD

namespace Verif.Windows

theorem getD_set (s : List ℝ) (i k : ℕ) (v : ℝ) :
    (s.set i v).getD k 0 = if i = k ∧ k < s.length then v else s.getD k 0 := by
  simp only [List.getD_eq_getElem?_getD, List.getElem?_set]
  by_cases h : i = k
  · by_cases h2 : k < s.length
    · simp [h, h2]
    · subst h; simp [h2]
  · simp [h]

theorem fill_length (w : Window) (half : ℕ) (x0 dx : ℝ) (count : ℕ) (s : List ℝ) :
    (fill w half x0 dx count s).length = s.length := by
  unfold fill
  induction count with
  | zero => simp
  | succ n ih => rw [List.range_succ, List.foldl_append]; simpa using ih

theorem fill_getD (w : Window) (half : ℕ) (x0 dx : ℝ) (count : ℕ) (s : List ℝ) (k : ℕ)
    (hk : k < s.length) :
    (fill w half x0 dx count s).getD k 0 =
      if half ≤ k ∧ k < half + count then w.eval (x0 + dx * ((k - half : ℕ) : ℝ)) else s.getD k 0 := by
  induction count with
  | zero =>
    rw [if_neg (by omega)]; simp [fill]
  | succ n ih =>
    have e : fill w half x0 dx (n + 1) s =
        (fill w half x0 dx n s).set (half + n) (w.eval (x0 + dx * n)) := by
      unfold fill; rw [List.range_succ, List.foldl_append]; rfl
    rw [e, getD_set, fill_length, ih]
    by_cases h1 : half + n = k
    · subst h1
      rw [if_pos ⟨rfl, hk⟩, if_pos (by omega), Nat.add_sub_cancel_left]
    · rw [if_neg (by tauto)]
      by_cases h2 : half ≤ k ∧ k < half + n
      · rw [if_pos h2, if_pos (by omega)]
      · rw [if_neg h2, if_neg (by omega)]

theorem reverseCopy_aux (first last dest : ℕ) (s : List ℝ) (hov : dest + (last - first) ≤ first + 1)
    (m : ℕ) (hm : m ≤ last - first) :
    ((List.range m).foldl (fun s i => s.set (dest + i) (s.getD (last - 1 - i) 0)) s).length
      = s.length ∧
    ∀ k < s.length,
    ((List.range m).foldl (fun s i => s.set (dest + i) (s.getD (last - 1 - i) 0)) s).getD k 0 =
      if dest ≤ k ∧ k < dest + m then s.getD (last - 1 - (k - dest)) 0 else s.getD k 0 := by
  induction m with
  | zero =>
    refine ⟨by simp, fun k _ => ?_⟩
    rw [if_neg (by omega)]; simp
  | succ n ih =>
    obtain ⟨il, ih⟩ := ih (by omega)
    rw [List.range_succ, List.foldl_append]
    simp only [List.foldl_cons, List.foldl_nil]
    refine ⟨by rw [List.length_set]; exact il, fun k hk => ?_⟩
    rw [getD_set, il, ih k hk]
    by_cases h1 : dest + n = k
    · rw [if_pos ⟨h1, hk⟩, if_pos (by omega)]
      by_cases hr : last - 1 - n < s.length
      · rw [ih _ hr, if_neg (by omega)]
        congr 1; omega
      · rw [List.getD_eq_default _ _ (by rw [il]; omega), List.getD_eq_default _ _ (by omega)]
    · rw [if_neg (by tauto)]
      by_cases h2 : dest ≤ k ∧ k < dest + n
      · rw [if_pos h2, if_pos (by omega)]
      · rw [if_neg h2, if_neg (by omega)]

theorem reverseCopy_length (first last dest : ℕ) (s : List ℝ)
    (hov : dest + (last - first) ≤ first + 1) :
    (reverseCopy first last dest s).length = s.length :=
  (reverseCopy_aux first last dest s hov _ le_rfl).1

theorem reverseCopy_getD (first last dest : ℕ) (s : List ℝ)
    (hov : dest + (last - first) ≤ first + 1) (k : ℕ) (hk : k < s.length) :
    (reverseCopy first last dest s).getD k 0 =
      if dest ≤ k ∧ k < dest + (last - first) then s.getD (last - 1 - (k - dest)) 0
      else s.getD k 0 :=
  (reverseCopy_aux first last dest s hov _ le_rfl).2 k hk

theorem ext_getD {a b : List ℝ} (hl : a.length = b.length)
    (h : ∀ k < a.length, a.getD k 0 = b.getD k 0) : a = b := by
  apply List.ext_getElem hl
  intro k h1 h2
  have := h k h1
  rwa [List.getD_eq_getElem _ _ h1, List.getD_eq_getElem _ _ h2] at this

theorem getD_map_range (n : ℕ) (f : ℕ → ℝ) (k : ℕ) (hk : k < n) :
    ((List.range n).map f).getD k 0 = f k := by
  rw [List.getD_eq_getElem _ _ (by simpa using hk)]
  simp

/-- Closed form of the symmetric samples for an even window. -/
theorem symmetric_eq (w : Window) (heven : ∀ x, w.eval (-x) = w.eval x) (n : ℕ) (hn : 2 ≤ n) :
    symmetricSamples w n = some ((List.range n).map fun k : ℕ =>
      w.eval (-w.radius + (2 * w.radius / (n + (if w.zeroAtEndpoints then 1 else -1))) *
        (k + if w.zeroAtEndpoints then 1 else 0))) := by
  unfold symmetricSamples
  rw [if_neg (by omega)]
  dsimp only
  congr 1
  have hov : 0 + (n - n / 2) ≤ n / 2 + 1 := by omega
  obtain ⟨dx, hdx⟩ : ∃ dx : ℝ, dx = 2 * w.radius / (n + (if w.zeroAtEndpoints then 1 else -1)) :=
    ⟨_, rfl⟩
  rw [← hdx]
  have hn' : (2 : ℝ) ≤ n := by exact_mod_cast hn
  have hden : (n : ℝ) + (if w.zeroAtEndpoints then 1 else -1) ≠ 0 := by
    split_ifs <;> linarith
  have hr : 2 * w.radius = dx * (n + (if w.zeroAtEndpoints then 1 else -1)) := by
    rw [hdx]; field_simp
  have key : ∀ k : ℕ, n / 2 ≤ k → (if n % 2 = 0 then dx / 2 else 0) + dx * ((k - n / 2 : ℕ) : ℝ) =
      -w.radius + dx * (k + if w.zeroAtEndpoints then 1 else 0) := by
    intro k hk
    have hrad : w.radius = dx * (n + (if w.zeroAtEndpoints then 1 else -1)) / 2 := by linarith
    rw [hrad, Nat.cast_sub hk]
    have hdm : (n : ℝ) = 2 * ((n / 2 : ℕ) : ℝ) + ((n % 2 : ℕ) : ℝ) := by
      exact_mod_cast (Nat.div_add_mod n 2).symm
    rcases Nat.mod_two_eq_zero_or_one n with h | h
    · rw [if_pos h]; rw [h] at hdm
      rw [hdm]
      split_ifs <;> push_cast <;> ring
    · rw [if_neg (by omega)]; rw [h] at hdm
      rw [hdm]
      split_ifs <;> push_cast <;> ring
  apply ext_getD
  · rw [reverseCopy_length _ _ _ _ hov, fill_length]; simp
  intro k hk
  rw [reverseCopy_length _ _ _ _ hov, fill_length, List.length_replicate] at hk
  rw [reverseCopy_getD _ _ _ _ hov k (by rw [fill_length]; simpa using hk),
    fill_getD _ _ _ _ _ _ _ (by simp; omega), fill_getD _ _ _ _ _ _ _ (by simp; omega),
    getD_map_range _ _ _ hk]
  by_cases h : k < n - n / 2
  · rw [if_pos (by omega), if_pos (by omega), key _ (by omega), ← heven]
    congr 1
    have hrad : w.radius = dx * (n + (if w.zeroAtEndpoints then 1 else -1)) / 2 := by linarith
    rw [hrad, show n - 1 - (k - 0) = n - (k + 1) by omega, Nat.cast_sub (by omega)]
    push_cast
    split_ifs <;> ring
  · rw [if_neg (by omega), if_pos (by omega), key _ (by omega)]

/-- Closed form of the periodic samples for an even window. -/
theorem periodic_eq (w : Window) (heven : ∀ x, w.eval (-x) = w.eval x)
    (hzero : w.zeroAtEndpoints = true → w.eval w.radius = 0) (n : ℕ) (hn : 2 ≤ n) :
    periodicSamples w n = some ((List.range n).map fun k : ℕ =>
      w.eval (-w.radius + (2 * w.radius / n) * k)) := by
  unfold periodicSamples
  rw [if_neg (by omega)]
  dsimp only
  congr 1
  have hov : 1 + (n - (n + 1) / 2) ≤ (n + 1) / 2 + 1 := by omega
  obtain ⟨dx, hdx⟩ : ∃ dx : ℝ, dx = 2 * w.radius / n := ⟨_, rfl⟩
  rw [← hdx]
  have hn' : (2 : ℝ) ≤ n := by exact_mod_cast hn
  have hr : 2 * w.radius = dx * n := by rw [hdx]; field_simp
  have hrad : w.radius = dx * n / 2 := by linarith
  have key : ∀ k : ℕ, (n + 1) / 2 ≤ k →
      (if n % 2 = 1 then dx / 2 else 0) + dx * ((k - (n + 1) / 2 : ℕ) : ℝ) =
      -w.radius + dx * k := by
    intro k hk
    rw [hrad, Nat.cast_sub hk]
    rcases Nat.mod_two_eq_zero_or_one n with h | h
    · rw [if_neg (by omega)]
      have : (n : ℝ) = 2 * (((n + 1) / 2 : ℕ) : ℝ) := by
        exact_mod_cast (by omega : n = 2 * ((n + 1) / 2))
      generalize (((n + 1) / 2 : ℕ) : ℝ) = h' at *
      rw [this]; ring
    · rw [if_pos h]
      have : (n : ℝ) = 2 * (((n + 1) / 2 : ℕ) : ℝ) - 1 := by
        have := (by omega : n + 1 = 2 * ((n + 1) / 2))
        have h2 : (n : ℝ) + 1 = 2 * (((n + 1) / 2 : ℕ) : ℝ) := by exact_mod_cast this
        linarith
      generalize (((n + 1) / 2 : ℕ) : ℝ) = h' at *
      rw [this]; ring
  apply ext_getD
  · rw [reverseCopy_length _ _ _ _ hov, List.length_set, fill_length]; simp
  intro k hk
  rw [reverseCopy_length _ _ _ _ hov, List.length_set, fill_length, List.length_replicate] at hk
  rw [reverseCopy_getD _ _ _ _ hov k (by rw [List.length_set, fill_length]; simpa using hk),
    getD_set, getD_set, fill_length, List.length_replicate,
    fill_getD _ _ _ _ _ _ _ (by simp; omega), fill_getD _ _ _ _ _ _ _ (by simp; omega),
    getD_map_range _ _ _ hk]
  rcases Nat.eq_zero_or_pos k with h0 | h0
  · subst h0
    rw [if_neg (by omega), if_pos ⟨rfl, hk⟩]
    have e : w.eval (-w.radius + dx * ((0 : ℕ) : ℝ)) = w.eval w.radius := by
      rw [Nat.cast_zero, mul_zero, add_zero, heven]
    rw [e]
    split_ifs with hz
    · exact (hzero hz).symm
    · rfl
  · by_cases h : k < 1 + (n - (n + 1) / 2)
    · rw [if_pos (by omega), if_neg (by omega), if_pos (by omega), key _ (by omega), ← heven]
      congr 1
      rw [hrad, show n - 1 - (k - 1) = n - k by omega, Nat.cast_sub (by omega)]
      ring
    · rw [if_neg (by omega), if_neg (by omega), if_pos (by omega), key _ (by omega)]

end Verif.Windows
