import Verif.Proof.FloatQuadratic

/-!
# C124: `QuadraticInterpolateMax` in floating point

C44 is about exact arithmetic. Here every operation on `float` is rounded, and so is the conversion of the index.
-/

namespace Verif.FloatQuadratic
open Verif.Rounding

/-- The documented guarantee for the location, for signals of up to 2^24 samples: `0 <= *max_location <= size - 1` and
`|x0 - *max_location| <= 1`, without any tolerance. -/
theorem C124_location (x : List ℝ) (x0 : ℕ) (h : x0 < x.length) (hlen : x.length ≤ 2 ^ 24) (v loc : ℝ)
    (hr : Interpolate binary32 x x0 v loc) : 0 ≤ loc ∧ loc ≤ x.length - 1 ∧ |x0 - loc| ≤ 1 := by
  have c0 : (0 : ℝ) ≤ x0 := by positivity
  have c1 : (x0 : ℝ) ≤ x.length - 1 := by
    have : x0 + 1 ≤ x.length := h
    have : (x0 : ℝ) + 1 ≤ x.length := by exact_mod_cast this
    linarith
  have ex := nat_exact (n := x0) (by omega)
  unfold Interpolate at hr
  by_cases he : x0 = 0 ∨ x0 = x.length - 1
  · rw [if_pos he, ex] at hr
    rw [hr.1]
    exact ⟨c0, c1, by simp⟩
  rw [if_neg he] at hr
  dsimp only at hr
  have d0 : (1 : ℝ) ≤ x0 := by
    have : 1 ≤ x0 := by omega
    exact_mod_cast this
  have d1 : (x0 : ℝ) ≤ x.length - 2 := by
    have : x0 + 2 ≤ x.length := by omega
    have : (x0 : ℝ) + 2 ≤ x.length := by exact_mod_cast this
    linarith
  generalize coefA binary32 _ _ _ = a at hr
  generalize coefB binary32 _ _ = b at hr
  split_ifs at hr with hb ha
  · rw [hr.1, ex]
    exact ⟨c0, c1, by simp⟩
  · rw [hr.1, ex]
    have e1 : -1 ≤ delta binary32 a b := le_max_left _ _
    have e2 : delta binary32 a b ≤ 1 := max_le (by linarith) (min_le_right _ _)
    have k1 : binary32 ((x0 : ℝ) - 1) = x0 - 1 := by
      have := nat_exact (n := x0 - 1) (by omega)
      rwa [Nat.cast_sub (by omega), Nat.cast_one] at this
    have k2 : binary32 ((x0 : ℝ) + 1) = x0 + 1 := by
      have := nat_exact (n := x0 + 1) (by omega)
      rwa [Nat.cast_add, Nat.cast_one] at this
    have m1 := binary32_regular.mono (show (x0 : ℝ) - 1 ≤ x0 + delta binary32 a b by linarith)
    have m2 := binary32_regular.mono (show (x0 : ℝ) + delta binary32 a b ≤ x0 + 1 by linarith)
    rw [k1] at m1
    rw [k2] at m2
    refine ⟨by linarith, by linarith, ?_⟩
    rw [abs_le]
    constructor <;> linarith
  · have k1 := nat_exact (n := x0 - 1) (by omega)
    rw [hr.1, k1, Nat.cast_sub (by omega), Nat.cast_one]
    refine ⟨by linarith, by linarith, ?_⟩
    rw [abs_le]
    constructor <;> linarith
  · have k2 := nat_exact (n := x0 + 1) (by omega)
    rw [hr.1, k2, Nat.cast_add, Nat.cast_one]
    refine ⟨by linarith, by linarith, ?_⟩
    rw [abs_le]
    constructor <;> linarith

/-- The refined maximum is never below the sample it refines (`|samples| <= 2^125`, so that nothing overflows). -/
theorem C124_not_below (x : List ℝ) (hx : ∀ s ∈ x, binary32 s = s ∧ |s| ≤ 2 ^ 125) (x0 : ℕ) (h : x0 < x.length) (v loc : ℝ)
    (hr : Interpolate binary32 x x0 v loc) : x.getD x0 0 ≤ v := by
  have mem : ∀ i, binary32 (x.getD i 0) = x.getD i 0 ∧ |x.getD i 0| ≤ 2 ^ 125 := by
    intro i
    rw [List.getD_eq_getElem?_getD]
    rcases lt_or_ge i x.length with hi | hi
    · rw [List.getElem?_eq_getElem hi]
      exact hx _ (List.getElem_mem hi)
    · rw [List.getElem?_eq_none hi]
      exact ⟨binary32_regular.zero, by simp⟩
  unfold Interpolate at hr
  by_cases he : x0 = 0 ∨ x0 = x.length - 1
  · rw [if_pos he] at hr
    exact hr.2.ge
  rw [if_neg he] at hr
  dsimp only at hr
  obtain ⟨hl, bl⟩ := mem (x0 - 1)
  obtain ⟨hm, bm⟩ := mem x0
  obtain ⟨hR, bR⟩ := mem (x0 + 1)
  by_cases hb : |coefB binary32 (x.getD (x0 - 1) 0) (x.getD (x0 + 1) 0)| < 4 * (1 / 2 ^ 23)
  · rw [if_pos hb] at hr
    exact hr.2.ge
  rw [if_neg hb] at hr
  have cv := fun h1 h2 => concave (l := x.getD (x0 - 1) 0) (m := x.getD x0 0) (r := x.getD (x0 + 1) 0) hm hR h1 h2 hb
  have hd := neighbours hb
  have hs := sign_b (l := x.getD (x0 - 1) 0) (r := x.getD (x0 + 1) 0)
  by_cases ha : coefA binary32 (x.getD (x0 - 1) 0) (x.getD x0 0) (x.getD (x0 + 1) 0) < 0
  · rw [if_pos ha] at hr
    obtain ⟨-, g, hg, hv⟩ := hr
    rw [delta_eq] at hg hv
    obtain ⟨A1, A2⟩ := abs_le.1 (coef_error bl bm bR).1
    obtain ⟨p1, p2⟩ := abs_le.1 bl
    obtain ⟨p3, p4⟩ := abs_le.1 bm
    obtain ⟨p5, p6⟩ := abs_le.1 bR
    exact not_below_concave hm ha (by linarith [show (4 : ℝ) / 2 ^ 150 ≤ 1 by norm_num]) (not_lt.1 hb)
      (binary32_regular.idem _) hg hv
  · rw [if_neg ha] at hr
    rw [hr.2]
    by_cases hbn : coefB binary32 (x.getD (x0 - 1) 0) (x.getD (x0 + 1) 0) < 0
    · rw [if_pos hbn]
      by_contra hc
      push Not at hc
      refine ha (cv hc ?_)
      by_contra h2
      have := hs.1 (by linarith)
      linarith
    · rw [if_neg hbn]
      by_contra hc
      push Not at hc
      refine ha (cv ?_ hc)
      by_contra h2
      have h3 := hs.2 (by linarith)
      have h4 : coefB binary32 (x.getD (x0 - 1) 0) (x.getD (x0 + 1) 0) = 0 := le_antisymm h3 (not_lt.1 hbn)
      rw [h4, abs_zero] at hb
      exact hb (by positivity)

/-- In the interior, let `P` be the parabola through the sample and its two neighbours, all at most `S` in magnitude. If the
neighbours differ by more than about 2^-20 the value returned is the maximum of `P` on `[x0 - 1, x0 + 1]`, up to 48 roundings
of `S`; and `P` has this value at the location returned, up to the rounding of the location. -/
theorem C124_value (x : List ℝ) (x0 : ℕ) (h0 : 0 < x0) (h1 : x0 + 1 < x.length) (S : ℝ) (hS : ∀ s ∈ x, |s| ≤ S) (P : ℝ → ℝ)
    (hP : ∃ p q r, ∀ t, P t = p + q * t + r * t ^ 2)
    (hl : P (x0 - 1) = x.getD (x0 - 1) 0) (hm : P x0 = x.getD x0 0) (hr : P (x0 + 1) = x.getD (x0 + 1) 0)
    (hdiff : 1 / 2 ^ 20 + (6 / 2 ^ 24 * S + 1 / 2 ^ 140) ≤ |P (x0 + 1) - P (x0 - 1)|) (v loc : ℝ)
    (hi : Interpolate binary32 x x0 v loc) :
    (∀ t : ℝ, |t - x0| ≤ 1 → P t ≤ v + (48 / 2 ^ 24 * S + 1 / 2 ^ 140)) ∧
      ∃ t : ℝ, |t - x0| ≤ 1 ∧ |loc - t| ≤ 3 / 2 ^ 24 * (x0 + 1) ∧ v ≤ P t + (48 / 2 ^ 24 * S + 1 / 2 ^ 140) := by
  obtain ⟨p, q, r, hP⟩ := hP
  have mem : ∀ i, i < x.length → |x.getD i 0| ≤ S := by
    intro i hi
    rw [List.getD_eq_getElem?_getD, List.getElem?_eq_getElem hi]
    exact hS _ (List.getElem_mem hi)
  have bl := mem (x0 - 1) (by omega)
  have bm := mem x0 (by omega)
  have br := mem (x0 + 1) (by omega)
  unfold Interpolate at hi
  rw [if_neg (by omega)] at hi
  dsimp only at hi
  rw [← hl] at bl; rw [← hm] at bm; rw [← hr] at br
  rw [← hl, ← hm, ← hr] at hi
  have hPt : ∀ t, P t = P x0 + (P (x0 + 1) - P (x0 - 1)) / 2 * (t - x0)
      + (P (x0 - 1) - 2 * P x0 + P (x0 + 1)) / 2 * (t - x0) ^ 2 := by
    intro t
    simp only [hP]
    ring
  have e1 : x.getD (if coefB binary32 (P (x0 - 1)) (P (x0 + 1)) < 0 then x0 - 1 else x0 + 1) 0 =
      if coefB binary32 (P (x0 - 1)) (P (x0 + 1)) < 0 then P (x0 - 1) else P (x0 + 1) := by
    split_ifs
    · exact hl.symm
    · exact hr.symm
  rw [e1] at hi
  obtain ⟨B1, B2⟩ := abs_le.1 (coef_error bl bm br).2
  have η140 : (1 : ℝ) / 2 ^ 140 = 1024 * (1 / 2 ^ 150) := by norm_num
  have hbt : ¬ |coefB binary32 (P (x0 - 1)) (P (x0 + 1))| < 4 * (1 / 2 ^ 23) := by
    intro hc
    obtain ⟨c1, c2⟩ := abs_lt.1 hc
    have e4 : (4 : ℝ) / 2 ^ 150 = 4 * (1 / 2 ^ 150) := by ring
    have η0 : (0 : ℝ) < 1 / 2 ^ 150 := by positivity
    rw [e4] at B1 B2
    rw [η140] at hdiff
    generalize (1 : ℝ) / 2 ^ 150 = η at *
    rcases le_abs.1 hdiff with h' | h' <;> linarith
  rw [if_neg hbt] at hi
  have main := value_bound bl bm br hbt (v := v) (by
    split_ifs at hi ⊢ with ha hn
    · exact hi.2
    · exact hi.2
    · exact hi.2)
  constructor
  · intro t ht
    rw [hPt]
    exact main.1 _ ht
  · obtain ⟨d, hd, hdd, hv⟩ := main.2
    refine ⟨x0 + d, by rwa [add_sub_cancel_left], ?_, ?_⟩
    · have c0 : (0 : ℝ) ≤ x0 := by positivity
      obtain ⟨d1, d2⟩ := abs_le.1 hd
      have tiny : (1 : ℝ) / 2 ^ 150 ≤ 1 / 2 ^ 40 := by norm_num
      have rx := r32 (x := (x0 : ℝ)) (B := x0) (abs_of_nonneg c0).le
      have cast1 : ((x0 - 1 : ℕ) : ℝ) = x0 - 1 := by rw [Nat.cast_sub (by omega), Nat.cast_one]
      obtain ⟨x1, x2⟩ := abs_le.1 rx
      split_ifs at hi hdd with ha hn
      · rw [hi.1, hdd]
        rw [hdd] at d1 d2
        generalize delta binary32 _ _ = d' at *
        generalize binary32 (x0 : ℝ) = y at *
        obtain ⟨y1, y2⟩ := abs_le.1 (r32 (x := y + d') (B := 1.01 * (x0 + 1)) (by
          generalize (1 : ℝ) / 2 ^ 150 = η at *
          rw [abs_le]; constructor <;> linarith))
        generalize (1 : ℝ) / 2 ^ 150 = η at *
        rw [abs_le]; constructor <;> linarith
      · rw [hi.1, hdd, cast1]
        obtain ⟨y1, y2⟩ := abs_le.1 (r32 (x := (x0 : ℝ) - 1) (B := x0 + 1) (by rw [abs_le]; constructor <;> linarith))
        generalize (1 : ℝ) / 2 ^ 150 = η at *
        rw [abs_le]; constructor <;> linarith
      · rw [hi.1, hdd, Nat.cast_add, Nat.cast_one]
        obtain ⟨y1, y2⟩ := abs_le.1 (r32 (x := (x0 : ℝ) + 1) (B := x0 + 1) (by rw [abs_le]; constructor <;> linarith))
        generalize (1 : ℝ) / 2 ^ 150 = η at *
        rw [abs_le]; constructor <;> linarith
    · rw [hPt, add_sub_cancel_left]
      exact hv

/-- At the ends, and where the neighbours differ by at most 2^-21, the result is the sample itself at its index. -/
theorem C124_sample (x : List ℝ) (x0 : ℕ) (h : x0 < x.length) (hlen : x.length ≤ 2 ^ 24)
    (hs : x0 = 0 ∨ x0 = x.length - 1 ∨ |x.getD (x0 + 1) 0 - x.getD (x0 - 1) 0| ≤ 1 / 2 ^ 21) (v loc : ℝ)
    (hi : Interpolate binary32 x x0 v loc) : v = x.getD x0 0 ∧ loc = x0 := by
  have ex := nat_exact (n := x0) (by omega)
  unfold Interpolate at hi
  by_cases he : x0 = 0 ∨ x0 = x.length - 1
  · rw [if_pos he, ex] at hi
    exact ⟨hi.2, hi.1⟩
  rw [if_neg he] at hi
  dsimp only at hi
  rw [if_pos, ex] at hi
  · exact ⟨hi.2, hi.1⟩
  · by_contra hb
    have := neighbours hb
    rcases hs with hs | hs | hs
    · exact he (Or.inl hs)
    · exact he (Or.inr hs)
    · linarith

/-- With more samples the guarantee fails: in a constant signal of 2^25 + 4 samples the maximum at the last index, 2^25 + 3, is
located at 2^25 + 4, which is not an index. -/
theorem C124_long_violation :
    ¬ ∀ (x : List ℝ) (x0 : ℕ), x0 < x.length → (∀ s ∈ x, binary32 s = s) → ∀ v loc : ℝ,
      Interpolate binary32 x x0 v loc → loc ≤ x.length - 1 := by
  intro H
  have e : binary32 (33554435 : ℝ) = 33554436 := by
    unfold binary32
    rw [ieee_eq (e := 2) (m := 8388609) (by norm_num) (by norm_num) (by norm_num) (by norm_num [abs_lt])]
    norm_num
  have := H (List.replicate 33554436 1) 33554435 (by rw [List.length_replicate]; norm_num)
    (fun s hs => by rw [List.eq_of_mem_replicate hs]; exact binary32_regular.one) 1 33554436 (by
      unfold Interpolate
      rw [if_pos (Or.inr (by rw [List.length_replicate]))]
      refine ⟨?_, ?_⟩
      · rw [← e]; norm_num
      · dsimp only
        rw [List.getD_eq_getElem?_getD, List.getElem?_replicate]
        norm_num)
  rw [List.length_replicate] at this
  norm_num at this

/-- Nor is the location always within one sample: at index 2^26 + 3 it is three samples away. -/
theorem C124_distance_violation :
    ¬ ∀ (x : List ℝ) (x0 : ℕ), x0 < x.length → (∀ s ∈ x, binary32 s = s) → ∀ v loc : ℝ,
      Interpolate binary32 x x0 v loc → |x0 - loc| ≤ 1 := by
  intro H
  have e : binary32 (67108867 : ℝ) = 67108864 := by
    unfold binary32
    rw [ieee_eq (e := 3) (m := 8388608) (by norm_num) (by norm_num) (by norm_num) (by norm_num [abs_lt])]
    norm_num
  have := H (List.replicate 67108868 1) 67108867 (by rw [List.length_replicate]; norm_num)
    (fun s hs => by rw [List.eq_of_mem_replicate hs]; exact binary32_regular.one) 1 67108864 (by
      unfold Interpolate
      rw [if_pos (Or.inr (by rw [List.length_replicate]))]
      refine ⟨?_, ?_⟩
      · rw [← e]; norm_num
      · dsimp only
        rw [List.getD_eq_getElem?_getD, List.getElem?_replicate]
        norm_num)
  norm_num at this

/-- There is always a result. -/
theorem C124_total (x : List ℝ) (x0 : ℕ) : ∃ v loc, Interpolate binary32 x x0 v loc := by
  unfold Interpolate
  dsimp only
  split_ifs
  · exact ⟨_, _, rfl, rfl⟩
  · exact ⟨_, _, rfl, rfl⟩
  · exact ⟨_, _, rfl, _, Or.inl rfl, Or.inl rfl⟩
  · exact ⟨_, _, rfl, rfl⟩
  · exact ⟨_, _, rfl, rfl⟩

/-- The hypotheses hold for the samples 0, 1, 1/2: the maximum of the parabola is 1 + 1/48, at 1 + 1/6. -/
example : ∃ v loc, Interpolate binary32 [0, 1, 1 / 2] 1 v loc ∧ 1 ≤ v ∧ |v - (1 + 1 / 48)| ≤ 1 / 2 ^ 18 ∧ 0 ≤ loc ∧ loc ≤ 2 := by
  obtain ⟨v, loc, h⟩ := C124_total [0, 1, 1 / 2] 1
  have half : binary32 (1 / 2) = 1 / 2 := ieee_of_representable (by norm_num) ⟨1, -1, by norm_num, by norm_num, by norm_num⟩
  have h1 := C124_location [0, 1, 1 / 2] 1 (by simp) (by simp) v loc h
  have h2 := C124_not_below [0, 1, 1 / 2] (by
    intro s hs
    simp only [List.mem_cons, List.not_mem_nil, or_false] at hs
    rcases hs with rfl | rfl | rfl
    · exact ⟨binary32_regular.zero, by simp⟩
    · exact ⟨binary32_regular.one, by norm_num⟩
    · exact ⟨half, by norm_num [abs_le]⟩) 1 (by simp) v loc h
  have h3 := C124_value [0, 1, 1 / 2] 1 (by norm_num) (by simp) 1 (by
    intro s hs
    simp only [List.mem_cons, List.not_mem_nil, or_false] at hs
    rcases hs with rfl | rfl | rfl <;> norm_num [abs_le]) (fun t => 1 + 1 / 4 * (t - 1) - 3 / 4 * (t - 1) ^ 2)
    ⟨0, 7 / 4, -3 / 4, by intro t; ring⟩ (by norm_num) (by norm_num) (by norm_num) (by norm_num) v loc h
  simp only [List.getD_cons_succ, List.getD_cons_zero, List.length_cons, List.length_nil] at h1 h2
  norm_num at h1
  refine ⟨v, loc, h, h2, ?_, h1.1, h1.2.1⟩
  have k1 := h3.1 (7 / 6) (by norm_num [abs_le])
  obtain ⟨t, -, -, k2⟩ := h3.2
  have tiny : (1 : ℝ) / 2 ^ 140 ≤ 1 / 2 ^ 30 := by norm_num
  generalize (1 : ℝ) / 2 ^ 140 = η at *
  rw [abs_le]
  constructor
  · norm_num at k1 ⊢
    linarith
  · have := sq_nonneg (t - 7 / 6)
    norm_num at k2 ⊢
    nlinarith

end Verif.FloatQuadratic
