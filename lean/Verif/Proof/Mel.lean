import Verif.Model.Mfcc
import Verif.Spec.Mfcc
import Verif.Proof.Dft
import Mathlib.Data.List.GetD
import Mathlib.Algebra.Order.Floor.Ring
import Mathlib.Tactic.LinearCombination
import Mathlib.Tactic.FieldSimp

/-! Lemmas about the mel filterbank (C35). -/

namespace Verif.Mfcc
open Finset Verif.MfccSpec

theorem foldlM_add (num : ℕ) (step : List ℝ → ℕ → Except Err (List ℝ)) (g : ℕ → ℕ → ℝ) (is : List ℕ)
    (h : ∀ i ∈ is, ∀ l : List ℝ, l.length = num → ∃ l', step l i = .ok l' ∧ l'.length = num ∧
      ∀ c < num, l'.getD c 0 = l.getD c 0 + g c i) (l : List ℝ) (hl : l.length = num) :
    ∃ l', is.foldlM step l = .ok l' ∧ l'.length = num ∧
      ∀ c < num, l'.getD c 0 = l.getD c 0 + (is.map (g c)).sum := by
  induction is generalizing l with
  | nil => exact ⟨l, rfl, hl, fun c _ => by simp⟩
  | cons i is ih =>
    obtain ⟨l1, h1, hl1, hg1⟩ := h i (by simp) l hl
    obtain ⟨l2, h2, hl2, hg2⟩ := ih (fun j hj => h j (by simp [hj])) l1 hl1
    refine ⟨l2, ?_, hl2, fun c hc => ?_⟩
    · rw [List.foldlM_cons, h1]; exact h2
    · rw [hg2 c hc, hg1 c hc, List.map_cons, List.sum_cons, add_assoc]

theorem foldlM_error {ε α : Type} (step : α → ℕ → Except ε α) (is : List ℕ) (k : ℕ) (hk : k ∈ is)
    (h : ∀ l, ∃ e, step l k = .error e) (l : α) : ∃ e, is.foldlM step l = .error e := by
  induction is generalizing l with
  | nil => simp at hk
  | cons i is ih =>
    rw [List.foldlM_cons]
    rcases List.mem_cons.1 hk with rfl | hk'
    · obtain ⟨e, he⟩ := h l
      exact ⟨e, by rw [he]; rfl⟩
    · cases hs : step l i with
      | error e => exact ⟨e, rfl⟩
      | ok l' => exact ih hk' l'

theorem addAt_ok (v : List ℝ) (c : ℤ) (x : ℝ) (h0 : 0 ≤ c) (h1 : c < v.length) :
    ∃ v', addAt v c x = .ok v' ∧ v'.length = v.length ∧
      ∀ d < v.length, v'.getD d 0 = v.getD d 0 + if (d : ℤ) = c then x else 0 := by
  refine ⟨_, if_pos ⟨h0, h1⟩, by simp, fun d hd => ?_⟩
  rw [List.getD_eq_getElem _ _ (by simpa using hd), List.getElem_set]
  by_cases h : c.toNat = d
  · rw [if_pos h, if_pos (by omega), h]
  · rw [if_neg h, if_neg (by omega), add_zero, List.getD_eq_getElem _ _ hd]

theorem castInt_ok {x : ℝ} (h0 : 0 ≤ x) (h1 : x < 2 ^ 31) : castInt x = .ok ⌊x⌋ := by
  unfold castInt
  rw [if_pos ⟨by linarith [show (0 : ℝ) < 2 ^ 31 by positivity], h1⟩, if_neg (not_lt.2 h0)]

theorem mel_strict {a b : ℝ} (ha : 0 ≤ a) (h : a < b) : mel a < mel b := by
  unfold mel
  have : Real.log (1 + a / 700) < Real.log (1 + b / 700) :=
    Real.log_lt_log (by positivity) (by linarith [div_lt_div_of_pos_right h (show (0 : ℝ) < 700 by norm_num)])
  linarith

theorem mel_mono {a b : ℝ} (ha : 0 ≤ a) (h : a ≤ b) : mel a ≤ mel b := by
  rcases h.eq_or_lt with rfl | h
  · exact le_rfl
  · exact (mel_strict ha h).le

/-- The position of a frequency inside the limits. -/
theorem position_range (n : ℕ) {lower upper f : ℝ} (h0 : 0 ≤ lower) (h1 : lower < f) (h2 : f ≤ upper) :
    -1 < position n lower upper f ∧ position n lower upper f ≤ n := by
  have hd : 0 < mel upper - mel lower := sub_pos.2 (mel_strict h0 (lt_of_lt_of_le h1 h2))
  have ha : 0 < mel f - mel lower := sub_pos.2 (mel_strict h0 h1)
  have hb := mel_mono (h0.trans h1.le) h2
  have hn : (0 : ℝ) < n + 1 := by positivity
  unfold position
  constructor
  · have : 0 < (mel f - mel lower) / (mel upper - mel lower) * (n + 1) := by positivity
    linarith
  · have : (mel f - mel lower) / (mel upper - mel lower) ≤ 1 := by
      rw [div_le_one hd]; linarith
    nlinarith

theorem triangle_eq (c : ℕ) (k : ℤ) (p : ℝ) (h1 : (k : ℝ) < p) (h2 : p ≤ k + 1) :
    triangle c p = (if (c : ℤ) = k then 1 - (p - k) else 0) + if (c : ℤ) = k + 1 then p - k else 0 := by
  unfold triangle
  by_cases hk : (c : ℤ) = k
  · have hc : (c : ℝ) = k := by exact_mod_cast hk
    rw [if_pos hk, if_neg (by omega), hc, abs_of_pos (by linarith), max_eq_right (by linarith),
      add_zero]
  · by_cases hk1 : (c : ℤ) = k + 1
    · have hc : (c : ℝ) = k + 1 := by exact_mod_cast hk1
      rw [if_neg hk, if_pos hk1, hc, abs_of_nonpos (by linarith), max_eq_right (by linarith), zero_add]
      ring
    · rw [if_neg hk, if_neg hk1, add_zero, max_eq_left]
      rcases lt_or_gt_of_ne hk with hlt | hgt
      · have : (c : ℤ) + 1 ≤ k := by omega
        have : (c : ℝ) + 1 ≤ k := by exact_mod_cast this
        rw [abs_of_pos (by linarith)]; linarith
      · have : k + 2 ≤ (c : ℤ) := by omega
        have : (k : ℝ) + 2 ≤ c := by exact_mod_cast this
        rw [abs_of_nonpos (by linarith)]; linarith

theorem used_iff {hz lower upper : ℝ} (hz0 : 0 < hz) (i : ℕ) :
    Used hz lower upper i ↔ ⌊3 / 2 + lower / hz⌋ ≤ (i : ℤ) ∧ (i : ℤ) ≤ ⌊upper / hz⌋ := by
  unfold Used
  constructor
  · rintro ⟨h1, h2⟩
    constructor
    · have : ⌊3 / 2 + lower / hz⌋ < (i : ℤ) + 1 := by
        rw [Int.floor_lt]
        push_cast
        have : lower / hz < i - 1 / 2 := by rw [div_lt_iff₀ hz0]; linarith
        linarith
      omega
    · rw [Int.le_floor]
      push_cast
      rw [le_div_iff₀ hz0]; exact h2
  · rintro ⟨h1, h2⟩
    constructor
    · have : ⌊3 / 2 + lower / hz⌋ < (i : ℤ) + 1 := by omega
      rw [Int.floor_lt] at this
      push_cast at this
      have h3 : lower / hz < i - 1 / 2 := by linarith
      rw [div_lt_iff₀ hz0] at h3
      linarith
    · rw [Int.le_floor] at h2
      push_cast at h2
      rwa [le_div_iff₀ hz0] at h2

/-- The state after a successful `Initialize`. -/
structure Good (m : Mel) (fft : ℕ) (hz : ℝ) (n : ℕ) (lower upper : ℝ) : Prop where
  initialized : m.initialized = true
  channels : m.channels = n
  fftLength : m.fftLength = fft
  start : m.start = ⌊3 / 2 + lower / hz⌋
  stop : m.stop = ⌊upper / hz⌋
  mapper : ∀ i, Used hz lower upper i → i < fft →
    m.mapper[i]? = some (⌈position n lower upper (i * hz)⌉ - 1)
  weights : ∀ i, Used hz lower upper i → i < fft →
    m.weights[i]? = some (1 - (position n lower upper (i * hz) -
      ((⌈position n lower upper (i * hz)⌉ - 1 : ℤ) : ℝ)))
  mapper_length : m.mapper.length = fft
  weights_length : m.weights.length = fft
  sums_length : m.sums.length = n
  sums : ∀ c < n, m.sums.getD c 0 = ∑ i ∈ range fft, weight n hz lower upper c i

theorem ceil_bounds (p : ℝ) : ((⌈p⌉ - 1 : ℤ) : ℝ) < p ∧ p ≤ ((⌈p⌉ - 1 : ℤ) : ℝ) + 1 := by
  push_cast
  exact ⟨by linarith [Int.ceil_lt_add_one p], by linarith [Int.le_ceil p]⟩

/-- The channel of a used bin. -/
theorem channel_range (n : ℕ) {hz lower upper : ℝ} (hz0 : 0 < hz) (h0 : 0 ≤ lower) (i : ℕ)
    (hu : Used hz lower upper i) :
    -1 ≤ ⌈position n lower upper (i * hz)⌉ - 1 ∧ ⌈position n lower upper (i * hz)⌉ - 1 < n := by
  obtain ⟨h1, h2⟩ := position_range n h0 (by linarith [hu.1] : lower < i * hz) hu.2
  constructor
  · have : (-1 : ℤ) < ⌈position n lower upper (i * hz)⌉ := by
      rw [Int.lt_ceil]; exact_mod_cast h1
    omega
  · have : ⌈position n lower upper (i * hz)⌉ ≤ n := by
      rw [Int.ceil_le]; exact_mod_cast h2
    omega

/-- Two conditional additions are one addition of triangles. -/
theorem add_pair (num : ℕ) (k : ℤ) (hk : -1 ≤ k) (hk' : k < num) (a b : ℝ) (l : List ℝ)
    (hl : l.length = num) :
    ∃ l', (do
      let l ← addAtIf (k ≥ 0) l k a
      addAtIf (k + 1 < num) l (k + 1) b) = Except.ok l' ∧ l'.length = num ∧
      ∀ c < num, l'.getD c 0 = l.getD c 0 +
        ((if (c : ℤ) = k then a else 0) + if (c : ℤ) = k + 1 then b else 0) := by
  obtain ⟨l1, h1, hl1, hg1⟩ : ∃ l1, addAtIf (k ≥ 0) l k a = Except.ok l1 ∧
      l1.length = num ∧ ∀ c < num, l1.getD c 0 = l.getD c 0 + if (c : ℤ) = k then a else 0 := by
    by_cases h : k ≥ 0
    · rw [addAtIf, if_pos (by simpa using h)]
      obtain ⟨l1, e1, e2, e3⟩ := addAt_ok l k a h (by rw [hl]; exact hk')
      exact ⟨l1, e1, by rw [e2, hl], by rw [hl] at e3; exact e3⟩
    · rw [addAtIf, if_neg (by simpa using h)]
      exact ⟨l, rfl, hl, fun c _ => by rw [if_neg (by omega), add_zero]⟩
  obtain ⟨l2, h2, hl2, hg2⟩ : ∃ l2, addAtIf (k + 1 < num) l1 (k + 1) b =
      Except.ok l2 ∧
      l2.length = num ∧ ∀ c < num, l2.getD c 0 = l1.getD c 0 + if (c : ℤ) = k + 1 then b else 0 := by
    by_cases h : k + 1 < num
    · rw [addAtIf, if_pos (by simpa using h)]
      obtain ⟨l2, e1, e2, e3⟩ := addAt_ok l1 (k + 1) b (by omega) (by rw [hl1]; exact h)
      exact ⟨l2, e1, by rw [e2, hl1], by rw [hl1] at e3; exact e3⟩
    · rw [addAtIf, if_neg (by simpa using h)]
      exact ⟨l1, rfl, hl1, fun c hc => by rw [if_neg (by omega), add_zero]⟩
  refine ⟨l2, ?_, hl2, fun c hc => ?_⟩
  · rw [h1]; exact h2
  · rw [hg2 c hc, hg1 c hc]; ring

/-- The same with the two additions in the other order. -/
theorem add_pair' (num : ℕ) (k : ℤ) (hk : -1 ≤ k) (hk' : k < num) (a b : ℝ) (l : List ℝ)
    (hl : l.length = num) :
    ∃ l', (do
      let l ← addAtIf (k + 1 < num) l (k + 1) b
      addAtIf (k ≥ 0) l k a) = Except.ok l' ∧ l'.length = num ∧
      ∀ c < num, l'.getD c 0 = l.getD c 0 +
        ((if (c : ℤ) = k then a else 0) + if (c : ℤ) = k + 1 then b else 0) := by
  obtain ⟨l1, h1, hl1, hg1⟩ : ∃ l1, addAtIf (k + 1 < num) l (k + 1) b =
      Except.ok l1 ∧
      l1.length = num ∧ ∀ c < num, l1.getD c 0 = l.getD c 0 + if (c : ℤ) = k + 1 then b else 0 := by
    by_cases h : k + 1 < num
    · rw [addAtIf, if_pos (by simpa using h)]
      obtain ⟨l2, e1, e2, e3⟩ := addAt_ok l (k + 1) b (by omega) (by rw [hl]; exact h)
      exact ⟨l2, e1, by rw [e2, hl], by rw [hl] at e3; exact e3⟩
    · rw [addAtIf, if_neg (by simpa using h)]
      exact ⟨l, rfl, hl, fun c hc => by rw [if_neg (by omega), add_zero]⟩
  obtain ⟨l2, h2, hl2, hg2⟩ : ∃ l2, addAtIf (k ≥ 0) l1 k a = Except.ok l2 ∧
      l2.length = num ∧ ∀ c < num, l2.getD c 0 = l1.getD c 0 + if (c : ℤ) = k then a else 0 := by
    by_cases h : k ≥ 0
    · rw [addAtIf, if_pos (by simpa using h)]
      obtain ⟨l2, e1, e2, e3⟩ := addAt_ok l1 k a h (by rw [hl1]; exact hk')
      exact ⟨l2, e1, by rw [e2, hl1], by rw [hl1] at e3; exact e3⟩
    · rw [addAtIf, if_neg (by simpa using h)]
      exact ⟨l1, rfl, hl1, fun c _ => by rw [if_neg (by omega), add_zero]⟩
  refine ⟨l2, ?_, hl2, fun c hc => ?_⟩
  · rw [h1]; exact h2
  · rw [hg2 c hc, hg1 c hc]; ring

theorem hz_pos {rate : ℝ} {fft : ℕ} (hr : 0 < rate) (hf : 2 ≤ fft) :
    0 < rate / (2 * ((fft : ℝ) - 1)) := by
  have : (2 : ℝ) ≤ fft := by exact_mod_cast hf
  have : 0 < 2 * ((fft : ℝ) - 1) := by linarith
  positivity

theorem binOf_used {n : ℕ} {hz lower upper : ℝ} (hz0 : 0 < hz) (i : ℕ) (hu : Used hz lower upper i) :
    binOf ⌊3 / 2 + lower / hz⌋ ⌊upper / hz⌋ hz (freqToMel lower)
      ((freqToMel upper - freqToMel lower) / ((n : ℤ) + 1)) i =
    (⌈position n lower upper (i * hz)⌉ - 1, 1 - (position n lower upper (i * hz) -
      ((⌈position n lower upper (i * hz)⌉ - 1 : ℤ) : ℝ))) := by
  have hp : (freqToMel (i * hz) - freqToMel lower) / ((freqToMel upper - freqToMel lower) / ((n : ℤ) + 1))
      - 1 = position n lower upper (i * hz) := by
    unfold position
    rw [div_div_eq_mul_div, Int.cast_natCast, div_mul_eq_mul_div]
    rfl
  have := (used_iff hz0 i).1 hu
  unfold binOf
  rw [if_neg (by omega)]
  dsimp only
  rw [hp]

theorem init_spec (m : Mel) (fft : ℕ) (rate : ℝ) (n : ℕ) (lower upper : ℝ) (hn : 1 ≤ n) (hr : 0 < rate)
    (hf : 2 ≤ fft) (hlo : 0 ≤ lower) (hhi : lower < upper)
    (hc1 : 3 / 2 + lower / (rate / (2 * ((fft : ℝ) - 1))) < 2 ^ 31)
    (hc2 : upper / (rate / (2 * ((fft : ℝ) - 1))) < 2 ^ 31) :
    ∃ m', m.init fft rate n lower upper = .ok (m', true) ∧
      Good m' fft (rate / (2 * ((fft : ℝ) - 1))) n lower upper := by
  have hz0 := hz_pos hr hf
  unfold Mel.init
  dsimp only
  rw [if_neg (by omega), if_neg (not_le.2 hr), if_neg (by omega), if_neg (not_lt.2 hlo),
    if_neg (not_le.2 hhi), Int.cast_natCast (n := fft)]
  generalize rate / (2 * ((fft : ℝ) - 1)) = hz at *
  rw [castInt_ok (add_nonneg (by norm_num) (div_nonneg hlo hz0.le)) hc1,
    castInt_ok (div_nonneg (hlo.trans hhi.le) hz0.le) hc2]
  simp only [bind, Except.bind, Int.toNat_natCast]
  have hstep := foldlM_add n
    (accumulate n ⌊3 / 2 + lower / hz⌋ ⌊upper / hz⌋
      (binOf ⌊3 / 2 + lower / hz⌋ ⌊upper / hz⌋ hz (freqToMel lower)
        ((freqToMel upper - freqToMel lower) / ((n : ℤ) + 1))))
    (fun c i => weight n hz lower upper c i) (List.range fft) (by
      intro i _ l hl
      by_cases hu : Used hz lower upper i
      · have hr := channel_range n hz0 hlo i hu
        have hb := ceil_bounds (position n lower upper (i * hz))
        obtain ⟨l', h1, h2, h3⟩ := add_pair' n _ hr.1 hr.2
          (1 - (position n lower upper (i * hz) -
            ((⌈position n lower upper (i * hz)⌉ - 1 : ℤ) : ℝ)))
          (1 - (1 - (position n lower upper (i * hz) -
            ((⌈position n lower upper (i * hz)⌉ - 1 : ℤ) : ℝ)))) l hl
        refine ⟨l', ?_, h2, fun c hc => ?_⟩
        · have := (used_iff hz0 i).1 hu
          unfold accumulate
          rw [if_neg (by omega), binOf_used hz0 i hu]
          exact h1
        · rw [h3 c hc]
          unfold weight
          rw [if_pos hu, triangle_eq c _ _ hb.1 hb.2, sub_sub_cancel]
      · refine ⟨l, ?_, hl, fun c _ => ?_⟩
        · unfold accumulate
          rw [if_pos]
          rw [used_iff hz0] at hu
          omega
        · unfold weight; rw [if_neg hu, add_zero])
    (List.replicate n 0) (by simp)
  obtain ⟨sums, hs1, hs2, hs3⟩ := hstep
  rw [hs1]
  refine ⟨_, rfl, ?_⟩
  constructor
  · rfl
  · rfl
  · rfl
  · rfl
  · rfl
  · intro i hu hi
    dsimp only
    rw [List.getElem?_map, List.getElem?_range hi, Option.map_some, binOf_used hz0 i hu]
  · intro i hu hi
    dsimp only
    rw [List.getElem?_map, List.getElem?_range hi, Option.map_some, binOf_used hz0 i hu]
  · simp
  · simp
  · exact hs2
  · intro c hc
    dsimp only
    rw [hs3 c hc, Dft.list_sum_range, List.getD_eq_getElem _ _ (by simpa using hc)]
    simp

theorem init_inv (m m' : Mel) (fft : ℕ) (rate : ℝ) (n : ℕ) (lower upper : ℝ)
    (h : m.init fft rate n lower upper = .ok (m', true)) :
    1 ≤ n ∧ 0 < rate ∧ 2 ≤ fft ∧ 0 ≤ lower ∧ lower < upper ∧
      Good m' fft (rate / (2 * ((fft : ℝ) - 1))) n lower upper := by
  have hconds : 1 ≤ n ∧ 0 < rate ∧ 2 ≤ fft ∧ 0 ≤ lower ∧ lower < upper := by
    refine ⟨?_, ?_, ?_, ?_, ?_⟩ <;> by_contra hc
    all_goals unfold Mel.init at h
    all_goals dsimp only at h
    · rw [if_pos (by omega)] at h; simp at h
    · split_ifs at h with h1
      · simp at h
      · simp at h
      · exact hc (not_le.1 ‹_›)
      all_goals exact hc (not_le.1 ‹_›)
    · split_ifs at h
      · simp at h
      · simp at h
      · simp at h
      all_goals omega
    · split_ifs at h
      all_goals first | (simp at h; done) | exact hc (not_lt.1 ‹_›)
    · split_ifs at h
      all_goals first | (simp at h; done) | exact hc (not_le.1 ‹_›)
  obtain ⟨hn, hr, hf, hlo, hhi⟩ := hconds
  refine ⟨hn, hr, hf, hlo, hhi, ?_⟩
  have hz0 := hz_pos hr hf
  by_cases hc1 : 3 / 2 + lower / (rate / (2 * ((fft : ℝ) - 1))) < 2 ^ 31
  · by_cases hc2 : upper / (rate / (2 * ((fft : ℝ) - 1))) < 2 ^ 31
    · obtain ⟨m1, h1, h2⟩ := init_spec m fft rate n lower upper hn hr hf hlo hhi hc1 hc2
      rw [h1] at h
      simp only [Except.ok.injEq, Prod.mk.injEq, and_true] at h
      rw [← h]; exact h2
    · exfalso
      unfold Mel.init at h
      dsimp only at h
      rw [if_neg (by omega), if_neg (not_le.2 hr), if_neg (by omega), if_neg (not_lt.2 hlo),
        if_neg (not_le.2 hhi), Int.cast_natCast (n := fft),
        castInt_ok (add_nonneg (by norm_num) (div_nonneg hlo hz0.le)) hc1] at h
      simp only [bind, Except.bind] at h
      rw [castInt, if_neg (fun hh => hc2 hh.2)] at h
      simp at h
  · exfalso
    unfold Mel.init at h
    dsimp only at h
    rw [if_neg (by omega), if_neg (not_le.2 hr), if_neg (by omega), if_neg (not_lt.2 hlo),
      if_neg (not_le.2 hhi), Int.cast_natCast (n := fft)] at h
    simp only [bind, Except.bind] at h
    rw [castInt, if_neg (fun hh => hc1 hh.2)] at h
    simp at h

end Verif.Mfcc
