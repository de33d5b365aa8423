import Verif.Proof.SpectrogramFft
import Verif.Spec.Spectrogram

/-! Helper lemmas for `InverseSpectrogram`. -/

namespace Verif.Spectrogram

open Real Finset Spec

/-- The value added at position `k` for a slice. -/
noncomputable def Inv.cur (s : Inv) (slice : List (ℝ × ℝ)) (k : ℕ) : ℝ :=
  (rdftInverse s.fftLength (Inv.pack s.fftLength slice)).getD k 0 / (s.fftLength / 2 : ℕ) *
    (match s.window with | none => 1 | some w => w.getD k 0)

/-- Invariant of an initialised object. -/
structure Inv.Ok (s : Inv) : Prop where
  init : s.initialized = true
  step : 0 < s.step
  fft : ∃ h, 0 < h ∧ s.fftLength = 2 * h
  frame : s.frameSize ≤ s.fftLength
  win : ∀ w, s.window = some w → w.length = s.frameSize
  nowin : s.window = none → s.frameSize = s.fftLength
  ov : s.overlap = s.frameSize - s.step
  len : s.working.length = s.overlap

theorem getD_set_real (l : List ℝ) (k m : ℕ) (v : ℝ) (hk : k < l.length) :
    (l.set k v).getD m 0 = if m = k then v else l.getD m 0 := by
  simp only [List.getD_eq_getElem?_getD]
  by_cases h : m = k
  · subst h; rw [List.getElem?_set_self hk]; simp
  · rw [List.getElem?_set_ne (by omega), if_neg h]

theorem getD_append_single (l : List ℝ) (m : ℕ) (v : ℝ) :
    (l ++ [v]).getD m 0 = l.getD m 0 + if m = l.length then v else 0 := by
  simp only [List.getD_eq_getElem?_getD]
  rcases Nat.lt_trichotomy m l.length with h | h | h
  · rw [List.getElem?_append_left h, if_neg (by omega)]; simp
  · subst h; simp
  · rw [List.getElem?_eq_none (by simp; omega), List.getElem?_eq_none (by omega), if_neg (by omega)]; simp

theorem Inv.coreLoop_eq {s : Inv} (hs : s.Ok) (slice : List (ℝ × ℝ)) :
    ∀ (n k : ℕ) (working : List ℝ), k + n = s.frameSize → working.length = max s.overlap k →
      ∃ r, s.coreLoop (rdftInverse s.fftLength (Inv.pack s.fftLength slice)) n k working = some r ∧
        r.length = max s.overlap (k + n) ∧
        ∀ m, r.getD m 0 = working.getD m 0 + if k ≤ m ∧ m < k + n then s.cur slice m else 0
  | 0, k, working, _, hl => ⟨working, rfl, by simpa using hl, by
      intro m; rw [if_neg (by omega)]; simp⟩
  | n + 1, k, working, hk, hl => by
    have hxl : (rdftInverse s.fftLength (Inv.pack s.fftLength slice)).length = s.fftLength := by
      simp [rdftInverse]
    have hf := hs.frame
    have hx : (rdftInverse s.fftLength (Inv.pack s.fftLength slice))[k]? =
        some ((rdftInverse s.fftLength (Inv.pack s.fftLength slice)).getD k 0) := by
      rw [List.getD_eq_getElem?_getD, List.getElem?_eq_getElem (by omega)]; rfl
    have hw : s.windowValue k = some (match s.window with | none => 1 | some w => w.getD k 0) := by
      unfold Inv.windowValue
      cases hww : s.window with
      | none => rfl
      | some w =>
        have := hs.win w hww
        simp only
        rw [if_neg (by omega), List.getD_eq_getElem?_getD, List.getElem?_eq_getElem (by omega)]; rfl
    unfold Inv.coreLoop
    rw [hx, hw]
    simp only [Option.bind_eq_bind, Option.bind_some]
    have hc : (rdftInverse s.fftLength (Inv.pack s.fftLength slice)).getD k 0 / (s.fftLength / 2 : ℕ) *
      (match s.window with | none => 1 | some w => w.getD k 0) = s.cur slice k := rfl
    rw [hc]
    by_cases hko : k < s.overlap
    · rw [if_pos hko]
      have ho : working[k]? = some (working.getD k 0) := by
        rw [List.getD_eq_getElem?_getD, List.getElem?_eq_getElem (by omega)]; rfl
      rw [ho]
      simp only [Option.bind_some]
      obtain ⟨r, r1, r2, r3⟩ := Inv.coreLoop_eq hs slice n (k + 1)
        (working.set k (working.getD k 0 + s.cur slice k)) (by omega) (by simp; omega)
      refine ⟨r, r1, by rw [r2]; congr 1; omega, ?_⟩
      intro m
      rw [r3, getD_set_real _ _ _ _ (by omega)]
      by_cases hm : m = k
      · subst hm
        rw [if_pos rfl, if_neg (by omega), if_pos (by omega)]; ring
      · rw [if_neg hm]
        congr 1
        by_cases h1 : k + 1 ≤ m ∧ m < k + 1 + n
        · rw [if_pos h1, if_pos (by omega)]
        · rw [if_neg h1, if_neg (by omega)]
    · rw [if_neg hko]
      obtain ⟨r, r1, r2, r3⟩ := Inv.coreLoop_eq hs slice n (k + 1)
        (working ++ [s.cur slice k]) (by omega) (by simp; omega)
      refine ⟨r, r1, by rw [r2]; congr 1; omega, ?_⟩
      intro m
      rw [r3, getD_append_single]
      by_cases hm : m = k
      · subst hm
        rw [if_pos (by omega), if_neg (by omega), if_pos (by omega)]; ring
      · rw [if_neg (by omega)]
        by_cases h1 : k + 1 ≤ m ∧ m < k + 1 + n
        · rw [if_pos h1, if_pos (by omega)]; ring
        · rw [if_neg h1, if_neg (by omega)]; ring

/-- What is added for a slice is the synthesis frame of the specification. -/
theorem Inv.cur_eq {s : Inv} (hs : s.Ok) (slice : List (ℝ × ℝ)) (m : ℕ) (hm : m < s.frameSize) :
    s.cur slice m = (synthesisFrame s.fftLength s.window slice).getD m 0 := by
  obtain ⟨h, hh, hn⟩ := hs.fft
  have hz : (h : ℝ) ≠ 0 := by positivity
  have hf := hs.frame
  have hi : (rdftInverse s.fftLength (Inv.pack s.fftLength slice)).getD m 0 / (s.fftLength / 2 : ℕ)
      = inverseDft s.fftLength slice m := by
    rw [hn]
    unfold rdftInverse
    rw [List.getD_eq_getElem?_getD, List.getElem?_map, List.getElem?_range (by omega)]
    simp only [Option.map_some, Option.getD_some]
    have hp : ∀ m, m < 2 * h → (Inv.pack (2 * h) slice).getD m 0
        = if m = 0 then (slice.getD 0 (0, 0)).1 else if m = 1 then (slice.getD (2 * h / 2) (0, 0)).1
          else if m % 2 = 0 then (slice.getD (m / 2) (0, 0)).1 else (slice.getD (m / 2) (0, 0)).2 := by
      intro m hm
      unfold Inv.pack
      rw [List.getD_eq_getElem?_getD, List.getElem?_map, List.getElem?_range hm]
      simp only [Option.map_some, Option.getD_some]
    have s1 := Dft.list_sum_range' (fun j : ℕ => (Inv.pack (2 * h) slice).getD (2 * j) 0 *
      cos (2 * π * j * m / ((2 * h : ℕ) : ℝ))) 1 (2 * h / 2 - 1)
    have s2 := Dft.list_sum_range' (fun j : ℕ => (Inv.pack (2 * h) slice).getD (2 * j + 1) 0 *
      sin (2 * π * j * m / ((2 * h : ℕ) : ℝ))) 1 (2 * h / 2 - 1)
    rw [s1, s2, hp 0 (by omega), hp 1 (by omega), if_pos rfl, if_neg (by omega), if_pos rfl, add_assoc,
      ← sum_add_distrib]
    unfold inverseDft
    have e1 : ∀ j ∈ range (2 * h / 2 - 1), (Inv.pack (2 * h) slice).getD (2 * (1 + j)) 0 *
        cos (2 * π * ((1 + j : ℕ) : ℝ) * m / ((2 * h : ℕ) : ℝ)) +
        (Inv.pack (2 * h) slice).getD (2 * (1 + j) + 1) 0 *
        sin (2 * π * ((1 + j : ℕ) : ℝ) * m / ((2 * h : ℕ) : ℝ)) =
        (slice.getD (j + 1) (0, 0)).1 * cos (2 * π * (j + 1 : ℕ) * m / ((2 * h : ℕ) : ℝ))
        + (slice.getD (j + 1) (0, 0)).2 * sin (2 * π * (j + 1 : ℕ) * m / ((2 * h : ℕ) : ℝ)) := by
      intro j hj
      rw [mem_range] at hj
      rw [hp _ (by omega), hp _ (by omega), if_neg (by omega), if_neg (by omega), if_pos (by omega),
        if_neg (by omega), if_neg (by omega), if_neg (by omega), show 2 * (1 + j) / 2 = j + 1 by omega,
        show (2 * (1 + j) + 1) / 2 = j + 1 by omega, show 1 + j = j + 1 by omega]
    rw [sum_congr rfl e1]
    have hc : ((2 * h / 2 : ℕ) : ℝ) = h := by congr 1; omega
    have hc2 : ((2 * h : ℕ) : ℝ) = 2 * h := by push_cast; ring
    rw [hc]
    generalize ∑ j ∈ range (2 * h / 2 - 1), (_ : ℝ) = S
    rw [hc2]
    field_simp
  unfold Inv.cur
  rw [hi]
  unfold synthesisFrame
  cases hw : s.window with
  | none =>
    have := hs.nowin hw
    simp only
    rw [List.getD_eq_getElem?_getD, List.getElem?_map, List.getElem?_range (by omega)]
    simp
  | some w =>
    have := hs.win w hw
    simp only [List.getD_eq_getElem?_getD]
    rw [List.getElem?_map, List.getElem?_range (by omega)]
    simp

/-- Length of the synthesis frame. -/
theorem Inv.synthesisFrame_length {s : Inv} (hs : s.Ok) (slice : List (ℝ × ℝ)) :
    (synthesisFrame s.fftLength s.window slice).length = s.frameSize := by
  unfold synthesisFrame
  cases hw : s.window with
  | none => simp [hs.nowin hw]
  | some w => simp [hs.win w hw]

/-- One slice. -/
theorem Inv.processSlice_eq {s : Inv} (hs : s.Ok) (slice : List (ℝ × ℝ))
    (hl : slice.length = s.fftLength / 2 + 1) :
    ∃ out working, s.processSlice slice = some (out, { s with working, processed := true }) ∧
      out.length = min s.step s.frameSize ∧ working.length = s.overlap ∧
      ∀ m, (out ++ working).getD m 0 = s.working.getD m 0
        + (synthesisFrame s.fftLength s.window slice).getD m 0 := by
  have hov := hs.ov
  obtain ⟨r, r1, r2, r3⟩ := Inv.coreLoop_eq hs slice s.frameSize 0 s.working (by omega)
    (by rw [hs.len]; simp)
  unfold Inv.processSlice
  rw [if_neg (by omega), if_neg (by rw [hs.len]; omega)]
  simp only [r1, Option.bind_eq_bind, Option.bind_some]
  rw [if_neg (by omega)]
  refine ⟨r.take (r.length - s.overlap), r.drop (r.length - s.overlap), rfl, ?_, ?_, ?_⟩
  · simp; omega
  · simp; omega
  · intro m
    rw [List.take_append_drop, r3]
    congr 1
    by_cases hm : m < s.frameSize
    · rw [if_pos (by omega), Inv.cur_eq hs slice m hm]
    · rw [if_neg (by omega), List.getD_eq_getElem?_getD, List.getElem?_eq_none]
      · rfl
      · rw [Inv.synthesisFrame_length hs]; omega

theorem getD_append' (a b : List ℝ) (t : ℕ) :
    (a ++ b).getD t 0 = a.getD t 0 + if a.length ≤ t then b.getD (t - a.length) 0 else 0 := by
  simp only [List.getD_eq_getElem?_getD]
  split
  · rename_i h
    rw [List.getElem?_append_right h, List.getElem?_eq_none h]; simp
  · rename_i h
    rw [List.getElem?_append_left (by omega)]; simp

theorem overlapAdd_append (fs : List (List ℝ)) (g : List ℝ) (p t : ℕ) :
    overlapAdd (fs ++ [g]) p t = overlapAdd fs p t
      + if fs.length * p ≤ t then g.getD (t - fs.length * p) 0 else 0 := by
  unfold overlapAdd
  rw [List.length_append, List.length_singleton, sum_range_succ]
  congr 1
  · apply sum_congr rfl
    intro j hj
    rw [mem_range] at hj
    simp only [List.getD_eq_getElem?_getD, List.getElem?_append_left hj]
  · simp

/-- State after slices `xs` with outputs `out`. -/
structure Inv.After (s0 s : Inv) (xs : List (List (ℝ × ℝ))) (out : List ℝ) : Prop where
  ok : s.Ok
  same : { s with working := s0.working, processed := s0.processed } = s0
  proc : s.processed = true ↔ xs ≠ []
  outLen : out.length = xs.length * min s0.step s0.frameSize
  val : ∀ t, (out ++ s.working).getD t 0 =
    overlapAdd (xs.map (synthesisFrame s0.fftLength s0.window)) (min s0.step s0.frameSize) t

theorem Inv.After.step {s0 s : Inv} {xs : List (List (ℝ × ℝ))} {out : List ℝ} (h : Inv.After s0 s xs out)
    (slice : List (ℝ × ℝ)) (hl : slice.length = s0.fftLength / 2 + 1) :
    ∃ o s', s.processSlice slice = some (o, s') ∧ Inv.After s0 s' (xs ++ [slice]) (out ++ o) := by
  have e1 : s.fftLength = s0.fftLength := by rw [← h.same]
  have e2 : s.window = s0.window := by rw [← h.same]
  have e3 : s.step = s0.step := by rw [← h.same]
  have e4 : s.frameSize = s0.frameSize := by rw [← h.same]
  obtain ⟨o, w, h1, h2, h3, h4⟩ := Inv.processSlice_eq h.ok slice (by rw [e1]; exact hl)
  refine ⟨o, _, h1, ?_⟩
  constructor
  · exact ⟨h.ok.init, h.ok.step, h.ok.fft, h.ok.frame, h.ok.win, h.ok.nowin, h.ok.ov, h3⟩
  · have := h.same
    simpa using this
  · simp
  · rw [List.length_append, h.outLen, h2, e3, e4]; simp; ring
  · intro t
    have hv := h.val t
    rw [List.map_append, List.map_singleton, overlapAdd_append, ← hv, List.append_assoc, getD_append',
      getD_append' out s.working, h.outLen, List.length_map]
    rw [add_assoc]
    congr 1
    split
    · rw [h4, e1, e2]
    · ring

theorem Inv.After.loop {s0 : Inv} : ∀ (ys : List (List (ℝ × ℝ))) {s : Inv} {xs : List (List (ℝ × ℝ))}
    {out : List ℝ}, Inv.After s0 s xs out → (∀ y ∈ ys, y.length = s0.fftLength / 2 + 1) →
    ∃ o s', Inv.processLoop s ys = some (o, s') ∧ Inv.After s0 s' (xs ++ ys) (out ++ o)
  | [], s, xs, out, h, _ => ⟨[], s, rfl, by simpa using h⟩
  | y :: ys, s, xs, out, h, hy => by
    obtain ⟨o, s', h1, h2⟩ := h.step y (hy y (by simp))
    obtain ⟨o2, s2, h3, h4⟩ := Inv.After.loop ys h2 (fun z hz => hy z (by simp [hz]))
    refine ⟨o ++ o2, s2, ?_, by simpa using h4⟩
    unfold Inv.processLoop
    rw [h1]
    simp only [Option.bind_eq_bind, Option.bind_some, h3]
    rfl

theorem Inv.After.all {s0 : Inv} : ∀ (calls : List (List (List (ℝ × ℝ)))) {s : Inv}
    {xs : List (List (ℝ × ℝ))} {out : List ℝ}, Inv.After s0 s xs out →
    (∀ c ∈ calls, ∀ y ∈ c, y.length = s0.fftLength / 2 + 1) →
    ∃ os s', Inv.processAll s calls = some (os, s') ∧
      Inv.After s0 s' (xs ++ calls.flatten) (out ++ os.flatten)
  | [], s, xs, out, h, _ => ⟨[], s, rfl, by simpa using h⟩
  | c :: calls, s, xs, out, h, hy => by
    obtain ⟨o, s', h1, h2⟩ := Inv.After.loop c h (hy c (by simp))
    obtain ⟨os, s2, h3, h4⟩ := Inv.After.all calls h2 (fun z hz => hy z (by simp [hz]))
    refine ⟨o :: os, s2, ?_, by simpa using h4⟩
    unfold Inv.processAll Inv.process
    rw [if_neg (by simp [h.ok.init]), h1]
    simp only [Option.map_some, h3]

end Verif.Spectrogram
