import Verif.Model.FixedDelayLine

/-!
# C03: `FixedDelayLine`
-/

namespace Verif.FixedDelayLine

variable {α : Type}

theorem setCols_spec {buf : List α} {dst : Nat} {xs : List α} (h : dst + xs.length ≤ buf.length) :
    ∃ buf', setCols buf dst xs = .ok buf' ∧ buf'.length = buf.length ∧
      ∀ j, buf'[j]? = if dst ≤ j ∧ j < dst + xs.length then xs[j - dst]? else buf[j]? := by
  refine ⟨_, by unfold setCols; rw [if_pos h], ?_, ?_⟩
  · simp; omega
  · intro j
    rw [List.append_assoc, List.getElem?_append, List.length_take]
    by_cases h1 : j < dst
    · rw [if_pos (by omega), if_neg (by omega), List.getElem?_take, if_pos h1]
    · rw [if_neg (by omega), List.getElem?_append]
      have hm : min dst buf.length = dst := by omega
      rw [hm]
      by_cases h2 : j < dst + xs.length
      · rw [if_pos (by omega), if_pos (by omega)]
      · rw [if_neg (by omega), if_neg (by omega), List.getElem?_drop]
        congr 1; omega

theorem shiftLoop_spec (needed shift : Nat) : ∀ (k start : Nat) (buf : List α),
    needed - start ≤ k → needed ≤ buf.length →
    ∃ buf', shiftLoop needed shift buf start = .ok buf' ∧ buf'.length = buf.length ∧
      ∀ j, buf'[j]? = if start ≤ j ∧ j + shift < needed then buf[j + shift]? else buf[j]? := by
  intro k
  induction k with
  | zero =>
    intro start buf hk hlen
    refine ⟨buf, ?_, rfl, ?_⟩
    · rw [shiftLoop, dif_pos (by omega)]
    · intro j
      rw [if_neg (by omega)]
  | succ k ih =>
    intro start buf hk hlen
    by_cases h0 : min shift (needed - (start + shift)) = 0
    · refine ⟨buf, ?_, rfl, ?_⟩
      · rw [shiftLoop, dif_pos h0]
      · intro j
        by_cases hs : shift = 0
        · subst hs; split <;> rfl
        · rw [if_neg (by omega)]
    · have hl : ((buf.drop (start + shift)).take (min shift (needed - (start + shift)))).length
          = min shift (needed - (start + shift)) := by simp; omega
      obtain ⟨b1, h1, l1, g1⟩ := setCols_spec (buf := buf) (dst := start)
        (xs := (buf.drop (start + shift)).take (min shift (needed - (start + shift))))
        (by rw [hl]; omega)
      rw [hl] at g1
      obtain ⟨b2, h2, l2, g2⟩ := ih (start + shift) b1 (by omega) (by omega)
      refine ⟨b2, ?_, by omega, ?_⟩
      · rw [shiftLoop, dif_neg h0]
        have hc : copyCols buf start (start + shift) (min shift (needed - (start + shift)))
            = .ok b1 := by
          unfold copyCols
          rw [if_neg (by omega), if_pos (by omega), h1]
        rw [hc]
        exact h2
      · intro j
        rw [g2 j]
        by_cases c1 : start + shift ≤ j ∧ j + shift < needed
        · rw [if_pos c1, if_pos (by omega), g1, if_neg (by omega)]
        · rw [if_neg c1, g1]
          by_cases c2 : start ≤ j ∧ j + shift < needed
          · rw [if_pos (by omega), if_pos c2, List.getElem?_take, if_pos (by omega),
              List.getElem?_drop]
            congr 1; omega
          · rw [if_neg (by omega), if_neg c2]

/-- Invariant: the first `delay + lastRequest` columns of the buffer are the corresponding section
of the delayed stream `replicate delay zero ++ (everything written so far)`. -/
structure Inv (zero : α) (s : State α) (past : List α) : Prop where
  frame : s.lastFrame = s.delay + s.lastRequest
  len : s.lastFrame ≤ s.buffer.length
  req : s.lastRequest ≤ past.length
  content : ∀ j, j < s.delay + s.lastRequest →
    s.buffer[j]? = (List.replicate s.delay zero ++ past)[past.length - s.lastRequest + j]?

theorem processBlock_spec (zero : α) (junk : Nat → α) {s : State α} {past : List α}
    (h : Inv zero s past) (input : List α) :
    ∃ s', processBlock junk s input = .ok (s',
        ((List.replicate s.delay zero ++ (past ++ input)).drop past.length).take input.length) ∧
      Inv zero s' (past ++ input) ∧ s'.delay = s.delay := by
  obtain ⟨frame, len, req, content⟩ := h
  generalize hb0 : (if s.buffer.length < s.lastFrame + input.length
    then s.buffer ++ (List.range (s.lastFrame + input.length - s.buffer.length)).map junk
    else s.buffer) = buf0
  have l0 : s.lastFrame + input.length ≤ buf0.length := by
    rw [← hb0]; split
    · simp; omega
    · omega
  have g0 : ∀ j, j < s.delay + s.lastRequest → buf0[j]? = s.buffer[j]? := by
    intro j hj
    rw [← hb0]; split
    · rw [List.getElem?_append_left (by omega)]
    · rfl
  obtain ⟨b1, h1, l1, g1⟩ := shiftLoop_spec (s.lastFrame + input.length) s.lastRequest _ 0 buf0
    (Nat.le_refl _) l0
  obtain ⟨b2, h2, l2, g2⟩ := setCols_spec (buf := b1) (dst := s.lastFrame - s.lastRequest)
    (xs := input) (by omega)
  have hcont : ∀ j, j < s.delay + input.length →
      b2[j]? = (List.replicate s.delay zero ++ (past ++ input))[past.length + j]? := by
    intro j hj
    rw [g2 j]
    by_cases c : s.lastFrame - s.lastRequest ≤ j ∧ j < s.lastFrame - s.lastRequest + input.length
    · rw [if_pos c, ← List.append_assoc, List.getElem?_append_right (by simp; omega)]
      congr 1; simp; omega
    · rw [if_neg c, g1 j, if_pos (by omega), g0 _ (by omega), content _ (by omega),
        ← List.append_assoc, List.getElem?_append_left (l₂ := input) (by simp; omega)]
      congr 1; omega
  refine ⟨{ s with buffer := b2, lastFrame := s.lastFrame + input.length - s.lastRequest,
                   lastRequest := input.length }, ?_, ⟨?_, ?_, ?_, ?_⟩, rfl⟩
  · unfold processBlock
    simp only [hb0, h1, h2, bind, Except.bind, pure, Except.pure]
    rw [if_neg (by omega)]
    congr 2
    apply List.ext_getElem?
    intro i
    rw [List.getElem?_take, List.getElem?_take]
    split
    · rw [hcont i (by omega), List.getElem?_drop]
    · rfl
  · simp only; omega
  · simp only; omega
  · simp
  · intro j hj
    simp only at hj ⊢
    rw [hcont j hj]
    congr 1
    simp

theorem run_spec (zero : α) : ∀ (blocks : List ((Nat → α) × List α)) {s : State α} {past : List α},
    Inv zero s past →
    ∃ s' outs, run s blocks = .ok (s', outs) ∧
      outs.map List.length = blocks.map (fun b => b.2.length) ∧
      outs.flatten = ((List.replicate s.delay zero ++ (past ++ (blocks.map Prod.snd).flatten)).drop
        past.length).take (blocks.map Prod.snd).flatten.length
  | [], s, past, h => ⟨s, [], rfl, rfl, by simp⟩
  | (junk, x) :: rest, s, past, h => by
    obtain ⟨s1, h1, h2, h3⟩ := processBlock_spec zero junk h x
    obtain ⟨s2, outs, h4, h5, h6⟩ := run_spec zero rest h2
    refine ⟨s2, _ :: outs, by simp [run, h1, h4, bind, Except.bind, pure, Except.pure]; rfl, ?_, ?_⟩
    · simp [h5]; omega
    · rw [List.flatten_cons, h6, h3]
      apply List.ext_getElem?
      intro i
      rw [List.getElem?_append]
      have e1 : (List.take x.length (List.drop past.length (List.replicate s.delay zero ++ (past ++ x)))).length = x.length := by
        simp; omega
      rw [e1]
      simp only [List.map_cons, List.flatten_cons, List.length_append, List.getElem?_take,
        List.getElem?_drop]
      by_cases c : i < x.length
      · rw [if_pos c, if_pos c, if_pos (by omega)]
        rw [← List.append_assoc, ← List.append_assoc, ← List.append_assoc]
        rw [List.getElem?_append_left (l₂ := (List.map Prod.snd rest).flatten) (by simp; omega)]
      · rw [if_neg c]
        by_cases c2 : i < x.length + (List.map Prod.snd rest).flatten.length
        · rw [if_pos c2, if_pos (by omega)]
          simp only [List.append_assoc]
          congr 1; omega
        · rw [if_neg c2, if_neg (by omega)]

/-- **C03.** For every delay, every initially reserved block size, every sequence of blocks (of any
lengths, including empty ones) and whatever the uninitialised memory contains, no access is out of
bounds, every returned block is as long as its input block, and the concatenated output is
`delay` zero frames followed by the concatenated input, cut to the input's length. -/
theorem C03_delay (zero : α) (delay blockSize : Nat) (blocks : List ((Nat → α) × List α)) :
    ∃ s outs, run (init zero delay blockSize) blocks = .ok (s, outs) ∧
      outs.map List.length = blocks.map (fun b => b.2.length) ∧
      outs.flatten = (List.replicate delay zero ++ (blocks.map Prod.snd).flatten).take
        (blocks.map Prod.snd).flatten.length := by
  have h : Inv zero (init zero delay blockSize) [] := by
    refine ⟨rfl, by simp [init], Nat.le_refl _, ?_⟩
    intro j hj
    simp [init] at hj ⊢
    simp [List.getElem?_replicate, hj]
    omega
  obtain ⟨s, outs, h1, h2, h3⟩ := run_spec zero blocks h
  exact ⟨s, outs, h1, h2, by simpa [init] using h3⟩

/-- **C03.** Resetting after any history makes the line behave like a fresh one: zeros first. -/
theorem C03_reset (zero : α) (delay blockSize : Nat) (before blocks : List ((Nat → α) × List α)) :
    ∃ s0 outs0 s outs, run (init zero delay blockSize) before = .ok (s0, outs0) ∧
      run (reset zero s0) blocks = .ok (s, outs) ∧
      outs.flatten = (List.replicate delay zero ++ (blocks.map Prod.snd).flatten).take
        (blocks.map Prod.snd).flatten.length := by
  have key : ∀ (bs : List ((Nat → α) × List α)) (s : State α) (past : List α), Inv zero s past →
      ∃ s' outs past', run s bs = .ok (s', outs) ∧ Inv zero s' past' ∧ s'.delay = s.delay := by
    intro bs
    induction bs with
    | nil => intro s past h; exact ⟨s, [], past, rfl, h, rfl⟩
    | cons b bs ih =>
      intro s past h
      obtain ⟨s1, h1, h2, h3⟩ := processBlock_spec zero b.1 h b.2
      obtain ⟨s2, outs, past', h4, h5, h6⟩ := ih _ _ h2
      exact ⟨s2, _ :: outs, past', by
        simp [run, h1, h4, bind, Except.bind, pure, Except.pure]; rfl, h5, by rw [h6, h3]⟩
  have h : Inv zero (init zero delay blockSize) [] := by
    refine ⟨rfl, by simp [init], Nat.le_refl _, ?_⟩
    intro j hj
    simp [init] at hj ⊢
    simp [List.getElem?_replicate, hj]
    omega
  obtain ⟨s0, outs0, past', h1, h2, h3⟩ := key before _ _ h
  have hd : s0.delay = delay := h3
  have h' : Inv zero (reset zero s0) [] := by
    have := h2.frame; have := h2.len
    refine ⟨rfl, by simp [reset]; omega, Nat.le_refl _, ?_⟩
    intro j hj
    simp [reset] at hj ⊢
    simp [List.getElem?_replicate, hj]
    omega
  obtain ⟨s, outs, h4, h5, h6⟩ := run_spec zero blocks h'
  refine ⟨s0, outs0, s, outs, h1, h4, ?_⟩
  simpa [reset, hd] using h6

/-- Concrete instance: delay 3, blocks of sizes 2, 0, 5, 1 with no space reserved. -/
example : (run (init 0 3 0) [((fun _ => 99), [1, 2]), ((fun _ => 99), []),
      ((fun _ => 99), [3, 4, 5, 6, 7]), ((fun _ => 99), [8])]).toOption.map (fun r => r.2)
    = some [[0, 0], [], [0, 1, 2, 3, 4], [5]] := by
  simp [run, init, processBlock, setCols, shiftLoop, copyCols, bind, Except.bind, pure,
    Except.pure, Except.toOption, List.range, List.range.loop, List.replicate]

end Verif.FixedDelayLine
