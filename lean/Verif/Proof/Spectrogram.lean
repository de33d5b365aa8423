import Verif.Model.Spectrogram

/-! Helper lemmas for the spectrogram framing. -/

namespace Verif.Spectrogram

variable {α β : Type}

/-- Number of complete frames of length `W` at spacing `S` in `n` samples. -/
def numFrames (W S n : ℕ) : ℕ := if n < W then 0 else (n - W) / S + 1

theorem lt_numFrames {W S n : ℕ} (hS : 0 < S) (j : ℕ) : j < numFrames W S n ↔ j * S + W ≤ n := by
  unfold numFrames
  split
  · constructor
    · intro h; omega
    · intro h; omega
  · rw [Nat.lt_succ_iff, Nat.le_div_iff_mul_le hS]
    omega

/-- State after the samples `x` since the last reset. -/
def stateOf (s : St α) (x : List α) : St α :=
  let W := s.window.length
  let k := numFrames W s.step x.length
  { s with
    queue := x.drop ((k - 1) * s.step)
    toNext := k * s.step + W - x.length
    initialized := true }

/-- The state in which frame `j` of `x` is analysed. -/
def frameState (s : St α) (x : List α) (j : ℕ) : St α :=
  { s with
    queue := (x.drop (j * s.step)).take s.window.length
    toNext := s.step
    initialized := true }

theorem frameState_append (s : St α) (x y : List α) (j : ℕ)
    (h : j * s.step + s.window.length ≤ x.length) :
    frameState s (x ++ y) j = frameState s x j := by
  unfold frameState
  congr 1
  rw [List.drop_append_of_le_length (by omega), List.take_append_of_le_length (by simp; omega)]

theorem numFrames_eq {W S n k : ℕ} (hS : 0 < S) (h1 : n < k * S + W) (h2 : 0 < k → (k - 1) * S + W ≤ n) :
    numFrames W S n = k := by
  apply Nat.le_antisymm
  · by_contra hc
    have := (lt_numFrames (W := W) (n := n) hS k).1 (by omega)
    omega
  · by_contra hc
    have h3 := h2 (by omega)
    have := (lt_numFrames (W := W) (n := n) hS (k - 1)).2 h3
    omega

theorem numFrames_bounds {W S n : ℕ} (hS : 0 < S) :
    n < numFrames W S n * S + W ∧ (0 < numFrames W S n → (numFrames W S n - 1) * S + W ≤ n) := by
  constructor
  · by_contra hc
    have := (lt_numFrames (W := W) (n := n) hS _).2 (Nat.le_of_not_lt hc)
    omega
  · intro h
    exact (lt_numFrames (W := W) (n := n) hS _).1 (by omega)

theorem computeLoop_stateOf (slice : St α → β) (s : St α) (hS : 0 < s.step) (hW : 0 < s.window.length) :
    ∀ (fuel : ℕ) (x r : List α), r.length < fuel →
      computeLoop slice fuel (stateOf s x) r =
        some ((List.range' (numFrames s.window.length s.step x.length)
            (numFrames s.window.length s.step (x ++ r).length
              - numFrames s.window.length s.step x.length)).map
              (fun j => slice (frameState s (x ++ r) j)), stateOf s (x ++ r))
  | 0, _, _, h => by omega
  | fuel + 1, x, r, h => by
    have IH := computeLoop_stateOf slice s hS hW fuel
    obtain ⟨hb1, hb2⟩ := numFrames_bounds (W := s.window.length) (n := x.length) hS
    generalize hk : numFrames s.window.length s.step x.length = k at *
    unfold computeLoop getNextWindow
    by_cases ht : k * s.step + s.window.length - x.length > r.length
    · have e : numFrames s.window.length s.step (x ++ r).length = k := by
        apply numFrames_eq hS
        · simp only [List.length_append]; omega
        · intro hp
          have := hb2 hp
          simp only [List.length_append]; omega
      have h1 : (stateOf s x).toNext > r.length := by
        unfold stateOf; simp only [hk]; exact ht
      rw [if_pos h1]
      simp only [e, Nat.sub_self, List.range'_zero, List.map_nil]
      refine congrArg some (Prod.ext rfl ?_)
      show _ = stateOf s (x ++ r)
      unfold stateOf
      simp only [hk, e]
      congr 1
      · simp only [List.length_append]; omega
      · rw [List.drop_append_of_le_length]
        rcases Nat.eq_zero_or_pos k with h0 | h0
        · subst h0; simp
        · have := hb2 h0; omega
    · have ht' : k * s.step + s.window.length - x.length ≤ r.length := by omega
      obtain ⟨t, hte⟩ : ∃ t, t = k * s.step + s.window.length - x.length := ⟨_, rfl⟩
      have h1 : (stateOf s x).toNext = t := by
        unfold stateOf; simp only [hk]; omega
      rw [if_neg (by rw [h1]; omega)]
      have hx' : (x ++ r.take t).length = k * s.step + s.window.length := by
        simp only [List.length_append, List.length_take]; omega
      have e' : numFrames s.window.length s.step (x ++ r.take t).length = k + 1 := by
        apply numFrames_eq hS
        · rw [hx']; rw [Nat.add_mul]; omega
        · intro _; rw [hx']; simp
      have hq : (stateOf s x).queue = x.drop ((k - 1) * s.step) := by
        unfold stateOf; simp only [hk]
      have hqd : (stateOf s x).queue ++ r.take t = (x ++ r.take t).drop ((k - 1) * s.step) := by
        rw [hq, List.drop_append_of_le_length]
        rcases Nat.eq_zero_or_pos k with h0 | h0
        · subst h0; simp
        · have := hb2 h0; omega
      have hkk : (k - 1) * s.step ≤ k * s.step := Nat.mul_le_mul_right _ (by omega)
      simp only [h1, hqd]
      have hw : (stateOf s x).window = s.window := rfl
      have hlen : ((x ++ r.take t).drop ((k - 1) * s.step)).length
          = k * s.step + s.window.length - (k - 1) * s.step := by
        rw [List.length_drop, hx']
      rw [hw, if_neg (by rw [hlen]; omega)]
      have hst : (⟨s.window, (stateOf s x).step, (stateOf s x).fftLength, (stateOf s x).initialized,
            (stateOf s x).step, ((x ++ r.take t).drop ((k - 1) * s.step)).drop
              (((x ++ r.take t).drop ((k - 1) * s.step)).length - s.window.length)⟩ : St α)
            = stateOf s (x ++ r.take t) := by
        unfold stateOf
        simp only [e', hlen]
        congr 1
        · rw [hx', Nat.add_mul]; omega
        · rw [List.drop_drop]
          congr 1
          simp only [Nat.add_sub_cancel]
          omega
      simp only [hst]
      have hsp : x ++ r = (x ++ r.take t) ++ r.drop t := by simp
      rw [IH (x ++ r.take t) (r.drop t) (by simp only [List.length_drop]; omega)]
      simp only [e', ← hsp]
      have hmono : k + 1 ≤ numFrames s.window.length s.step (x ++ r).length := by
        have := (lt_numFrames (W := s.window.length) (n := (x ++ r).length) hS k).2 (by
          rw [hsp, List.length_append, hx']; omega)
        omega
      have hfs : stateOf s (x ++ r.take t) = frameState s (x ++ r) k := by
        rw [hsp, frameState_append s _ _ _ (by rw [hx'])]
        unfold stateOf frameState
        simp only [e']
        congr 1
        · rw [hx', Nat.add_mul]; omega
        · rw [Nat.add_sub_cancel]
          refine (List.take_of_length_le ?_).symm
          rw [List.length_drop, hx']; omega
      refine congrArg some (Prod.ext ?_ rfl)
      show slice _ :: _ = _
      rw [hfs]
      obtain ⟨d, hd⟩ : ∃ d, numFrames s.window.length s.step (x ++ r).length - k = d + 1 :=
        ⟨numFrames s.window.length s.step (x ++ r).length - k - 1, by omega⟩
      have hd' : numFrames s.window.length s.step (x ++ r).length - (k + 1) = d := by omega
      rw [hd, hd', List.range'_succ, List.map_cons]

theorem computeAll_stateOf (slice : St α → β) (s : St α) (hS : 0 < s.step) (hW : 0 < s.window.length) :
    ∀ (blocks : List (List α)) (x : List α), ∃ outs,
      computeAll slice (stateOf s x) blocks = some (outs, stateOf s (x ++ blocks.flatten)) ∧
      outs.flatten = (List.range' (numFrames s.window.length s.step x.length)
            (numFrames s.window.length s.step (x ++ blocks.flatten).length
              - numFrames s.window.length s.step x.length)).map
              (fun j => slice (frameState s (x ++ blocks.flatten) j))
  | [], x => ⟨[], by simp [computeAll], by simp⟩
  | b :: bs, x => by
    have h1 := computeLoop_stateOf slice s hS hW (b.length + 1) x b (by omega)
    obtain ⟨outs, h2, h3⟩ := computeAll_stateOf slice s hS hW bs (x ++ b)
    have hi : (stateOf s x).initialized = true := rfl
    refine ⟨(List.range' (numFrames s.window.length s.step x.length)
        (numFrames s.window.length s.step (x ++ b).length
          - numFrames s.window.length s.step x.length)).map
          (fun j => slice (frameState s (x ++ b) j)) :: outs, ?_, ?_⟩
    · unfold computeAll compute
      rw [if_neg (by simp [hi]), h1]
      simp only [Option.map_some]
      rw [h2]
      simp only [Option.map_some, List.flatten_cons, List.append_assoc]
    · rw [List.flatten_cons, h3]
      simp only [List.flatten_cons, ← List.append_assoc]
      generalize hy : x ++ b = y
      generalize bs.flatten = z
      have m1 : numFrames s.window.length s.step x.length ≤ numFrames s.window.length s.step y.length := by
        by_contra hc
        have := (lt_numFrames (W := s.window.length) (n := x.length) hS
          (numFrames s.window.length s.step y.length)).1 (by omega)
        have := (lt_numFrames (W := s.window.length) (n := y.length) hS
          (numFrames s.window.length s.step y.length)).2 (by
            rw [← hy, List.length_append] at *; omega)
        omega
      have m2 : numFrames s.window.length s.step y.length ≤
          numFrames s.window.length s.step (y ++ z).length := by
        by_contra hc
        have := (lt_numFrames (W := s.window.length) (n := y.length) hS
          (numFrames s.window.length s.step (y ++ z).length)).1 (by omega)
        have := (lt_numFrames (W := s.window.length) (n := (y ++ z).length) hS
          (numFrames s.window.length s.step (y ++ z).length)).2 (by
            rw [List.length_append] at *; omega)
        omega
      have e1 : (List.range' (numFrames s.window.length s.step x.length)
            (numFrames s.window.length s.step y.length - numFrames s.window.length s.step x.length)).map
              (fun j => slice (frameState s y j)) =
          (List.range' (numFrames s.window.length s.step x.length)
            (numFrames s.window.length s.step y.length - numFrames s.window.length s.step x.length)).map
              (fun j => slice (frameState s (y ++ z) j)) := by
        apply List.map_congr_left
        intro j hj
        rw [List.mem_range'_1] at hj
        rw [frameState_append]
        exact (lt_numFrames hS j).1 (by omega)
      rw [e1, ← List.map_append]
      congr 1
      generalize numFrames s.window.length s.step x.length = a at *
      generalize numFrames s.window.length s.step y.length = b' at *
      generalize numFrames s.window.length s.step (y ++ z).length = c at *
      obtain ⟨d, rfl⟩ : ∃ d, b' = a + d := ⟨b' - a, by omega⟩
      obtain ⟨e, rfl⟩ : ∃ e, c = a + d + e := ⟨c - (a + d), by omega⟩
      have q1 : a + d - a = d := by omega
      have q2 : a + d + e - (a + d) = e := by omega
      have q3 : a + d + e - a = d + e := by omega
      rw [q1, q2, q3]
      exact List.range'_append_1

end Verif.Spectrogram
