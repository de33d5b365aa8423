import Verif.Proof.InPlace

/-!
# C115: filtering in place

For each of the filters that are documented to support `&input = output`: the output written to memory is the output of the
filter on the samples that were in the input buffer before the call, channel by channel, the final state is the state that the
filter has after these samples, and nothing else is written. This holds in place, for disjoint buffers, and when the output
starts before the input (`Safe`). The arithmetic is arbitrary, except for the ladder filter.
-/

namespace Verif.InPlace
open Verif.Stream

section

variable {K : Type} [Zero K] [Add K] [Sub K] [Mul K]

/-- `BiquadFilter::ProcessBlock` for a number of channels that is known at run time, or for one channel. -/
theorem C115_biquad (f : Biquad.Filter K) (C N p q : ℕ) (m : Mem K) (s : ℕ → K × K) (hs : Safe p q (N * C)) :
    (∀ ch < C,
      channel (block (biquadSample f C) C p q N (m, s)).1 q C N ch =
        (runSamples (Biquad.step f) (s ch) (channel m p C N ch)).2 ∧
      (block (biquadSample f C) C p q N (m, s)).2 ch = (runSamples (Biquad.step f) (s ch) (channel m p C N ch)).1) ∧
    ∀ b, b < q ∨ q + N * C ≤ b → (block (biquadSample f C) C p q N (m, s)).1 b = m b :=
  block_faithful (biquad_faithful f C) m s hs

/-- `BiquadFilter::ProcessBlock` for a number of channels that is known at compile time. -/
theorem C115_biquad_fixed (f : Biquad.Filter K) (C N p q : ℕ) (m : Mem K) (s : ℕ → K × K) (hs : Safe p q (N * C)) :
    (∀ ch < C,
      channel (block (biquadFixed f C) C p q N (m, s)).1 q C N ch =
        (runSamples (Biquad.step f) (s ch) (channel m p C N ch)).2 ∧
      (block (biquadFixed f C) C p q N (m, s)).2 ch = (runSamples (Biquad.step f) (s ch) (channel m p C N ch)).1) ∧
    ∀ b, b < q ∨ q + N * C ≤ b → (block (biquadFixed f C) C p q N (m, s)).1 b = m b :=
  block_faithful (fixed_faithful f C) m s hs

/-- `BiquadFilterCascade::ProcessBlock`. A cascade has at least one stage. -/
theorem C115_cascade (C N p q : ℕ) (m : Mem K) (stages : List (Biquad.Filter K × (ℕ → K × K))) (hn : stages ≠ [])
    (hs : Safe p q (N * C)) :
    (∀ ch < C,
      channel (cascade C p q N m stages).1 q C N ch =
        (Biquad.cascadeBlock (stages.map fun t => (t.1, t.2 ch)) (channel m p C N ch)).2 ∧
      ((cascade C p q N m stages).2.map fun t => (t.1, t.2 ch)) =
        (Biquad.cascadeBlock (stages.map fun t => (t.1, t.2 ch)) (channel m p C N ch)).1) ∧
    ∀ b, b < q ∨ q + N * C ≤ b → (cascade C p q N m stages).1 b = m b := by
  induction stages generalizing p m with
  | nil => exact absurd rfl hn
  | cons t rest ih =>
    obtain ⟨f, s⟩ := t
    obtain ⟨h1, h2⟩ := C115_biquad f C N p q m s hs
    by_cases hr : rest = []
    · subst hr
      refine ⟨fun ch hc => ?_, h2⟩
      obtain ⟨a1, a2⟩ := h1 ch hc
      simp only [cascade, Biquad.cascadeBlock, List.map_cons, List.map_nil]
      rw [a1, a2]
      exact ⟨rfl, rfl⟩
    · obtain ⟨i1, i2⟩ := ih q (block (biquadSample f C) C p q N (m, s)).1 hr (Or.inl le_rfl)
      refine ⟨fun ch hc => ?_, fun b hb => ?_⟩
      · obtain ⟨a1, a2⟩ := h1 ch hc
        obtain ⟨b1, b2⟩ := i1 ch hc
        simp only [cascade, Biquad.cascadeBlock, List.map_cons]
        rw [b1, b2, a1, a2]
        exact ⟨rfl, rfl⟩
      · simp only [cascade]
        rw [i2 b hb, h2 b hb]

/-- `FIRFilter::Filter`. -/
theorem C115_fir (h : List K) (N p q : ℕ) (m : Mem K) (s : List K) (hs : Safe p q N) :
    channel (fir h p q N (m, s)).1 q 1 N 0 = (runSamples (Fir.firStep h) s (channel m p 1 N 0)).2 ∧
    (fir h p q N (m, s)).2 = (runSamples (Fir.firStep h) s (channel m p 1 N 0)).1 ∧
    ∀ b, b < q ∨ q + N ≤ b → (fir h p q N (m, s)).1 b = m b := by
  rw [fir_eq_block]
  obtain ⟨h1, h2⟩ := block_faithful (fir_faithful h) m s (p := p) (q := q) (N := N) (by rwa [Nat.mul_one])
  rw [Nat.mul_one] at h2
  exact ⟨(h1 0 (by omega)).1, (h1 0 (by omega)).2, h2⟩

/-- `TwoTapFirFilter::ProcessBlock`, for any overlap. -/
theorem C115_two_tap (g : Fir.TwoTap K) (C N p q : ℕ) (m : Mem K) (s : ℕ → K) :
    (∀ ch < C,
      channel (twoTap g C p q N (m, s)).1 q C N ch = (Fir.twoTapBlock g (s ch) (channel m p C N ch)).2 ∧
      (twoTap g C p q N (m, s)).2 ch = (Fir.twoTapBlock g (s ch) (channel m p C N ch)).1) ∧
    ∀ b, b < q ∨ q + N * C ≤ b → (twoTap g C p q N (m, s)).1 b = m b := by
  obtain ⟨h1, h2⟩ := writeFrames_spec C q (fun n ch =>
    if 0 < n then g.gainNow * m (p + n * C + ch) + g.gainPrev * m (p + (n - 1) * C + ch)
    else g.gainNow * m (p + ch) + g.gainPrev * s ch) m N
  refine ⟨fun ch hc => ?_, h2⟩
  have out := channel_eq_map (fun n hn => h1 n hn ch hc)
  unfold twoTap
  dsimp only
  rw [out]
  cases N with
  | zero => exact ⟨rfl, rfl⟩
  | succ N =>
    rw [if_pos (by omega), if_pos hc, List.range_succ_eq_map, List.map_cons, List.map_map]
    have drop : (channel m p C (N + 1) ch).dropLast = channel m p C N ch := by rw [channel_succ, List.dropLast_concat]
    have last : (channel m p C (N + 1) ch).getLastD 0 = m (p + N * C + ch) := by rw [channel_succ]; simp
    rw [channel_cons] at drop last ⊢
    unfold Fir.twoTapBlock
    dsimp only
    rw [drop, last]
    refine ⟨?_, by rw [Nat.add_sub_cancel]⟩
    rw [if_neg (by omega)]
    congr 1
    unfold channel
    rw [List.zipWith_map, List.zipWith_self]
    refine List.map_congr_left fun n _ => ?_
    simp

end

/-- `LadderFilter::ProcessBlock`; also while the coefficients are smoothed. -/
theorem C115_ladder (cfg : Ladder.Config) (f : Ladder.Filter) (C N p q : ℕ) (m : Mem ℝ) (s : ℕ → ℕ → ℝ)
    (hs : Safe p q (N * C)) :
    (∀ ch < C,
      channel (block (ladderSample cfg C) C p q N (m, f, s)).1 q C N ch =
        (runSamples (Ladder.processSample cfg) { f with state := s ch } (channel m p C N ch)).2 ∧
      ({ (block (ladderSample cfg C) C p q N (m, f, s)).2.1 with
          state := (block (ladderSample cfg C) C p q N (m, f, s)).2.2 ch } : Ladder.Filter) =
        (runSamples (Ladder.processSample cfg) { f with state := s ch } (channel m p C N ch)).1) ∧
    ∀ b, b < q ∨ q + N * C ≤ b → (block (ladderSample cfg C) C p q N (m, f, s)).1 b = m b :=
  block_faithful (ladder_faithful cfg C) m (f, s) hs

/-- The hypothesis holds in place. -/
example (p len : ℕ) : Safe p p len := Or.inl le_rfl

/-- The hypothesis is needed: with the output one frame after the input, outputs are filtered again. The filter is a gain of 2. -/
example : channel (block (biquadSample ⟨2, 0, 0, 0, 0⟩ 1) 1 0 1 3 ((fun _ => (1 : ℤ)), fun _ => (0, 0))).1 1 1 3 0 = [2, 4, 8] := by
  decide

/-- Two channels in place, `y[n] = x[n] + x[n-1]`. -/
example : (List.range 7).map (block (biquadSample ⟨1, 1, 0, 0, 0⟩ 2) 2 0 0 3 ((fun a => (a : ℤ)), fun _ => (0, 0))).1 =
    [0, 1, 2, 4, 6, 8, 6] := by decide

end Verif.InPlace
