import Verif.Model.InPlace
import Verif.Spec.InPlace

namespace Verif.InPlace
open Verif.Stream

variable {K : Type}

theorem write_same {A : Type} (m : ℕ → A) (a : ℕ) (x : A) : write m a x a = x := if_pos rfl

theorem write_other {A : Type} (m : ℕ → A) {a b : ℕ} (x : A) (h : b ≠ a) : write m a x b = m b := if_neg h

/-- A `ProcessSample` that does on every channel what the single-channel filter `step` does. -/
def Faithful {S T : Type} (C : ℕ) (sample : ℕ → ℕ → Mem K × S → Mem K × S) (proj : S → ℕ → T) (step : T → K → T × K) : Prop :=
  ∀ p q m s, Safe p q C →
    (∀ ch < C, (sample p q (m, s)).1 (q + ch) = (step (proj s ch) (m (p + ch))).2 ∧
      proj (sample p q (m, s)).2 ch = (step (proj s ch) (m (p + ch))).1) ∧
    ∀ b, b < q ∨ q + C ≤ b → (sample p q (m, s)).1 b = m b

theorem address {n N C ch : ℕ} (h : n < N) (hc : ch < C) : n * C + ch < N * C := by
  have : (n + 1) * C ≤ N * C := Nat.mul_le_mul_right _ h
  rw [Nat.add_mul, Nat.one_mul] at this
  omega

theorem runSamples_snoc {σ α β : Type} (step : σ → α → σ × β) (s : σ) (xs : List α) (x : α) :
    runSamples step s (xs ++ [x]) =
      ((step (runSamples step s xs).1 x).1, (runSamples step s xs).2 ++ [(step (runSamples step s xs).1 x).2]) := by
  induction xs generalizing s with
  | nil => rfl
  | cons a xs ih => simp only [List.cons_append, runSamples, ih]

theorem channel_succ (m : ℕ → K) (p C N ch : ℕ) : channel m p C (N + 1) ch = channel m p C N ch ++ [m (p + N * C + ch)] := by
  unfold channel; rw [List.range_succ, List.map_append]; rfl

theorem channel_congr {m m' : ℕ → K} {p C N ch : ℕ} (h : ∀ n < N, m (p + n * C + ch) = m' (p + n * C + ch)) :
    channel m p C N ch = channel m' p C N ch :=
  List.map_congr_left fun n hn => h n (List.mem_range.1 hn)

theorem block_faithful {S T : Type} {C : ℕ} {sample : ℕ → ℕ → Mem K × S → Mem K × S} {proj : S → ℕ → T}
    {step : T → K → T × K} (H : Faithful C sample proj step) {p q : ℕ} (m : Mem K) (s : S) {N : ℕ} (hs : Safe p q (N * C)) :
    (∀ ch < C, channel (block sample C p q N (m, s)).1 q C N ch = (runSamples step (proj s ch) (channel m p C N ch)).2 ∧
      proj (block sample C p q N (m, s)).2 ch = (runSamples step (proj s ch) (channel m p C N ch)).1) ∧
    ∀ b, b < q ∨ q + N * C ≤ b → (block sample C p q N (m, s)).1 b = m b := by
  induction N with
  | zero => exact ⟨fun ch _ => ⟨rfl, rfl⟩, fun b _ => rfl⟩
  | succ N ih =>
    have e : (N + 1) * C = N * C + C := by rw [Nat.add_mul, Nat.one_mul]
    obtain ⟨i1, i2⟩ := ih (by unfold Safe at *; omega)
    have b : block sample C p q (N + 1) (m, s) =
        sample (p + N * C) (q + N * C) (block sample C p q N (m, s)) := by
      unfold block; rw [List.range_succ, List.foldl_append]; rfl
    obtain ⟨h1, h2⟩ := H (p + N * C) (q + N * C) (block sample C p q N (m, s)).1 (block sample C p q N (m, s)).2
      (by unfold Safe at *; omega)
    rw [b]
    refine ⟨fun ch hc => ?_, fun a ha => ?_⟩
    · obtain ⟨j1, j2⟩ := i1 ch hc
      obtain ⟨k1, k2⟩ := h1 ch hc
      have r : (block sample C p q N (m, s)).1 (p + N * C + ch) = m (p + N * C + ch) :=
        i2 _ (by unfold Safe at hs; omega)
      rw [r, j2] at k1 k2
      rw [channel_succ, channel_succ, runSamples_snoc]
      refine ⟨?_, k2⟩
      dsimp only
      rw [k1, ← j1]
      congr 1
      refine channel_congr fun n hn => h2 _ (Or.inl ?_)
      have := address hn hc
      omega
    · rw [h2 a (by omega), i2 a (by omega)]

section

variable [Zero K] [Add K] [Sub K] [Mul K]

theorem writeFrame_spec (q : ℕ) (y : ℕ → K) (m : Mem K) (C : ℕ) :
    (∀ ch < C, writeFrame C q y m (q + ch) = y ch) ∧ ∀ b, b < q ∨ q + C ≤ b → writeFrame C q y m b = m b := by
  induction C with
  | zero => exact ⟨fun ch h => absurd h (by omega), fun _ _ => rfl⟩
  | succ C ih =>
    have e : writeFrame (C + 1) q y m = write (writeFrame C q y m) (q + C) (y C) := by
      unfold writeFrame; rw [List.range_succ, List.foldl_append]; rfl
    rw [e]
    refine ⟨fun ch hc => ?_, fun b hb => ?_⟩
    · by_cases h : ch = C
      · rw [h, write_same]
      · rw [write_other _ _ (by omega)]; exact ih.1 ch (by omega)
    · rw [write_other _ _ (by omega)]; exact ih.2 b (by omega)

theorem biquad_channels (f : Biquad.Filter K) {p q : ℕ} (m : Mem K) (s : ℕ → K × K) (C : ℕ) (hs : Safe p q C) :
    (∀ ch, (biquadSample f C p q (m, s)).2 ch = if ch < C then (Biquad.step f (s ch) (m (p + ch))).1 else s ch) ∧
    (∀ ch < C, (biquadSample f C p q (m, s)).1 (q + ch) = (Biquad.step f (s ch) (m (p + ch))).2) ∧
    ∀ b, b < q ∨ q + C ≤ b → (biquadSample f C p q (m, s)).1 b = m b := by
  induction C with
  | zero => exact ⟨fun ch => (if_neg (by omega)).symm, fun ch h => absurd h (by omega), fun _ _ => rfl⟩
  | succ C ih =>
    obtain ⟨i1, i2, i3⟩ := ih (by unfold Safe at *; omega)
    have e : biquadSample f (C + 1) p q (m, s) = biquadChannel f p q (biquadSample f C p q (m, s)) C := by
      unfold biquadSample; rw [List.range_succ, List.foldl_append]; rfl
    have r : (biquadSample f C p q (m, s)).1 (p + C) = m (p + C) := i3 _ (by unfold Safe at hs; omega)
    have t : (biquadSample f C p q (m, s)).2 C = s C := by rw [i1, if_neg (by omega)]
    rw [e]
    unfold biquadChannel
    dsimp only
    rw [r, t]
    refine ⟨fun ch => ?_, fun ch hc => ?_, fun b hb => ?_⟩
    · by_cases h : ch = C
      · rw [h, write_same, if_pos (by omega)]
      · rw [write_other _ _ h, i1]
        by_cases h' : ch < C
        · rw [if_pos h', if_pos (by omega)]
        · rw [if_neg h', if_neg (by omega)]
    · by_cases h : ch = C
      · rw [h, write_same]
      · rw [write_other _ _ (by omega)]; exact i2 ch (by omega)
    · rw [write_other _ _ (by omega)]; exact i3 b (by omega)

theorem biquad_faithful (f : Biquad.Filter K) (C : ℕ) :
    Faithful C (biquadSample f C) (fun s ch => s ch) (Biquad.step f) := by
  intro p q m s hs
  obtain ⟨h1, h2, h3⟩ := biquad_channels f m s C hs
  exact ⟨fun ch hc => ⟨h2 ch hc, by dsimp only; rw [h1, if_pos hc]⟩, h3⟩

theorem fixed_faithful (f : Biquad.Filter K) (C : ℕ) :
    Faithful C (biquadFixed f C) (fun s ch => s ch) (Biquad.step f) := by
  intro p q m s hs
  obtain ⟨h1, h2⟩ := writeFrame_spec q
    (fun ch => (m (p + ch) - ((s ch).1 * f.fb1 + (s ch).2 * f.fb2)) * f.ff0 + ((s ch).1 * f.ff1 + (s ch).2 * f.ff2)) m C
  exact ⟨fun ch hc => ⟨h1 ch hc, if_pos hc⟩, h2⟩

theorem fir_faithful (h : List K) :
    Faithful 1 (fun p q (w : Mem K × List K) => (write w.1 q (Fir.firStep h w.2 (w.1 p)).2, (Fir.firStep h w.2 (w.1 p)).1))
      (fun s _ => s) (Fir.firStep h) := by
  intro p q m s _
  refine ⟨fun ch hc => ?_, fun b hb => write_other _ _ (by omega)⟩
  obtain rfl : ch = 0 := by omega
  exact ⟨write_same _ _ _, rfl⟩

theorem fir_eq_block (h : List K) (p q N : ℕ) (w : Mem K × List K) :
    fir h p q N w = block (fun p q (w : Mem K × List K) =>
      (write w.1 q (Fir.firStep h w.2 (w.1 p)).2, (Fir.firStep h w.2 (w.1 p)).1)) 1 p q N w := by
  unfold fir block
  simp only [Nat.mul_one]

theorem writeFrames_spec (C q : ℕ) (y : ℕ → ℕ → K) (m : Mem K) (N : ℕ) :
    (∀ n < N, ∀ ch < C, (List.range N).foldl (fun m n => writeFrame C (q + n * C) (y n) m) m (q + n * C + ch) = y n ch) ∧
    ∀ b, b < q ∨ q + N * C ≤ b → (List.range N).foldl (fun m n => writeFrame C (q + n * C) (y n) m) m b = m b := by
  induction N with
  | zero => exact ⟨fun n h => absurd h (by omega), fun _ _ => rfl⟩
  | succ N ih =>
    have e : (N + 1) * C = N * C + C := by rw [Nat.add_mul, Nat.one_mul]
    rw [List.range_succ, List.foldl_append]
    simp only [List.foldl_cons, List.foldl_nil]
    obtain ⟨h1, h2⟩ := writeFrame_spec (q + N * C) (y N)
      ((List.range N).foldl (fun m n => writeFrame C (q + n * C) (y n) m) m) C
    refine ⟨fun n hn ch hc => ?_, fun b hb => ?_⟩
    · by_cases h : n = N
      · rw [h, h1 ch hc]
      · have := address (show n < N by omega) hc
        rw [h2 _ (by omega)]
        exact ih.1 n (by omega) ch hc
    · rw [h2 b (by omega)]
      exact ih.2 b (by omega)

theorem channel_cons (m : ℕ → K) (p C N ch : ℕ) :
    channel m p C (N + 1) ch = m (p + ch) :: (List.range N).map fun n => m (p + (n + 1) * C + ch) := by
  unfold channel
  rw [List.range_succ_eq_map, List.map_cons, List.map_map, Nat.zero_mul, Nat.add_zero]
  rfl

theorem channel_eq_map {m : ℕ → K} {p C N ch : ℕ} {y : ℕ → K} (h : ∀ n < N, m (p + n * C + ch) = y n) :
    channel m p C N ch = (List.range N).map y := List.map_congr_left fun n hn => h n (List.mem_range.1 hn)

end

theorem ladder_states (step : (ℕ → ℝ) → ℝ → (ℕ → ℝ)) (x : ℕ → ℝ) (st : ℕ → ℕ → ℝ) (C ch : ℕ) :
    (List.range C).foldl (fun st ch => write st ch (step (st ch) (x ch))) st ch = if ch < C then step (st ch) (x ch) else st ch := by
  induction C generalizing ch with
  | zero => rfl
  | succ C ih =>
    rw [List.range_succ, List.foldl_append]
    simp only [List.foldl_cons, List.foldl_nil]
    by_cases h : ch = C
    · rw [h, write_same, ih, if_neg (by omega), if_pos (by omega)]
    · rw [write_other _ _ h, ih]
      by_cases h' : ch < C
      · rw [if_pos h', if_pos (by omega)]
      · rw [if_neg h', if_neg (by omega)]

theorem smooth_state (cfg : Ladder.Config) (f : Ladder.Filter) (st : ℕ → ℝ) :
    Ladder.smooth cfg { f with state := st } = { Ladder.smooth cfg f with state := st } := by
  unfold Ladder.smooth
  dsimp only
  split_ifs <;> rfl

theorem ladder_faithful (cfg : Ladder.Config) (C : ℕ) :
    Faithful C (ladderSample cfg C) (fun s ch => ({ s.1 with state := s.2 ch } : Ladder.Filter)) (Ladder.processSample cfg) := by
  intro p q m s hs
  obtain ⟨f, st⟩ := s
  have e := ladder_states (Ladder.stageLoop (Ladder.smooth cfg f).k (Ladder.smooth cfg f).c (Ladder.smooth cfg f).order)
    (fun ch => m (p + ch)) st C
  unfold ladderSample
  dsimp only
  obtain ⟨h1, h2⟩ := writeFrame_spec q (fun ch => Ladder.taps (Ladder.smooth cfg f).order (Ladder.smooth cfg f).v
    ((List.range C).foldl (fun st ch => write st ch (Ladder.stageLoop (Ladder.smooth cfg f).k (Ladder.smooth cfg f).c
      (Ladder.smooth cfg f).order (st ch) (m (p + ch)))) st ch)) m C
  refine ⟨fun ch hc => ?_, h2⟩
  rw [h1 ch hc, e ch, if_pos hc]
  unfold Ladder.processSample
  have := smooth_state cfg f (st ch)
  dsimp only at this ⊢
  rw [this]
  exact ⟨rfl, rfl⟩

end Verif.InPlace
