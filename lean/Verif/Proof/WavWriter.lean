import Verif.Proof.WavSamples
import Mathlib.Tactic.IntervalCases

/-! # The WAV writer -/

namespace Verif.Wav

open Verif.Serialize Verif.Wav.Spec

theorem leWriteU16_eq (v : BitVec 16) : leWriteU16 v = leBytes 2 v.toNat := by
  simp only [leWriteU16, leBytes, List.cons.injEq, and_true]
  constructor <;> apply BitVec.eq_of_toNat_eq <;>
    simp [BitVec.toNat_setWidth, BitVec.toNat_ushiftRight, Nat.shiftRight_eq_div_pow]

theorem leWriteU32_eq (v : BitVec 32) : leWriteU32 v = leBytes 4 v.toNat := by
  simp only [leWriteU32, leBytes, List.cons.injEq, and_true]
  refine ⟨?_, ?_, ?_, ?_⟩ <;> apply BitVec.eq_of_toNat_eq <;>
    simp [BitVec.toNat_setWidth, BitVec.toNat_ushiftRight, Nat.shiftRight_eq_div_pow,
      Nat.div_div_eq_div_mul]

/-- All writes so far were accepted and produced `bs`; or some write was cut short. -/
def Wrote (w0 w : Sink) (bs : List Byte) : Prop :=
  (bs.length ≤ w0.room → w = ⟨w0.out ++ bs, w0.room - bs.length, false⟩) ∧
  (w0.room < bs.length → w.err = true)

theorem Wrote.start (w0 : Sink) : Wrote w0 { w0 with err := false } [] := by
  constructor
  · intro _; simp
  · intro h; simp at h

theorem Wrote.next {w0 w : Sink} {bs : List Byte} (h : Wrote w0 w bs) (cs : List Byte) :
    Wrote w0 (writeCheck cs w) (bs ++ cs) := by
  obtain ⟨h1, h2⟩ := h
  constructor
  · intro hl
    rw [List.length_append] at hl
    rw [h1 (by omega)]
    simp only [writeCheck, Sink.mk.injEq, List.length_append]
    refine ⟨?_, by omega, ?_⟩
    · rw [List.take_of_length_le (by omega), List.append_assoc]
    · rw [List.take_of_length_le (by omega)]; simp
  · intro hl
    rw [List.length_append] at hl
    by_cases hc : w0.room < bs.length
    · simp [writeCheck, h2 hc]
    · rw [h1 (by omega)]
      simp only [writeCheck, List.length_take, Bool.false_or, decide_eq_true_eq]
      omega

theorem Wrote.err_iff {w0 w : Sink} {bs : List Byte} (h : Wrote w0 w bs) :
    w.err = true ↔ w0.room < bs.length := by
  refine ⟨fun he => ?_, h.2⟩
  by_contra hc
  rw [h.1 (by omega)] at he
  exact absurd he (by simp)

theorem Wrote.of_le {w0 w : Sink} {bs cs : List Byte} (h : Wrote w0 w bs) (he : w.err = true)
    (hl : bs.length ≤ cs.length) : w0.room < cs.length := by
  have := h.err_iff.mp he; omega

/-- The body of the format chunk written for `channels` channels. -/
def fmtBody (rate channels : Int) : List Byte :=
  leWriteU16 (if 2 < channels then 0xFFFE else 1) ++ leWriteU16 (BitVec.ofInt 16 channels) ++
  leWriteU32 (BitVec.ofInt 32 rate) ++ leWriteU32 (BitVec.ofInt 32 (channels * 2 * rate)) ++
  leWriteU16 (BitVec.ofInt 16 (channels * 2)) ++ leWriteU16 16 ++
  (if 2 < channels then leWriteU16 22 ++ leWriteU16 16 ++ leWriteU32 0 ++ leWriteU16 1 ++ pcmGuid else [])

/-- The header written. -/
def headerBytes (numSamples : Nat) (rate channels : Int) : List Byte :=
  let fmtSize : BitVec 32 := if 2 < channels then 40 else 16
  idRIFF ++ leWriteU32 (20 + fmtSize + (if 2 < channels then 12 else 0) + BitVec.ofNat 32 (2 * numSamples)) ++
  idWAVE ++ (idFmt ++ leWriteU32 fmtSize ++ fmtBody rate channels) ++
  (if 2 < channels then idFact ++ leWriteU32 4 ++
    leWriteU32 (BitVec.ofNat 32 (numSamples / channels.toNat)) else []) ++
  (idData ++ leWriteU32 (BitVec.ofNat 32 (2 * numSamples)))

theorem writeHeader_eq {numSamples : Nat} {rate channels : Int} {w0 : Sink}
    (h1 : fitsInt (channels * 2)) (h2 : fitsInt (channels * 2 * rate)) :
    ∃ b w, writeHeader numSamples rate channels w0 = some (b, w) ∧ w.err = !b ∧
      (b = true → (headerBytes numSamples rate channels).length ≤ w0.room ∧
        w = ⟨w0.out ++ headerBytes numSamples rate channels,
          w0.room - (headerBytes numSamples rate channels).length, false⟩) ∧
      (b = false → w0.room < (headerBytes numSamples rate channels).length) := by
  unfold writeHeader
  simp only [h1, h2, not_true, if_false]
  unfold headerBytes fmtBody writeUint16 writeUint32
  have W0 := (((Wrote.start w0).next idRIFF).next (leWriteU32 (20 + (if decide (2 < channels) = true then
    (40 : BitVec 32) else 16) + (if decide (2 < channels) = true then 12 else 0) +
    BitVec.ofNat 32 (2 * numSamples)))).next idWAVE
  have W1 := ((((((((W0.next idFmt).next (leWriteU32 (if decide (2 < channels) = true then
    (40 : BitVec 32) else 16))).next (leWriteU16 (if decide (2 < channels) = true then 0xFFFE else 1))).next
    (leWriteU16 (BitVec.ofInt 16 channels))).next (leWriteU32 (BitVec.ofInt 32 rate))).next
    (leWriteU32 (BitVec.ofInt 32 (channels * 2 * rate)))).next
    (leWriteU16 (BitVec.ofInt 16 (channels * 2)))).next (leWriteU16 16))
  by_cases hx : 2 < channels
  · simp only [hx, decide_true, if_true] at W0 W1 ⊢
    have W2 := (((((((W1.next (leWriteU16 22)).next (leWriteU16 16)).next (leWriteU32 0)).next
      (leWriteU16 1)).next pcmGuid).next idFact).next (leWriteU32 4)).next
      (leWriteU32 (BitVec.ofNat 32 (numSamples / channels.toNat)))
    have W3 := (W2.next idData).next (leWriteU32 (BitVec.ofNat 32 (2 * numSamples)))
    simp only [List.nil_append, List.append_assoc] at W0 W1 W2 W3 ⊢
    split
    · rename_i he
      refine ⟨_, _, rfl, by rw [he]; rfl, by simp, fun _ => W0.of_le he ?_⟩
      simp only [List.length_append]; omega
    · split
      · rename_i he
        refine ⟨_, _, rfl, by rw [he]; rfl, by simp, fun _ => W1.of_le he ?_⟩
        simp only [List.length_append]; omega
      · split
        · rename_i he
          refine ⟨_, _, rfl, by rw [he]; rfl, by simp, fun _ => W2.of_le he ?_⟩
          simp only [List.length_append]; omega
        · refine ⟨_, _, rfl, by simp, fun hb => ?_, fun hb => W3.err_iff.mp (by simpa using hb)⟩
          have hle : ¬ _ := fun hlt => absurd (W3.err_iff.mpr hlt) (by simpa using hb)
          exact ⟨by omega, W3.1 (by omega)⟩
  · simp only [hx, decide_false, if_false, Bool.false_eq_true] at W0 W1 ⊢
    have W3 := (W1.next idData).next (leWriteU32 (BitVec.ofNat 32 (2 * numSamples)))
    simp only [List.nil_append, List.append_assoc] at W0 W1 W3 ⊢
    split
    · rename_i he
      refine ⟨_, _, rfl, by rw [he]; rfl, by simp, fun _ => W0.of_le he ?_⟩
      simp only [List.length_append]; omega
    · split
      · rename_i he
        refine ⟨_, _, rfl, by rw [he]; rfl, by simp, fun _ => W1.of_le he ?_⟩
        simp only [List.length_append]; omega
      · refine ⟨_, _, rfl, by simp, fun hb => ?_, fun hb => W3.err_iff.mp (by simpa using hb)⟩
        have hle : ¬ _ := fun hlt => absurd (W3.err_iff.mpr hlt) (by simpa using hb)
        exact ⟨by omega, W3.1 (by omega)⟩

/-- The bytes of a 16-bit sample sequence. -/
def sampleBytes (xs : List (BitVec 16)) : List Byte := xs.flatMap leWriteU16

theorem wrote_samples {w0 : Sink} : ∀ (xs : List (BitVec 16)) {w : Sink} {bs : List Byte},
    Wrote w0 w bs → Wrote w0 (xs.foldl (fun w x => writeUint16 x w) w) (bs ++ sampleBytes xs)
  | [], w, bs, h => by simpa [sampleBytes] using h
  | x :: xs, w, bs, h => by
    have := wrote_samples xs (h.next (leWriteU16 x))
    simpa [sampleBytes, writeUint16] using this

theorem writeSamples_eq {xs : List (BitVec 16)} {w0 : Sink} (h : xs.length < 2 ^ 31) :
    ∃ b w, writeSamples xs w0 = some (b, w) ∧ w.err = !b ∧
      (b = true → (sampleBytes xs).length ≤ w0.room ∧
        w = ⟨w0.out ++ sampleBytes xs, w0.room - (sampleBytes xs).length, false⟩) ∧
      (b = false → w0.room < (sampleBytes xs).length) := by
  unfold writeSamples
  rw [if_neg (by omega)]
  have W := wrote_samples (w0 := w0) xs (Wrote.start w0)
  rw [List.nil_append] at W
  refine ⟨_, _, rfl, by simp, fun hb => ?_, fun hb => W.err_iff.mp (by simpa using hb)⟩
  have hle : ¬ _ := fun hlt => absurd (W.err_iff.mpr hlt) (by simpa using hb)
  exact ⟨by omega, W.1 (by omega)⟩

theorem sampleBytes_length (xs : List (BitVec 16)) : (sampleBytes xs).length = xs.length * 2 := by
  induction xs with
  | nil => rfl
  | cons x xs ih =>
    have : sampleBytes (x :: xs) = leWriteU16 x ++ sampleBytes xs := rfl
    rw [this, List.length_append, ih, leWriteU16_eq, leBytes_length, List.length_cons]; omega

theorem sampleBytes_field : ∀ (xs : List (BitVec 16)) (i : Nat) (h : i < xs.length),
    field (sampleBytes xs) (i * 2) 2 = leBytes 2 xs[i].toNat
  | x :: xs, 0, _ => by
    have : sampleBytes (x :: xs) = leWriteU16 x ++ sampleBytes xs := rfl
    rw [this, leWriteU16_eq]
    simp only [field, Nat.zero_mul, List.drop_zero, List.getElem_cons_zero]
    rw [List.take_left' (by simp)]
  | x :: xs, i + 1, h => by
    have : sampleBytes (x :: xs) = leWriteU16 x ++ sampleBytes xs := rfl
    rw [this, leWriteU16_eq]
    have ih := sampleBytes_field xs i (by simpa using h)
    simp only [List.getElem_cons_succ]
    rw [← ih]
    unfold field
    rw [show (i + 1) * 2 = 2 + i * 2 by omega, ← List.drop_drop, List.drop_left' (by simp)]

theorem chunk_fmt {rate channels : Int} :
    idFmt ++ leWriteU32 (if 2 < channels then 40 else 16) ++ fmtBody rate channels =
      chunk idFmt (fmtBody rate channels) := by
  unfold chunk
  congr 2
  rw [leWriteU32_eq]
  congr 1
  unfold fmtBody
  by_cases h : 2 < channels
  · simp only [h, if_true]; rfl
  · simp only [h, if_false]; rfl

theorem ofInt16_toNat {c : Int} (h0 : 0 ≤ c) (h1 : c < 65536) : (BitVec.ofInt 16 c).toNat = c.toNat := by
  rw [BitVec.toNat_ofInt]
  congr 1
  exact Int.emod_eq_of_lt h0 (by norm_num; omega)

theorem num_write16 (v : BitVec 16) : num (leWriteU16 v) = v.toNat := by
  rw [leWriteU16_eq, num_leBytes, Nat.mod_eq_of_lt]
  have := v.isLt; norm_num at this ⊢; omega

theorem num_write32 (v : BitVec 32) : num (leWriteU32 v) = v.toNat := by
  rw [leWriteU32_eq, num_leBytes, Nat.mod_eq_of_lt]
  have := v.isLt; norm_num at this ⊢; omega

theorem signed32_ofInt {r : Int} (h0 : -2 ^ 31 ≤ r) (h1 : r < 2 ^ 31) :
    signed32 (BitVec.ofInt 32 r).toNat = r := by
  have h := toInt_ofNat32 (n := (BitVec.ofInt 32 r).toNat) (BitVec.isLt _)
  rw [← h, BitVec.ofNat_toNat, BitVec.setWidth_eq, BitVec.toInt_ofInt]
  norm_num at h0 h1 ⊢
  rw [Int.bmod_eq_of_le] <;> norm_num <;> omega

theorem formatOf_fmtBody {rate channels : Int} (hc0 : 1 ≤ channels) (hc1 : channels < 65536)
    (hr0 : -2 ^ 31 ≤ rate) (hr1 : rate < 2 ^ 31) :
    formatOf (fmtBody rate channels) = some ⟨channels.toNat, rate, 16, .pcm16⟩ := by
  have f2 : field (fmtBody rate channels) 2 2 = leWriteU16 (BitVec.ofInt 16 channels) := rfl
  have f4 : field (fmtBody rate channels) 4 4 = leWriteU32 (BitVec.ofInt 32 rate) := rfl
  have f14 : field (fmtBody rate channels) 14 2 = leWriteU16 16 := rfl
  have f0 : field (fmtBody rate channels) 0 2 = leWriteU16 (if 2 < channels then 0xFFFE else 1) := rfl
  unfold formatOf
  rw [f0, f2, f4, f14, num_write16, num_write16, num_write16, num_write32, ofInt16_toNat (by omega) hc1,
    signed32_ofInt hr0 hr1]
  by_cases h : 2 < channels
  · have hl : (fmtBody rate channels).length = 40 := by
      unfold fmtBody; simp only [h, if_true]; rfl
    have f24 : field (fmtBody rate channels) 24 2 = leWriteU16 1 := by
      unfold fmtBody; simp only [h, if_true]; rfl
    rw [hl, f24, num_write16]
    have hn : ¬(40 < 16 ∨ channels.toNat = 0) := by omega
    simp only [h, if_true, if_neg hn]
    rfl
  · have hl : (fmtBody rate channels).length = 16 := by
      unfold fmtBody; simp only [h, if_false]; rfl
    rw [hl]
    have hn : ¬(16 < 16 ∨ channels.toNat = 0) := by omega
    simp only [h, if_false, if_neg hn]
    rfl

theorem headerBytes_wellFormed {n : Nat} {rate channels : Int} (hc0 : 1 ≤ channels) (hc1 : channels < 65536)
    (hr0 : -2 ^ 31 ≤ rate) (hr1 : rate < 2 ^ 31) (hn : 2 * n < 2 ^ 32) (tail : List Byte) :
    WellFormed (headerBytes n rate channels ++ tail) ⟨channels.toNat, rate, 16, .pcm16⟩ (2 * n) tail := by
  refine ⟨leWriteU32 (20 + (if 2 < channels then (40 : BitVec 32) else 16) +
      (if 2 < channels then 12 else 0) + BitVec.ofNat 32 (2 * n)), chunk idFmt (fmtBody rate channels) ++ ((if 2 < channels then
    chunk idFact (leWriteU32 (BitVec.ofNat 32 (n / channels.toNat))) else []) ++ []), ?_, hn, ?_, ?_⟩
  · rw [leWriteU32_eq, leBytes_length]
  · refine Chunks.fmt ?_ (formatOf_fmtBody hc0 hc1 hr0 hr1) ?_
    · have : (fmtBody rate channels).length ≤ 40 := by
        unfold fmtBody
        by_cases h : 2 < channels
        · simp [h, leWriteU16, leWriteU32, pcmGuid]
        · simp [h, leWriteU16, leWriteU32]
      omega
    · by_cases h : 2 < channels
      · simp only [h, if_true]
        exact Chunks.fact (by rw [leWriteU32_eq, leBytes_length]) (Chunks.nil _)
      · simp only [h, if_false]
        exact Chunks.nil _
  · unfold headerBytes
    simp only
    rw [chunk_fmt, leWriteU32_eq (BitVec.ofNat 32 (2 * n)), BitVec.toNat_ofNat, Nat.mod_eq_of_lt hn]
    by_cases h : 2 < channels
    · simp only [h, if_true, List.append_assoc, List.append_nil, chunk]
      rw [leWriteU32_eq 4]
      simp only [leWriteU32_eq (BitVec.ofNat 32 (n / channels.toNat)), leBytes_length]
      rfl
    · simp only [h, if_false, List.append_assoc, List.append_nil, List.nil_append]

end Verif.Wav
