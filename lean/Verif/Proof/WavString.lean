import Verif.Model.WavString
import Verif.Theorems.Wav
import Mathlib.Tactic.Positivity
import Mathlib.Tactic.Linarith
import Mathlib.Tactic.FieldSimp
import Mathlib.Tactic.Ring

/-! # Lemmas for WAV strings and whole-file reading -/

namespace Verif.WavString

open Verif.Wav Verif.Quantize Verif.Serialize Verif.Wav.Spec

/-! ### Truncation -/

theorem trunc_int (n : ℤ) : trunc n = n := by
  unfold trunc; split <;> simp

theorem trunc_pow (k : ℕ) : trunc (2 ^ k) = 2 ^ k := by
  have h := trunc_int (2 ^ k)
  rwa [Int.cast_pow, Int.cast_ofNat] at h

theorem trunc_neg_pow (k : ℕ) : trunc (-2 ^ k) = -2 ^ k := by
  have h := trunc_int (-2 ^ k)
  rwa [Int.cast_neg, Int.cast_pow, Int.cast_ofNat] at h

theorem trunc_mono {a b : ℚ} (h : a ≤ b) : trunc a ≤ trunc b := by
  unfold trunc
  split
  · rename_i ha
    rw [if_pos (ha.trans h)]
    exact Int.floor_le_floor h
  · rename_i ha
    split
    · rename_i hb
      have h1 : ⌈a⌉ ≤ 0 := Int.ceil_le.mpr (by push_cast; linarith)
      exact h1.trans (Int.floor_nonneg.mpr hb)
    · exact Int.ceil_le_ceil h

theorem trunc_min (q : ℚ) (n : ℤ) : trunc (min q n) = min n (trunc q) := by
  rcases le_total q n with h | h
  · rw [min_eq_left h]
    have := trunc_mono h
    rw [trunc_int] at this
    rw [min_eq_right this]
  · rw [min_eq_right h, trunc_int]
    have := trunc_mono h
    rw [trunc_int] at this
    rw [min_eq_left this]

theorem trunc_max (q : ℚ) (n : ℤ) : trunc (max (n : ℚ) q) = max n (trunc q) := by
  rcases le_total q n with h | h
  · rw [max_eq_left h, trunc_int]
    have := trunc_mono h
    rw [trunc_int] at this
    rw [max_eq_left this]
  · rw [max_eq_right h]
    have := trunc_mono h
    rw [trunc_int] at this
    rw [max_eq_right this]

/-- Truncation is towards zero, by less than one. -/
theorem trunc_spec (q : ℚ) : (0 ≤ q → 0 ≤ trunc q ∧ (trunc q : ℚ) ≤ q ∧ q < trunc q + 1) ∧
    (q ≤ 0 → trunc q ≤ 0 ∧ q ≤ (trunc q : ℚ) ∧ (trunc q : ℚ) - 1 < q) := by
  unfold trunc
  constructor
  · intro h
    rw [if_pos h]
    exact ⟨Int.floor_nonneg.mpr h, Int.floor_le q, Int.lt_floor_add_one q⟩
  · intro h
    split
    · rename_i h2
      have : q = 0 := le_antisymm h h2
      subst this; simp
    · exact ⟨Int.ceil_le.mpr (by push_cast; linarith), Int.le_ceil q, by
        have := Int.ceil_lt_add_one q; linarith⟩

/-! ### Conversion to 16 bits -/

theorem less_fin (p q : ℚ) : FVal.less (.fin p) (.fin q) = decide (p < q) := rfl

theorem floatToInt16_fin (q : ℚ) :
    floatToInt16 (.fin q) = some (max (-32768) (min 32767 (trunc (q * 2 ^ 15)))) := by
  have key : ∀ v : ℚ, FVal.toInt 16 (if FVal.isNan (FVal.maximum (.fin (-32768)) (FVal.minimum (.fin v)
      (.fin 32767))) then .fin 0 else FVal.maximum (.fin (-32768)) (FVal.minimum (.fin v) (.fin 32767))) =
      some (max (-32768) (min 32767 (trunc v))) := by
    intro v
    have h1 : FVal.minimum (.fin v) (.fin 32767) = .fin (min v 32767) := by
      unfold FVal.minimum
      rw [less_fin]
      by_cases h : (32767 : ℚ) < v
      · rw [decide_eq_true h, if_pos rfl, min_eq_right h.le]
      · rw [decide_eq_false h, min_eq_left (not_lt.mp h)]; rfl
    have h2 : FVal.maximum (.fin (-32768)) (.fin (min v 32767)) = .fin (max (-32768) (min v 32767)) := by
      unfold FVal.maximum
      rw [less_fin]
      by_cases h : (-32768 : ℚ) < min v 32767
      · rw [decide_eq_true h, if_pos rfl, max_eq_right h.le]
      · rw [decide_eq_false h, max_eq_left (not_lt.mp h)]; rfl
    rw [h1, h2]
    have h3 : trunc (max (-32768) (min v 32767)) = max (-32768) (min 32767 (trunc v)) := by
      have e1 := trunc_min v 32767
      have e2 := trunc_max (min v 32767) (-32768)
      push_cast at e1 e2
      rw [e2, e1]
    simp only [FVal.isNan, Bool.false_eq_true, if_false, FVal.toInt, h3]
    rw [if_pos (by constructor <;> norm_num)]
  unfold floatToInt16 FVal.scale
  simp only
  split
  · rename_i h
    have hbig : (2 : ℚ) ^ 128 ≤ |q * 2 ^ 15| := h
    by_cases hq : q < 0
    · rw [decide_eq_true hq]
      have e : q * 2 ^ 15 ≤ -2 ^ 128 := by
        rw [abs_of_neg (by nlinarith)] at hbig; linarith
      have ht : trunc (q * 2 ^ 15) ≤ -2 ^ 128 := by
        have := trunc_mono e
        rwa [trunc_neg_pow] at this
      rw [max_eq_left (by
        have : (min 32767 (trunc (q * 2 ^ 15))) ≤ -2 ^ 128 := (min_le_right _ _).trans ht
        norm_num at this ⊢; omega)]
      have hz := trunc_int (-32768)
      push_cast at hz
      simp [FVal.minimum, FVal.maximum, FVal.less, FVal.isNan, FVal.toInt, hz]
    · rw [decide_eq_false hq]
      have e : (2 : ℚ) ^ 128 ≤ q * 2 ^ 15 := by
        rw [abs_of_nonneg (by push Not at hq; positivity)] at hbig; linarith
      have ht : 2 ^ 128 ≤ trunc (q * 2 ^ 15) := by
        have := trunc_mono e
        rwa [trunc_pow] at this
      rw [min_eq_left (by norm_num at ht ⊢; omega)]
      have hz := trunc_int 32767
      push_cast at hz
      norm_num [FVal.minimum, FVal.maximum, FVal.less, FVal.isNan, FVal.toInt, hz]
  · exact key _

/-! ### Conversion to 32 bits -/

theorem floatToInt32_fin (q : ℚ) : floatToInt32 (.fin q) =
    if 1 ≤ q then none else some (max (-2 ^ 31) (trunc (q * 2 ^ 31))) := by
  have key : ∀ v : ℚ, FVal.toInt 32
      (if FVal.isNan (if FVal.less (if FVal.less (.fin (2 ^ 31)) (.fin v) then .fin (2 ^ 31) else .fin v)
        (.fin (-2 ^ 31)) then .fin (-2 ^ 31) else
          if FVal.less (.fin (2 ^ 31)) (.fin v) then .fin (2 ^ 31) else .fin v) then .fin 0 else
        if FVal.less (if FVal.less (.fin (2 ^ 31)) (.fin v) then .fin (2 ^ 31) else .fin v)
        (.fin (-2 ^ 31)) then .fin (-2 ^ 31) else
          if FVal.less (.fin (2 ^ 31)) (.fin v) then .fin (2 ^ 31) else .fin v) =
      if 2 ^ 31 ≤ v then none else some (max (-2 ^ 31) (trunc v)) := by
    intro v
    have hz1 := trunc_pow 31
    have hz2 := trunc_neg_pow 31
    by_cases h : (2 : ℚ) ^ 31 ≤ v
    · rw [if_pos h]
      have e1 : (if FVal.less (.fin (2 ^ 31)) (.fin v) then (.fin (2 ^ 31) : FVal) else .fin v) =
          .fin (2 ^ 31) := by
        rw [less_fin]
        rcases h.lt_or_eq with h' | h'
        · rw [decide_eq_true h', if_pos rfl]
        · rw [← h']; simp
      rw [e1, less_fin, decide_eq_false (by norm_num)]
      simp [FVal.isNan, FVal.toInt, hz1]
    · rw [if_neg h]
      push Not at h
      have e1 : (if FVal.less (.fin (2 ^ 31)) (.fin v) then (.fin (2 ^ 31) : FVal) else .fin v) =
          .fin v := by
        rw [less_fin, decide_eq_false (not_lt.mpr h.le)]; rfl
      rw [e1, less_fin]
      by_cases h2 : v < -2 ^ 31
      · rw [decide_eq_true h2, if_pos rfl]
        have := trunc_mono h2.le
        rw [hz2] at this
        rw [max_eq_left this]
        simp [FVal.isNan, FVal.toInt, hz2]
      · rw [decide_eq_false h2]
        push Not at h2
        have := trunc_mono h2
        rw [hz2] at this
        rw [max_eq_right this]
        have hlt : trunc v < 2 ^ 31 := by
          rcases le_total 0 v with hv | hv
          · have := ((trunc_spec v).1 hv).2.1
            have h3 : (trunc v : ℚ) < ((2 ^ 31 : ℤ) : ℚ) := by push_cast; linarith
            exact_mod_cast h3
          · have := ((trunc_spec v).2 hv).1
            omega
        simp only [FVal.isNan, Bool.false_eq_true, if_false, FVal.toInt]
        rw [if_pos ⟨by norm_num at this ⊢; omega, by norm_num at hlt ⊢; omega⟩]
  have hsc : (2 : ℚ) ^ 31 ≤ q * 2 ^ 31 ↔ 1 ≤ q := by
    constructor <;> intro h <;> nlinarith
  unfold floatToInt32 FVal.scale
  simp only
  split
  · rename_i h
    have hbig : (2 : ℚ) ^ 128 ≤ |q * 2 ^ 31| := h
    have hz1 := trunc_pow 31
    have hz2 := trunc_neg_pow 31
    by_cases hq : q < 0
    · rw [decide_eq_true hq, if_neg (show ¬(1 ≤ q) by linarith)]
      have e : q * 2 ^ 31 ≤ -2 ^ 31 := by
        rw [abs_of_neg (by nlinarith)] at hbig
        have : (2 : ℚ) ^ 31 ≤ 2 ^ 128 := by norm_num
        linarith
      have := trunc_mono e
      rw [hz2] at this
      rw [max_eq_left this]
      simp [FVal.less, FVal.isNan, FVal.toInt, hz2]
    · rw [decide_eq_false hq]
      have e : (1 : ℚ) ≤ q := by
        rw [abs_of_nonneg (by push Not at hq; positivity)] at hbig
        rw [← hsc]
        have : (2 : ℚ) ^ 31 ≤ 2 ^ 128 := by norm_num
        linarith
      rw [if_pos e]
      have hn : ¬((2 : ℚ) ^ 31 < -2 ^ 31) := by norm_num
      simp [FVal.less, FVal.isNan, FVal.toInt, hz1, hn]
  · rw [key]
    by_cases h1 : 1 ≤ q
    · rw [if_pos h1, if_pos (hsc.mpr h1)]
    · rw [if_neg h1, if_neg (fun h => h1 (hsc.mp h))]

/-! ### Blocks -/

theorem mapM_some {α β : Type} (f : α → β) (g : α → Option β) (h : ∀ a, g a = some (f a)) :
    ∀ l : List α, l.mapM g = some (l.map f)
  | [] => rfl
  | a :: l => by rw [List.mapM_cons, h, mapM_some f g h l]; rfl

theorem sampleBytes_append (xs ys : List (BitVec 16)) :
    sampleBytes (xs ++ ys) = sampleBytes xs ++ sampleBytes ys := by
  simp [sampleBytes]

theorem writeSamples_room {xs : List (BitVec 16)} {w : Sink} (h : xs.length < 2 ^ 31)
    (hr : xs.length * 2 ≤ w.room) :
    writeSamples xs w = some (true, ⟨w.out ++ sampleBytes xs, w.room - xs.length * 2, false⟩) := by
  obtain ⟨b, w', k1, k2, k3, k4⟩ := writeSamples_eq (xs := xs) (w0 := w) h
  have hb : b = true := by
    by_contra hb
    have := k4 (by simpa using hb)
    rw [sampleBytes_length] at this; omega
  subst hb
  rw [k1, (k3 rfl).2, sampleBytes_length]

theorem floatSamplesToInt_eq (g : FVal → ℤ) (hg : ∀ x, floatToInt16 x = some (g x)) (xs : List FVal)
    (buf : List (BitVec 16)) :
    floatSamplesToInt xs buf = some (xs.map (fun x => BitVec.ofInt 16 (g x)) ++ buf.drop xs.length) := by
  unfold floatSamplesToInt
  rw [mapM_some (fun x => BitVec.ofInt 16 (g x)) _ (fun x => by rw [hg]; rfl)]
  rfl

theorem writeBlocks_eq (g : FVal → ℤ) (hg : ∀ x, floatToInt16 x = some (g x)) (n : ℕ) :
    ∀ (xs : List FVal) (buf : List (BitVec 16)) (w : Sink), xs.length = n → w.err = false →
      xs.length * 2 ≤ w.room →
      writeBlocks xs buf w = some ⟨w.out ++ sampleBytes (xs.map fun x => BitVec.ofInt 16 (g x)),
        w.room - xs.length * 2, false⟩ := by
  induction n using Nat.strong_induction_on with
  | _ n ih =>
    intro xs buf w hn he hr
    rw [writeBlocks]
    by_cases h : 512 < xs.length
    · rw [if_pos h, floatSamplesToInt_eq g hg]
      have hl : (xs.take 512).length = 512 := by rw [List.length_take]; omega
      have ht : ((xs.take 512).map (fun x => BitVec.ofInt 16 (g x)) ++
          buf.drop (xs.take 512).length).take 512 = (xs.take 512).map (fun x => BitVec.ofInt 16 (g x)) :=
        List.take_left' (by rw [List.length_map, hl])
      simp only
      rw [ht, writeSamples_room (by rw [List.length_map, hl]; norm_num)
        (by rw [List.length_map, hl]; omega)]
      simp only [List.length_map, hl]
      have hd : (xs.drop 512).length = xs.length - 512 := List.length_drop
      rw [ih (xs.length - 512) (by omega) _ _ _ hd rfl (by rw [hd]; simp only; omega)]
      simp only [hd, Option.some.injEq, Sink.mk.injEq, and_true]
      refine ⟨?_, by omega⟩
      rw [List.append_assoc, ← sampleBytes_append, ← List.map_append, List.take_append_drop]
    · rw [if_neg h]
      by_cases h0 : xs.length ≠ 0
      · rw [if_pos h0, floatSamplesToInt_eq g hg]
        simp only
        rw [List.take_left' (by rw [List.length_map]),
          writeSamples_room (by rw [List.length_map]; omega) (by rw [List.length_map]; omega)]
        simp only [List.length_map]
      · rw [if_neg h0]
        have : xs = [] := List.eq_nil_of_length_eq_zero (by omega)
        subst this
        obtain ⟨o, r, e⟩ := w
        simp only at he
        subst he
        simp [sampleBytes]

theorem headerBytes_length (n : ℕ) (rate channels : Int) : (headerBytes n rate channels).length ≤ 80 := by
  unfold headerBytes fmtBody
  by_cases h : 2 < channels
  · simp [h, leWriteU16, leWriteU32, pcmGuid, idRIFF, idWAVE, idFmt, idFact, idData]
  · simp [h, leWriteU16, leWriteU32, idRIFF, idWAVE, idFmt, idData]

theorem writeHeader_room {n : ℕ} {rate channels : Int} {room : ℕ} (f1 : fitsInt (channels * 2))
    (f2 : fitsInt (channels * 2 * rate)) (hr : 80 ≤ room) :
    writeHeader n rate channels ⟨[], room, false⟩ = some (true, ⟨headerBytes n rate channels,
      room - (headerBytes n rate channels).length, false⟩) := by
  obtain ⟨b, w, k1, -, k3, k4⟩ := writeHeader_eq (numSamples := n) (w0 := ⟨[], room, false⟩) f1 f2
  have hl := headerBytes_length n rate channels
  have hb : b = true := by
    by_contra hb
    have := k4 (by simpa using hb)
    simp only at this; omega
  subst hb
  rw [k1, (k3 rfl).2]
  simp

/-! ### Reading -/

theorem headerLoop_remaining {junk : Junk} {cfg : Cfg} : ∀ (fuel : ℕ) {id : List Byte} {info info' : Info}
    {s s' : Src}, headerLoop junk cfg fuel id info s = .ok info' s' → info'.remaining < 2 ^ 32
  | 0, _, _, _, _, _, h => by simp [headerLoop] at h
  | fuel + 1, id, info, info', s, s', h => by
    rw [headerLoop] at h
    simp only at h
    split at h
    · split at h
      · simp [failed] at h
      · split at h
        · simp [failed] at h
        · exact headerLoop_remaining fuel h
    · split at h
      · split at h
        · simp [failed] at h
        · split at h
          · simp [failed] at h
          · exact headerLoop_remaining fuel h
      · split at h
        · split at h
          · simp [failed] at h
          · simp only [Outcome.ok.injEq] at h
            rw [← h.1]
            exact lt_of_le_of_lt (Nat.div_le_self _ _) (BitVec.isLt _)
        · split at h
          · simp [failed] at h
          · exact headerLoop_remaining fuel h

theorem readHeader_remaining {junk : Junk} {cfg : Cfg} {info0 info : Info} {file : List Byte} {s : Src}
    (h : readHeader junk cfg info0 file = .ok info s) : info.remaining < 2 ^ 32 := by
  obtain ⟨riff, rest, t, -, -, h3⟩ := header_start h
  exact headerLoop_remaining _ h3

theorem readHeader_valid {junk : Junk} {cfg : Cfg} {info0 info : Info} {file : List Byte} {s : Src}
    (h : readHeader junk cfg info0 file = .ok info s) :
    Valid info.destAlign (info.bitDepth / 8) ∧
      Valid (upgrade info).destAlign ((upgrade info).bitDepth / 8) ∧ (upgrade info).destAlign = 4 := by
  obtain ⟨-, -, h3⟩ := C06_accepted_info h
  simp only [List.mem_cons, Prod.mk.injEq, List.not_mem_nil, or_false] at h3
  unfold Valid upgrade
  rcases h3 with ⟨h1, h2, h3, h4⟩ | ⟨h1, h2, h3, h4⟩ | ⟨h1, h2, h3, h4⟩ | ⟨h1, h2, h3, h4⟩ |
    ⟨h1, h2, h3, h4⟩ <;> simp [h2, h3, h4]

end Verif.WavString
