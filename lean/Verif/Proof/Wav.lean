import Verif.Spec.Wav
import Verif.Theorems.Serialize

/-! # Lemmas about the WAV reader -/

namespace Verif.Wav

open Verif.Serialize Verif.Wav.Spec

theorem num_eq_valueLE : ∀ bs : List Byte, num bs = valueLE bs
  | [] => rfl
  | b :: bs => by simp only [num, valueLE, num_eq_valueLE bs]

theorem num_lt (bs : List Byte) : num bs < 256 ^ bs.length := by
  rw [num_eq_valueLE]; exact valueLE_lt bs

@[simp] theorem leBytes_length : ∀ k n, (leBytes k n).length = k
  | 0, _ => rfl
  | k + 1, n => by simp [leBytes, leBytes_length k]

theorem num_leBytes : ∀ k n, num (leBytes k n) = n % 256 ^ k
  | 0, n => by simp [leBytes, num, Nat.mod_one]
  | k + 1, n => by
    simp only [leBytes, num, num_leBytes k, BitVec.toNat_ofNat]
    rw [show 256 ^ (k + 1) = 256 * 256 ^ k by ring, Nat.mod_mul]

theorem leBytes_num : ∀ bs : List Byte, leBytes bs.length (num bs) = bs
  | [] => rfl
  | b :: bs => by
    have hb : b.toNat < 256 := b.isLt
    simp only [List.length_cons, leBytes, num]
    have h1 : (b.toNat + 256 * num bs) / 256 = num bs := by omega
    rw [h1, leBytes_num bs]
    congr 1
    apply BitVec.eq_of_toNat_eq
    simp only [BitVec.toNat_ofNat]; omega

theorem fresh_length (junk : Junk) (s : Src) (n : Nat) : (fresh junk s n).length = n := by
  simp [fresh]

/-! ### Primitive reads -/

theorem readCheck_eq {old : List Byte} {s : Src} (h : old.length ≤ s.rest.length) :
    readCheck old s =
      (s.rest.take old.length, { rest := s.rest.drop old.length, err := s.err, tick := s.tick + 1 }) := by
  simp [readCheck, List.length_take, Nat.min_eq_left h]

theorem readCheck_rest (old : List Byte) (s : Src) :
    (readCheck old s).2.rest = s.rest.drop old.length := rfl

theorem readCheck_err {old : List Byte} {s : Src} (h : s.rest.length < old.length) :
    (readCheck old s).2.err = true := by
  simp only [readCheck, List.length_take, Bool.or_eq_true, decide_eq_true_eq]
  right; omega

theorem readCheck_ok {old : List Byte} {s : Src} (h : (readCheck old s).2.err = false) :
    s.err = false ∧ old.length ≤ s.rest.length := by
  constructor
  · simp only [readCheck, Bool.or_eq_false_iff] at h; exact h.1
  · by_contra hc
    rw [readCheck_err (by omega)] at h; exact absurd h (by simp)

theorem readCheck_length (old : List Byte) (s : Src) : (readCheck old s).1.length = old.length := by
  simp only [readCheck, List.length_append, List.length_take, List.length_drop]; omega

theorem take2 {l : List Byte} (h : 2 ≤ l.length) : l.take 2 = [at' (l.take 2) 0, at' (l.take 2) 1] := by
  match l, h with
  | a :: b :: t, _ => simp [at']

theorem take1 {l : List Byte} (h : 1 ≤ l.length) : l.take 1 = [at' (l.take 1) 0] := by
  match l, h with
  | a :: t, _ => simp [at']

theorem take3 {l : List Byte} (h : 3 ≤ l.length) :
    l.take 3 = [at' (l.take 3) 0, at' (l.take 3) 1, at' (l.take 3) 2] := by
  match l, h with
  | a :: b :: c :: t, _ => simp [at']

theorem take4 {l : List Byte} (h : 4 ≤ l.length) :
    l.take 4 = [at' (l.take 4) 0, at' (l.take 4) 1, at' (l.take 4) 2, at' (l.take 4) 3] := by
  match l, h with
  | a :: b :: c :: d :: t, _ => simp [at']

theorem take8 {l : List Byte} (h : 8 ≤ l.length) :
    l.take 8 = [at' (l.take 8) 0, at' (l.take 8) 1, at' (l.take 8) 2, at' (l.take 8) 3,
      at' (l.take 8) 4, at' (l.take 8) 5, at' (l.take 8) 6, at' (l.take 8) 7] := by
  match l, h with
  | a :: b :: c :: d :: e :: f :: g :: i :: t, _ => simp [at']

theorem readUint16_eq {junk : Junk} {s : Src} (h : 2 ≤ s.rest.length) :
    readUint16 junk s =
      (BitVec.ofNat 16 (num (s.rest.take 2)),
        { rest := s.rest.drop 2, err := s.err, tick := s.tick + 1 }) := by
  unfold readUint16
  rw [readCheck_eq (by rw [fresh_length]; exact h)]
  simp only [fresh_length, Prod.mk.injEq, and_true]
  apply BitVec.eq_of_toNat_eq
  have hl := num_lt (s.rest.take 2)
  rw [List.length_take, Nat.min_eq_left h] at hl
  rw [leReadU16_toNat (by omega), BitVec.toNat_ofNat, num_eq_valueLE, ← take2 h,
    ← num_eq_valueLE, Nat.mod_eq_of_lt (by norm_num at hl; omega)]

theorem readUint32_eq {junk : Junk} {s : Src} (h : 4 ≤ s.rest.length) :
    readUint32 junk s =
      (BitVec.ofNat 32 (num (s.rest.take 4)),
        { rest := s.rest.drop 4, err := s.err, tick := s.tick + 1 }) := by
  unfold readUint32
  rw [readCheck_eq (by rw [fresh_length]; exact h)]
  simp only [fresh_length, Prod.mk.injEq, and_true]
  apply BitVec.eq_of_toNat_eq
  have hl := num_lt (s.rest.take 4)
  rw [List.length_take, Nat.min_eq_left h] at hl
  rw [leReadU32_toNat (by omega), BitVec.toNat_ofNat, num_eq_valueLE, ← take4 h,
    ← num_eq_valueLE, Nat.mod_eq_of_lt (by norm_num at hl; omega)]

theorem readUint64_eq {junk : Junk} {s : Src} (h : 8 ≤ s.rest.length) :
    readUint64 junk s =
      (BitVec.ofNat 64 (num (s.rest.take 8)),
        { rest := s.rest.drop 8, err := s.err, tick := s.tick + 1 }) := by
  unfold readUint64
  rw [readCheck_eq (by rw [fresh_length]; exact h)]
  simp only [fresh_length, Prod.mk.injEq, and_true]
  apply BitVec.eq_of_toNat_eq
  have hl := num_lt (s.rest.take 8)
  rw [List.length_take, Nat.min_eq_left h] at hl
  rw [leReadU64_toNat (by omega), BitVec.toNat_ofNat, num_eq_valueLE, ← take8 h,
    ← num_eq_valueLE, Nat.mod_eq_of_lt (by norm_num at hl; omega)]

theorem readUint16_ok {junk : Junk} {s : Src} (h : (readUint16 junk s).2.err = false) :
    s.err = false ∧ 2 ≤ s.rest.length := by
  have := readCheck_ok (old := fresh junk s 2) (s := s) h
  rwa [fresh_length] at this

theorem readUint32_ok {junk : Junk} {s : Src} (h : (readUint32 junk s).2.err = false) :
    s.err = false ∧ 4 ≤ s.rest.length := by
  have := readCheck_ok (old := fresh junk s 4) (s := s) h
  rwa [fresh_length] at this

theorem readUint16_rest (junk : Junk) (s : Src) :
    (readUint16 junk s).2.rest = s.rest.drop 2 := by
  simp [readUint16, readCheck_rest, fresh_length]

theorem readUint32_rest (junk : Junk) (s : Src) :
    (readUint32 junk s).2.rest = s.rest.drop 4 := by
  simp [readUint32, readCheck_rest, fresh_length]

/-! ### Seeking -/

theorem seekByReading_eq (n : Nat) (s : Src) (h : n ≤ s.rest.length) :
    seekByReading n s = { s with rest := s.rest.drop n } := by
  induction n using Nat.strongRecOn generalizing s with
  | _ n ih =>
    rw [seekByReading]
    by_cases h1 : 256 < n
    · rw [dif_pos h1, if_neg (by omega), ih (n - 256) (by omega) _ (by simp only [List.length_drop]; omega)]
      simp only [List.drop_drop]
      rw [show 256 + (n - 256) = n by omega]
    · rw [dif_neg h1]
      have : decide (s.rest.length < n) = false := by simp only [decide_eq_false_iff_not]; omega
      rw [this, Bool.or_false]

theorem seekByReading_err (n : Nat) (s : Src) (h : s.rest.length < n) :
    (seekByReading n s).err = true := by
  induction n using Nat.strongRecOn generalizing s with
  | _ n ih =>
    rw [seekByReading]
    by_cases h1 : 256 < n
    · rw [dif_pos h1]
      by_cases h2 : s.rest.length < 256
      · rw [if_pos h2]
      · rw [if_neg h2]
        exact ih (n - 256) (by omega) _ (by simp only [List.length_drop]; omega)
    · rw [dif_neg h1]
      simp [h]

theorem seekCheck_eq {cfg : Cfg} {n : Nat} {s : Src} (h : n ≤ s.rest.length) :
    seekCheck cfg n s = { s with rest := s.rest.drop n } := by
  unfold seekCheck
  split
  · rfl
  · exact seekByReading_eq n s h

theorem seekCheck_ok {cfg : Cfg} {n : Nat} {s : Src} (h : (seekCheck cfg n s).err = false) :
    s.err = false ∧ (seekCheck cfg n s).rest = s.rest.drop n := by
  by_cases hn : n ≤ s.rest.length
  · rw [seekCheck_eq hn] at h ⊢; exact ⟨h, rfl⟩
  · unfold seekCheck at h ⊢
    split at h
    · rename_i hs; rw [if_pos hs]; exact ⟨h, rfl⟩
    · rw [seekByReading_err n s (by omega)] at h; exact absurd h (by simp)

/-! ### The format chunk -/

theorem field_take {bs : List Byte} {N k m : Nat} (h : k + m ≤ N) :
    field (bs.take N) k m = field bs k m := by
  unfold field
  rw [List.drop_take, List.take_take, Nat.min_eq_left (by omega)]

theorem num_field_lt (bs : List Byte) (k m : Nat) : num (field bs k m) < 256 ^ m := by
  have h := num_lt (field bs k m)
  have h2 : (field bs k m).length ≤ m := by simp only [field, List.length_take]; omega
  exact lt_of_lt_of_le h (Nat.pow_le_pow_right (by omega) h2)

theorem ofNat16_eq {a b : Nat} (ha : a < 65536) (hb : b < 65536) :
    (BitVec.ofNat 16 a = BitVec.ofNat 16 b) ↔ a = b := by
  constructor
  · intro h
    have := congrArg BitVec.toNat h
    simp only [BitVec.toNat_ofNat] at this; omega
  · rintro rfl; rfl

theorem encodingOf_eq (code bits : Nat) : encodingOf code bits =
    if code = 1 then (if bits = 16 then some .pcm16 else if bits = 24 then some .pcm24 else none)
    else if code = 3 then
      (if bits = 32 then some .float32 else if bits = 64 then some .float64 else none)
    else if code = 7 then (if ¬bits = 8 then none else some .mulaw) else none := by
  unfold encodingOf
  split
  · rfl
  · rfl
  · rfl
  · rfl
  · rfl
  · rename_i h1 h2 h3 h4 h5
    by_cases c1 : code = 1
    · rw [if_pos c1, if_neg (h1 c1), if_neg (h2 c1)]
    · rw [if_neg c1]
      by_cases c3 : code = 3
      · rw [if_pos c3, if_neg (h3 c3), if_neg (h4 c3)]
      · rw [if_neg c3]
        by_cases c7 : code = 7
        · rw [if_pos c7, if_pos (h5 c7)]
        · rw [if_neg c7]

theorem selectEncoding_eq {code bits : Nat} (hc : code < 65536) (hb : bits < 65536) (info : Info) :
    selectEncoding (BitVec.ofNat 16 code) (BitVec.ofNat 16 bits) info =
      (encodingOf code bits).map fun e =>
        { info with encoding := e, destAlign := (container e).1, format := (container e).2 } := by
  have key : ∀ (a : Nat) (b : Nat), a < 65536 → b < 65536 →
      ((BitVec.ofNat 16 a = BitVec.ofNat 16 b) ↔ a = b) := by
    intro a b ha hb'
    constructor
    · intro h
      have := congrArg BitVec.toNat h
      simp only [BitVec.toNat_ofNat] at this; omega
    · rintro rfl; rfl
  have k (a : Nat) (ha : a < 65536) (b : Nat) (hb' : b < 65536) :=
    key a b ha hb'
  unfold selectEncoding
  have e1 : (BitVec.ofNat 16 code = 1) ↔ code = 1 := k code hc 1 (by omega)
  have e3 : (BitVec.ofNat 16 code = 3) ↔ code = 3 := k code hc 3 (by omega)
  have e7 : (BitVec.ofNat 16 code = 7) ↔ code = 7 := k code hc 7 (by omega)
  have b16 : (BitVec.ofNat 16 bits = 16) ↔ bits = 16 := k bits hb 16 (by omega)
  have b24 : (BitVec.ofNat 16 bits = 24) ↔ bits = 24 := k bits hb 24 (by omega)
  have b32 : (BitVec.ofNat 16 bits = 32) ↔ bits = 32 := k bits hb 32 (by omega)
  have b64 : (BitVec.ofNat 16 bits = 64) ↔ bits = 64 := k bits hb 64 (by omega)
  have b8 : (BitVec.ofNat 16 bits = 8) ↔ bits = 8 := k bits hb 8 (by omega)
  simp only [e1, e3, e7, b16, b24, b32, b64, b8, ne_eq]
  rw [encodingOf_eq]
  split
  · split
    · rfl
    · split <;> rfl
  · split
    · split
      · rfl
      · split <;> rfl
    · split
      · split <;> rfl
      · rfl

theorem toInt_ofNat32 {n : Nat} (h : n < 2 ^ 32) : (BitVec.ofNat 32 n).toInt = signed32 n := by
  unfold signed32
  rw [BitVec.toInt_eq_toNat_cond, BitVec.toNat_ofNat, Nat.mod_eq_of_lt h]
  norm_num
  split <;> split <;> omega

theorem readFmtChunk_eq {junk : Junk} {cfg : Cfg} {info : Info} {size : BitVec 32} {s : Src}
    (hs : s.err = false) (hN : size.toNat ≤ s.rest.length) :
    ∃ t, readFmtChunk junk cfg info size s =
      (formatOf (s.rest.take size.toNat)).map fun f =>
        (infoOf f info.remaining, { rest := s.rest.drop size.toNat, err := false, tick := t }) := by
  unfold readFmtChunk formatOf
  have hlen : (s.rest.take size.toNat).length = size.toNat := by
    rw [List.length_take, Nat.min_eq_left hN]
  simp only [hlen]
  by_cases h16 : size.toNat < 16
  · exact ⟨0, by simp [h16]⟩
  rw [if_neg h16]
  simp only [h16, false_or]
  have R1 := readUint16_eq (junk := junk) (s := s) (by omega)
  have R2 := readUint16_eq (junk := junk) (s := ⟨s.rest.drop 2, s.err, s.tick + 1⟩)
    (by simp only [List.length_drop]; omega)
  have R3 := readUint32_eq (junk := junk) (s := ⟨s.rest.drop 4, s.err, s.tick + 1 + 1⟩)
    (by simp only [List.length_drop]; omega)
  have R4 := seekCheck_eq (cfg := cfg) (n := 4) (s := ⟨s.rest.drop 8, s.err, s.tick + 1 + 1 + 1⟩)
    (by simp only [List.length_drop]; omega)
  have R5 := readUint16_eq (junk := junk) (s := ⟨s.rest.drop 12, s.err, s.tick + 1 + 1 + 1⟩)
    (by simp only [List.length_drop]; omega)
  have R6 := readUint16_eq (junk := junk) (s := ⟨s.rest.drop 14, s.err, s.tick + 1 + 1 + 1 + 1⟩)
    (by simp only [List.length_drop]; omega)
  have R7 := seekCheck_eq (cfg := cfg) (n := size.toNat - 16)
    (s := ⟨s.rest.drop 16, s.err, s.tick + 1 + 1 + 1 + 1 + 1⟩)
    (by simp only [List.length_drop]; omega)
  simp only [List.drop_drop, Nat.reduceAdd] at R1 R2 R3 R4 R5 R6 R7
  simp only [R1, R2, R3, R4, R5, R6, fmtTail, R7]
  rw [field_take (by omega), field_take (by omega), field_take (by omega), field_take (by omega)]
  have f0 : s.rest.take 2 = field s.rest 0 2 := by simp [field]
  have f2 : (s.rest.drop 2).take 2 = field s.rest 2 2 := rfl
  have f4 : (s.rest.drop 4).take 4 = field s.rest 4 4 := rfl
  have f14 : (s.rest.drop 14).take 2 = field s.rest 14 2 := rfl
  rw [f0, f2, f4, f14]
  have l0 := num_field_lt s.rest 0 2
  have l2 := num_field_lt s.rest 2 2
  have l4 := num_field_lt s.rest 4 4
  have l14 := num_field_lt s.rest 14 2
  have c0 : BitVec.ofNat 16 (num (field s.rest 0 2)) = (0xFFFE : BitVec 16) ↔
      num (field s.rest 0 2) = 65534 := ofNat16_eq (b := 65534) l0 (by omega)
  have c2 : BitVec.ofNat 16 (num (field s.rest 2 2)) = (0 : BitVec 16) ↔ num (field s.rest 2 2) = 0 :=
    ofNat16_eq (b := 0) l2 (by omega)
  have tn : ∀ n, n < 256 ^ 2 → (BitVec.ofNat 16 n).toNat = n := by
    intro n hn; rw [BitVec.toNat_ofNat]; omega
  simp only [c0, c2]
  by_cases hx : num (field s.rest 0 2) = 65534 ∧ 26 ≤ size.toNat
  · simp only [if_pos hx]
    have Q1 := seekCheck_eq (cfg := cfg) (n := 8)
      (s := ⟨s.rest.drop 16, s.err, s.tick + 1 + 1 + 1 + 1 + 1⟩)
      (by simp only [List.length_drop]; omega)
    have Q2 := readUint16_eq (junk := junk) (s := ⟨s.rest.drop 24, s.err, s.tick + 1 + 1 + 1 + 1 + 1⟩)
      (by simp only [List.length_drop]; omega)
    have Q3 := seekCheck_eq (cfg := cfg) (n := size.toNat - 26)
      (s := ⟨s.rest.drop 26, s.err, s.tick + 1 + 1 + 1 + 1 + 1 + 1⟩)
      (by simp only [List.length_drop]; omega)
    simp only [List.drop_drop, Nat.reduceAdd] at Q1 Q2 Q3
    simp only [Q1, Q2, Q3]
    rw [field_take (by omega)]
    simp only [hs]
    have f24 : (s.rest.drop 24).take 2 = field s.rest 24 2 := rfl
    have l24 := num_field_lt s.rest 24 2
    rw [f24, selectEncoding_eq l24 l14, show 26 + (size.toNat - 26) = size.toNat by omega]
    refine ⟨s.tick + 1 + 1 + 1 + 1 + 1 + 1, ?_⟩
    by_cases h0 : num (field s.rest 2 2) = 0
    · simp [h0]
    · simp only [h0, if_false, Bool.false_eq_true]
      cases encodingOf (num (field s.rest 24 2)) (num (field s.rest 14 2)) with
      | none => rfl
      | some e =>
        simp only [Option.map_some, infoOf, tn _ l2, tn _ l14]
        rw [toInt_ofNat32 (by norm_num at l4; omega)]
  · simp only [if_neg hx]
    simp only [hs]
    rw [selectEncoding_eq l0 l14, show 16 + (size.toNat - 16) = size.toNat by omega]
    refine ⟨s.tick + 1 + 1 + 1 + 1 + 1, ?_⟩
    by_cases h0 : num (field s.rest 2 2) = 0
    · simp [h0]
    · simp only [h0, if_false, Bool.false_eq_true]
      cases encodingOf (num (field s.rest 0 2)) (num (field s.rest 14 2)) with
      | none => rfl
      | some e =>
        simp only [Option.map_some, infoOf, tn _ l2, tn _ l14]
        rw [toInt_ofNat32 (by norm_num at l4; omega)]

theorem fmtTail_ok {junk : Junk} {cfg : Cfg} {size : Nat} {code : BitVec 16} {s : Src} (h16 : 16 ≤ size)
    (h : (fmtTail junk cfg size code s).2.err = false) :
    s.err = false ∧ (fmtTail junk cfg size code s).2.rest = s.rest.drop (size - 16) := by
  unfold fmtTail at h ⊢
  split at h
  · rename_i hc
    rw [if_pos hc]
    have h1 := seekCheck_ok h
    have h3 := seekCheck_ok (readUint16_ok h1.1).1
    refine ⟨h3.1, ?_⟩
    simp only
    rw [h1.2, readUint16_rest, h3.2]
    simp only [List.drop_drop]
    congr 1; omega
  · rename_i hc
    rw [if_neg hc]
    exact seekCheck_ok h

theorem readFmtChunk_ok {junk : Junk} {cfg : Cfg} {info info' : Info} {size : BitVec 32} {s s' : Src}
    (h : readFmtChunk junk cfg info size s = some (info', s')) :
    s.err = false ∧ s'.err = false ∧ s'.rest = s.rest.drop size.toNat := by
  unfold readFmtChunk at h
  split at h
  · exact absurd h (by simp)
  rename_i h16
  simp only at h
  split at h
  · exact absurd h (by simp)
  rename_i herr
  split at h
  · exact absurd h (by simp)
  split at h
  · exact absurd h (by simp)
  simp only [Option.some.injEq, Prod.mk.injEq] at h
  obtain ⟨-, rfl⟩ := h
  simp only [Bool.not_eq_true] at herr
  obtain ⟨h1, h2⟩ := fmtTail_ok (by omega) herr
  have h4 := seekCheck_ok (readUint16_ok (readUint16_ok h1).1).1
  refine ⟨(readUint16_ok (readUint16_ok (readUint32_ok h4.1).1).1).1, herr, ?_⟩
  rw [h2, readUint16_rest, readUint16_rest, h4.2, readUint32_rest, readUint16_rest, readUint16_rest]
  simp only [List.drop_drop]
  congr 1; omega

/-! ### The fact chunk -/

theorem readFactChunk_eq {junk : Junk} {info : Info} {size : BitVec 32} {s : Src}
    (h4 : size.toNat = 4) (hn : info.numChannels ≠ 0) (hc : info.numChannels < 65536)
    (hr : 4 ≤ s.rest.length) :
    ∃ n, readFactChunk junk info size s =
      some ({ info with remaining := n }, { rest := s.rest.drop 4, err := s.err, tick := s.tick + 1 }) := by
  unfold readFactChunk
  rw [if_neg (by simp [h4, hn]), readUint32_eq hr]
  simp only
  have hl := num_field_lt s.rest 0 4
  have : ¬((2 ^ 64 - 1) / info.numChannels < (BitVec.ofNat 32 (num (s.rest.take 4))).toNat) := by
    have h1 : (BitVec.ofNat 32 (num (s.rest.take 4))).toNat < 2 ^ 32 := BitVec.isLt _
    have h2 : 2 ^ 32 ≤ (2 ^ 64 - 1) / info.numChannels := by
      rw [Nat.le_div_iff_mul_le (by omega)]
      calc 2 ^ 32 * info.numChannels ≤ 2 ^ 32 * 65536 := Nat.mul_le_mul_left _ (by omega)
        _ ≤ 2 ^ 64 - 1 := by norm_num
    omega
  rw [if_neg this]
  exact ⟨_, rfl⟩

theorem readFactChunk_ok {junk : Junk} {info info' : Info} {size : BitVec 32} {s s' : Src}
    (h : readFactChunk junk info size s = some (info', s')) :
    size.toNat = 4 ∧ info.numChannels ≠ 0 ∧ s'.rest = s.rest.drop 4 ∧
      (s'.err = false → s.err = false ∧ 4 ≤ s.rest.length) ∧
      info' = { info with remaining := info'.remaining } := by
  unfold readFactChunk at h
  split at h
  · exact absurd h (by simp)
  rename_i hc
  push Not at hc
  simp only at h
  split at h
  · exact absurd h (by simp)
  simp only [Option.some.injEq, Prod.mk.injEq] at h
  obtain ⟨rfl, rfl⟩ := h
  exact ⟨hc.1, hc.2, readUint32_rest _ _, readUint32_ok, rfl⟩

/-! ### The chunk loop -/

/-- The struct `info` reflects the format known so far. -/
def Rel : Option Fmt → Info → Prop
  | none, info => info.numChannels = 0
  | some f, info => info = infoOf f info.remaining ∧ f.channels ≠ 0 ∧ f.channels < 65536

theorem formatOf_channels {body : List Byte} {f : Fmt} (h : formatOf body = some f) :
    f.channels ≠ 0 ∧ f.channels < 65536 ∧ encodingOf (if num (field body 0 2) = 0xFFFE ∧ 26 ≤ body.length
      then num (field body 24 2) else num (field body 0 2)) f.bits = some f.enc ∧ 16 ≤ body.length := by
  unfold formatOf at h
  simp only at h
  split at h
  · exact absurd h (by simp)
  rename_i hc
  push Not at hc
  rw [Option.map_eq_some_iff] at h
  obtain ⟨e, he, rfl⟩ := h
  exact ⟨hc.2, by simpa using num_field_lt body 2 2, he, hc.1⟩

theorem skipUnknown_ok {junk : Junk} {cfg : Cfg} {n : Nat} {s : Src}
    (h : (skipUnknown junk cfg n s).err = false) :
    s.err = false ∧ (skipUnknown junk cfg n s).rest = s.rest.drop n := by
  unfold skipUnknown at h ⊢
  split at h
  · rename_i hc
    rw [if_pos hc]
    exact ⟨(readCheck_ok h).1, by rw [readCheck_rest, fresh_length]⟩
  · rename_i hc
    rw [if_neg hc]
    exact seekCheck_ok h

theorem skipUnknown_eq {junk : Junk} {cfg : Cfg} {n : Nat} {s : Src} (h : n ≤ s.rest.length) :
    ∃ t, skipUnknown junk cfg n s = { rest := s.rest.drop n, err := s.err, tick := t } := by
  unfold skipUnknown
  split
  · rw [readCheck_eq (by rw [fresh_length]; exact h)]
    exact ⟨_, by rw [fresh_length]⟩
  · rw [seekCheck_eq h]
    exact ⟨s.tick, rfl⟩

theorem headerLoop_empty {junk : Junk} {cfg : Cfg} (fuel : Nat) {id : List Byte} (hid : id.length = 4)
    (hd : id ≠ idData) (info : Info) {s : Src} (hs : s.rest = []) {info' : Info} {s' : Src} :
    headerLoop junk cfg fuel id info s ≠ .ok info' s' := by
  cases fuel with
  | zero => simp [headerLoop]
  | succ fuel =>
    have he : (readCheck id s).2.err = true := readCheck_err (by rw [hs, hid]; simp)
    have hi : (readCheck id s).1 = id := by simp [readCheck, hs]
    have he2 : (readUint32 junk (readCheck id s).2).2.err = true := by
      by_contra hc
      rw [Bool.not_eq_true] at hc
      rw [(readUint32_ok hc).1] at he; exact absurd he (by simp)
    unfold headerLoop
    simp only [hi]
    split
    · cases hf : readFmtChunk junk cfg info (readUint32 junk (readCheck id s).2).1
          (readUint32 junk (readCheck id s).2).2 with
      | none => simp [failed]
      | some p =>
        obtain ⟨i', s''⟩ := p
        rw [(readFmtChunk_ok hf).1] at he2; exact absurd he2 (by simp)
    · split
      · cases hf : readFactChunk junk info (readUint32 junk (readCheck id s).2).1
            (readUint32 junk (readCheck id s).2).2 with
        | none => simp [failed]
        | some p =>
          obtain ⟨i', s''⟩ := p
          have : s''.err = true := by
            by_contra hc
            rw [Bool.not_eq_true] at hc
            rw [((readFactChunk_ok hf).2.2.2.1 hc).1] at he2; exact absurd he2 (by simp)
          simp [this, failed]
      · split
        · simp [failed]
        · rename_i hc
          exfalso
          rw [Bool.not_eq_true] at hc
          rw [(skipUnknown_ok hc).1] at he2; exact absurd he2 (by simp)

theorem headerLoop_succ (junk : Junk) (cfg : Cfg) (fuel : Nat) (id : List Byte) (info : Info) (s : Src) :
    headerLoop junk cfg (fuel + 1) id info s =
      (let r := readCheck id s
       let size := readUint32 junk r.2
       if r.1 = idFmt then
         match readFmtChunk junk cfg info size.1 size.2 with
         | none => failed info
         | some (info', s') => if s'.err then failed info' else headerLoop junk cfg fuel r.1 info' s'
       else if r.1 = idFact then
         match readFactChunk junk info size.1 size.2 with
         | none => failed info
         | some (info', s') => if s'.err then failed info' else headerLoop junk cfg fuel r.1 info' s'
       else if r.1 = idData then
         if info.numChannels = 0 then failed info
         else .ok { info with remaining := size.1.toNat / (info.bitDepth / 8) } size.2
       else if (skipUnknown junk cfg size.1.toNat size.2).err then failed info
       else headerLoop junk cfg fuel r.1 info (skipUnknown junk cfg size.1.toNat size.2)) := rfl

theorem split_chunk {r : List Byte} {N : Nat} (h8 : 8 ≤ r.length) (hN : N ≤ (r.drop 8).length)
    (hv : num ((r.drop 4).take 4) = N) :
    r = chunk (r.take 4) ((r.drop 8).take N) ++ r.drop (8 + N) := by
  unfold chunk
  rw [List.length_take, Nat.min_eq_left hN]
  have : leBytes 4 N = (r.drop 4).take 4 := by
    have h := leBytes_num ((r.drop 4).take 4)
    rw [hv, List.length_take, List.length_drop, Nat.min_eq_left (by omega)] at h
    exact h
  rw [this, List.append_assoc, List.append_assoc]
  conv_lhs => rw [← List.take_append_drop 4 r, ← List.take_append_drop 4 (r.drop 4), List.drop_drop,
    ← List.take_append_drop N (r.drop (4 + 4)), List.drop_drop]

end Verif.Wav
