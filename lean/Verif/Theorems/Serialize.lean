import Verif.Model.Serialize
import Mathlib.Algebra.BigOperators.Fin
import Mathlib.Tactic.Linarith
import Mathlib.Tactic.Ring

/-!
# C04: serialization

The specification is base-256 positional notation.
-/

namespace Verif.Serialize

/-- Value of a byte string, least significant byte first. -/
def valueLE : List Byte → Nat
  | [] => 0
  | b :: bs => b.toNat + 256 * valueLE bs

/-- Value of a byte string in the given order. -/
def value : Order → List Byte → Nat
  | .little, bs => valueLE bs
  | .big, bs => valueLE bs.reverse

/-! ### Lemmas -/

theorem beReadU16_eq (W : Nat) (b0 b1 : Byte) : beReadU16 W b0 b1 = leReadU16 W b1 b0 := by
  unfold beReadU16 leReadU16; rw [BitVec.or_comm]

theorem beReadU32_eq (W : Nat) (b0 b1 b2 b3 : Byte) :
    beReadU32 W b0 b1 b2 b3 = leReadU32 W b3 b2 b1 b0 := by
  unfold beReadU32 leReadU32
  generalize b0.setWidth W <<< 24 = x0
  generalize b1.setWidth W <<< 16 = x1
  generalize b2.setWidth W <<< 8 = x2
  generalize b3.setWidth W = x3
  congr 1; ac_rfl

theorem beReadU64_eq (W : Nat) (b0 b1 b2 b3 b4 b5 b6 b7 : Byte) :
    beReadU64 W b0 b1 b2 b3 b4 b5 b6 b7 = leReadU64 W b7 b6 b5 b4 b3 b2 b1 b0 := by
  unfold beReadU64 leReadU64
  generalize b0.setWidth W <<< 56 = x0
  generalize b1.setWidth W <<< 48 = x1
  generalize b2.setWidth W <<< 40 = x2
  generalize b3.setWidth W <<< 32 = x3
  generalize b4.setWidth W <<< 24 = x4
  generalize b5.setWidth W <<< 16 = x5
  generalize b6.setWidth W <<< 8 = x6
  generalize b7.setWidth W = x7
  congr 1; ac_rfl

theorem step_toNat {W n : Nat} (acc : BitVec W) (b : Byte) (k : Nat) (hk : k + 8 ≤ n) (hn : n ≤ W)
    (ha : acc.toNat < 2 ^ k) :
    (acc ||| b.setWidth W <<< k).toNat = acc.toNat + 2 ^ k * b.toNat ∧
      (acc ||| b.setWidth W <<< k).toNat < 2 ^ (k + 8) := by
  have hb : b.toNat < 256 := b.isLt
  have hlt : b.toNat * 2 ^ k < 2 ^ (k + 8) := by
    rw [pow_add, mul_comm]; exact Nat.mul_lt_mul_of_pos_left hb (by positivity)
  have hW : 2 ^ (k + 8) ≤ 2 ^ W := Nat.pow_le_pow_right (by omega) (by omega)
  have h8 : (256 : Nat) ≤ 2 ^ W := by
    calc (256 : Nat) = 2 ^ 8 := rfl
      _ ≤ 2 ^ W := Nat.pow_le_pow_right (by omega) (by omega)
  have e : (acc ||| b.setWidth W <<< k).toNat = acc.toNat + 2 ^ k * b.toNat := by
    rw [BitVec.toNat_or, BitVec.toNat_shiftLeft, BitVec.toNat_setWidth,
      Nat.mod_eq_of_lt (by omega : b.toNat < 2 ^ W), Nat.shiftLeft_eq,
      Nat.mod_eq_of_lt (by omega), Nat.or_comm]
    have := Nat.shiftLeft_add_eq_or_of_lt ha b.toNat
    rw [Nat.shiftLeft_eq] at this
    rw [← this]; ring
  refine ⟨e, ?_⟩
  rw [e, pow_add]
  have : 2 ^ k * b.toNat ≤ 2 ^ k * 255 := Nat.mul_le_mul_left _ (by omega)
  omega

theorem start_toNat {W : Nat} (b : Byte) (hW : 8 ≤ W) :
    (b.setWidth W).toNat = b.toNat ∧ (b.setWidth W).toNat < 2 ^ 8 := by
  have hb : b.toNat < 256 := b.isLt
  have h8 : (256 : Nat) ≤ 2 ^ W := by
    calc (256 : Nat) = 2 ^ 8 := rfl
      _ ≤ 2 ^ W := Nat.pow_le_pow_right (by omega) hW
  rw [BitVec.toNat_setWidth, Nat.mod_eq_of_lt (by omega)]
  exact ⟨rfl, hb⟩

theorem leReadU16_toNat {W : Nat} (hW : 16 ≤ W) (b0 b1 : Byte) :
    (leReadU16 W b0 b1).toNat = valueLE [b0, b1] := by
  obtain ⟨h0, l0⟩ := start_toNat (W := W) b0 (by omega)
  obtain ⟨h1, l1⟩ := step_toNat _ b1 8 (n := 16) (by omega) hW l0
  unfold leReadU16
  rw [BitVec.toNat_setWidth, Nat.mod_eq_of_lt l1, h1, h0]
  simp only [valueLE]; omega

theorem leReadU32_toNat {W : Nat} (hW : 32 ≤ W) (b0 b1 b2 b3 : Byte) :
    (leReadU32 W b0 b1 b2 b3).toNat = valueLE [b0, b1, b2, b3] := by
  obtain ⟨h0, l0⟩ := start_toNat (W := W) b0 (by omega)
  obtain ⟨h1, l1⟩ := step_toNat _ b1 8 (n := 32) (by omega) hW l0
  obtain ⟨h2, l2⟩ := step_toNat _ b2 16 (n := 32) (by omega) hW l1
  obtain ⟨h3, l3⟩ := step_toNat _ b3 24 (n := 32) (by omega) hW l2
  unfold leReadU32
  rw [BitVec.toNat_setWidth, Nat.mod_eq_of_lt l3, h3, h2, h1, h0]
  simp only [valueLE]; omega

theorem leReadU64_toNat {W : Nat} (hW : 64 ≤ W) (b0 b1 b2 b3 b4 b5 b6 b7 : Byte) :
    (leReadU64 W b0 b1 b2 b3 b4 b5 b6 b7).toNat = valueLE [b0, b1, b2, b3, b4, b5, b6, b7] := by
  obtain ⟨h0, l0⟩ := start_toNat (W := W) b0 (by omega)
  obtain ⟨h1, l1⟩ := step_toNat _ b1 8 (n := 64) (by omega) hW l0
  obtain ⟨h2, l2⟩ := step_toNat _ b2 16 (n := 64) (by omega) hW l1
  obtain ⟨h3, l3⟩ := step_toNat _ b3 24 (n := 64) (by omega) hW l2
  obtain ⟨h4, l4⟩ := step_toNat _ b4 32 (n := 64) (by omega) hW l3
  obtain ⟨h5, l5⟩ := step_toNat _ b5 40 (n := 64) (by omega) hW l4
  obtain ⟨h6, l6⟩ := step_toNat _ b6 48 (n := 64) (by omega) hW l5
  obtain ⟨h7, l7⟩ := step_toNat _ b7 56 (n := 64) (by omega) hW l6
  unfold leReadU64
  rw [BitVec.toNat_setWidth, Nat.mod_eq_of_lt l7, h7, h6, h5, h4, h3, h2, h1, h0]
  simp only [valueLE]; omega

theorem valueLE_lt : ∀ bs : List Byte, valueLE bs < 256 ^ bs.length
  | [] => by simp [valueLE]
  | b :: bs => by
    have := valueLE_lt bs
    have hb : b.toNat < 256 := b.isLt
    simp only [valueLE, List.length_cons, pow_succ]
    omega

theorem valueLE_inj : ∀ {bs cs : List Byte}, bs.length = cs.length → valueLE bs = valueLE cs → bs = cs
  | [], [], _, _ => rfl
  | [], _ :: _, h, _ => by simp at h
  | _ :: _, [], h, _ => by simp at h
  | b :: bs, c :: cs, h, hv => by
    have hb : b.toNat < 256 := b.isLt
    have hc : c.toNat < 256 := c.isLt
    simp only [valueLE] at hv
    have e1 : b.toNat = c.toNat := by omega
    have e2 : valueLE bs = valueLE cs := by omega
    rw [BitVec.eq_of_toNat_eq e1, valueLE_inj (by simpa using h) e2]

theorem valueLE_getElem : ∀ (bs : List Byte) (i : Nat) (hi : i < bs.length),
    valueLE bs / 256 ^ i % 256 = bs[i].toNat
  | b :: bs, 0, _ => by
    have hb : b.toNat < 256 := b.isLt
    simp only [valueLE, List.getElem_cons_zero]; omega
  | b :: bs, i + 1, hi => by
    have hb : b.toNat < 256 := b.isLt
    simp only [valueLE, List.getElem_cons_succ]
    rw [pow_succ, mul_comm (256 ^ i), ← Nat.div_div_eq_div_mul, show (b.toNat + 256 * valueLE bs) / 256 = valueLE bs by omega]
    exact valueLE_getElem bs i (by simpa using hi)

theorem leWriteU16_value (v : BitVec 16) : valueLE (leWriteU16 v) = v.toNat := by
  have hv := v.isLt
  simp only [leWriteU16, valueLE, BitVec.toNat_setWidth, BitVec.toNat_ushiftRight,
    Nat.shiftRight_eq_div_pow]
  omega

theorem leWriteU32_value (v : BitVec 32) : valueLE (leWriteU32 v) = v.toNat := by
  have hv := v.isLt
  simp only [leWriteU32, valueLE, BitVec.toNat_setWidth, BitVec.toNat_ushiftRight,
    Nat.shiftRight_eq_div_pow]
  omega

theorem leWriteU64_value (v : BitVec 64) : valueLE (leWriteU64 v) = v.toNat := by
  have hv := v.isLt
  simp only [leWriteU64, valueLE, BitVec.toNat_setWidth, BitVec.toNat_ushiftRight,
    Nat.shiftRight_eq_div_pow]
  omega

/-! ### Property theorems -/

/-- **C04**: every write stores exactly as many bytes as the type has, and their value in the given
byte order is the value written. -/
theorem C04_write_value (o : Order) (w : Width) (v : BitVec (8 * w.bytes)) :
    (writeU o w v).length = w.bytes ∧ value o (writeU o w v) = v.toNat := by
  cases o <;> cases w <;> refine ⟨rfl, ?_⟩
  · exact leWriteU16_value v
  · exact leWriteU32_value v
  · exact leWriteU64_value v
  · exact leWriteU16_value v
  · exact leWriteU32_value v
  · exact leWriteU64_value v

/-- **C04**: byte `i` of the little-endian encoding is the `i`-th base-256 digit. -/
theorem C04_little_endian_digits (w : Width) (v : BitVec (8 * w.bytes)) (i : Nat)
    (hi : i < (writeU .little w v).length) :
    ((writeU .little w v)[i]).toNat = v.toNat / 256 ^ i % 256 := by
  rw [← (C04_write_value .little w v).2, value, valueLE_getElem _ i hi]

/-- **C04**: the big-endian encoding is the reversed little-endian encoding. -/
theorem C04_big_endian_reverse (w : Width) (v : BitVec (8 * w.bytes)) :
    writeU .big w v = (writeU .little w v).reverse := by cases w <;> rfl

/-- **C04**: reading a buffer of the right size gives its value in the given byte order, whatever the
width of the `uint_fastN_t` accumulator. -/
theorem C04_read_value {W : Nat} (o : Order) (w : Width) (hW : 8 * w.bytes ≤ W) (bs : List Byte)
    (hl : bs.length = w.bytes) :
    ∃ v, readU W o w bs = some v ∧ v.toNat = value o bs := by
  cases w with
  | w16 =>
    match bs, hl with
    | [b0, b1], _ =>
      cases o
      · exact ⟨_, rfl, leReadU16_toNat hW _ _⟩
      · exact ⟨_, rfl, by rw [beReadU16_eq]; exact leReadU16_toNat hW _ _⟩
  | w32 =>
    match bs, hl with
    | [b0, b1, b2, b3], _ =>
      cases o
      · exact ⟨_, rfl, leReadU32_toNat hW _ _ _ _⟩
      · exact ⟨_, rfl, by rw [beReadU32_eq]; exact leReadU32_toNat hW _ _ _ _⟩
  | w64 =>
    match bs, hl with
    | [b0, b1, b2, b3, b4, b5, b6, b7], _ =>
      cases o
      · exact ⟨_, rfl, leReadU64_toNat hW _ _ _ _ _ _ _ _⟩
      · exact ⟨_, rfl, by rw [beReadU64_eq]; exact leReadU64_toNat hW _ _ _ _ _ _ _ _⟩

/-- **C04**: reading back what was written returns the value. -/
theorem C04_read_write {W : Nat} (o : Order) (w : Width) (hW : 8 * w.bytes ≤ W)
    (v : BitVec (8 * w.bytes)) : readU W o w (writeU o w v) = some v := by
  obtain ⟨h1, h2⟩ := C04_write_value o w v
  obtain ⟨u, e1, e2⟩ := C04_read_value (W := W) o w hW (writeU o w v) h1
  rw [e1, BitVec.eq_of_toNat_eq (e2.trans h2)]

/-- **C04**: writing what was read restores the bytes. -/
theorem C04_write_read {W : Nat} (o : Order) (w : Width) (hW : 8 * w.bytes ≤ W) (bs : List Byte)
    (hl : bs.length = w.bytes) : ∃ v, readU W o w bs = some v ∧ writeU o w v = bs := by
  obtain ⟨v, e1, e2⟩ := C04_read_value (W := W) o w hW bs hl
  obtain ⟨h1, h2⟩ := C04_write_value o w v
  refine ⟨v, e1, ?_⟩
  rw [e2] at h2
  cases o with
  | little => exact valueLE_inj (by omega) h2
  | big =>
    have := valueLE_inj (bs := (writeU .big w v).reverse) (cs := bs.reverse) (by simp [h1, hl]) h2
    simpa using congrArg List.reverse this

/-- **C04**, signed types: every value in range survives writing and reading. -/
theorem C04_signed_round_trip {W : Nat} (o : Order) (w : Width) (hW : 8 * w.bytes ≤ W) (s : Int)
    (h1 : -2 ^ (8 * w.bytes - 1) ≤ s) (h2 : s < 2 ^ (8 * w.bytes - 1)) :
    readS W o w (writeS o w s) = some s := by
  unfold readS writeS
  rw [C04_read_write o w hW]
  simp only [Option.map_some, pun, unpun, BitVec.toInt_ofInt, Option.some.injEq]
  apply Int.bmod_eq_of_le <;> cases w <;> simp only [Width.bytes] at * <;> norm_num at * <;> omega

/-- **C04**, signed types: reading gives the two's complement value of the bytes, so it is in range
and congruent to the unsigned value. -/
theorem C04_signed_value {W : Nat} (o : Order) (w : Width) (hW : 8 * w.bytes ≤ W) (bs : List Byte)
    (hl : bs.length = w.bytes) :
    ∃ s, readS W o w bs = some s ∧ -2 ^ (8 * w.bytes - 1) ≤ s ∧ s < 2 ^ (8 * w.bytes - 1) ∧
      ∃ k : Int, s = value o bs + k * 2 ^ (8 * w.bytes) := by
  obtain ⟨v, e1, e2⟩ := C04_read_value (W := W) o w hW bs hl
  refine ⟨v.toInt, by rw [readS, e1]; rfl, BitVec.le_toInt v, BitVec.toInt_lt, ?_⟩
  rw [← e2, BitVec.toInt_eq_toNat_cond]
  split
  · exact ⟨0, by simp⟩
  · exact ⟨-1, by push_cast; ring⟩

/-- **C04**, floating point: for a type `F` whose objects are represented by their bit pattern
(`bits`, the union of serialize.h:242-252, 267-277), the encoding is that of the bit pattern and
reading it back gives the same object. -/
theorem C04_float_round_trip {W : Nat} {F : Type} (w : Width) (bits : F ≃ BitVec (8 * w.bytes))
    (o : Order) (hW : 8 * w.bytes ≤ W) (x : F) :
    value o (writeU o w (bits x)) = (bits x).toNat ∧
      (readU W o w (writeU o w (bits x))).map bits.symm = some x := by
  refine ⟨(C04_write_value o w _).2, ?_⟩
  rw [C04_read_write o w hW]; simp

/-- A non-trivial instance. -/
example : writeU .big .w32 0xDEADBEEF#32 = [0xDE#8, 0xAD#8, 0xBE#8, 0xEF#8] ∧
    readU 64 .little .w32 [0xEF#8, 0xBE#8, 0xAD#8, 0xDE#8] = some 0xDEADBEEF#32 ∧
    readS 32 .little .w16 (writeS .little .w16 (-2)) = some (-2) := ⟨rfl, rfl, rfl⟩

end Verif.Serialize
