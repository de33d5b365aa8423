/-!
# Model of `audio/dsp/portable/serialize.h`

A byte is a `BitVec 8`, an `N`-bit integer a `BitVec N`; `uint8_t*` arguments are passed as the bytes
they point to. The accumulators of type `uint_fastN_t` have an implementation-defined width `W ≥ N`,
which is a parameter. Shifts of unsigned values drop the bits that leave the type (`<<<`, `>>>`),
casts to a narrower unsigned type truncate (`setWidth`).
-/

namespace Verif.Serialize

abbrev Byte := BitVec 8

/-- `LittleEndianReadU16`, serialize.h:117-123. -/
def leReadU16 (W : Nat) (b0 b1 : Byte) : BitVec 16 :=
  (b0.setWidth W ||| b1.setWidth W <<< 8).setWidth 16

/-- `LittleEndianReadU32`, serialize.h:125-130. -/
def leReadU32 (W : Nat) (b0 b1 b2 b3 : Byte) : BitVec 32 :=
  (b0.setWidth W ||| b1.setWidth W <<< 8 ||| b2.setWidth W <<< 16 ||| b3.setWidth W <<< 24).setWidth 32

/-- `LittleEndianReadU64`, serialize.h:132-141. -/
def leReadU64 (W : Nat) (b0 b1 b2 b3 b4 b5 b6 b7 : Byte) : BitVec 64 :=
  (b0.setWidth W ||| b1.setWidth W <<< 8 ||| b2.setWidth W <<< 16 ||| b3.setWidth W <<< 24
    ||| b4.setWidth W <<< 32 ||| b5.setWidth W <<< 40 ||| b6.setWidth W <<< 48
    ||| b7.setWidth W <<< 56).setWidth 64

/-- `LittleEndianWriteU16`, serialize.h:143-146: the bytes stored at `bytes[0]`, `bytes[1]`. -/
def leWriteU16 (v : BitVec 16) : List Byte := [v.setWidth 8, (v >>> 8).setWidth 8]

/-- `LittleEndianWriteU32`, serialize.h:148-153. -/
def leWriteU32 (v : BitVec 32) : List Byte :=
  [v.setWidth 8, (v >>> 8).setWidth 8, (v >>> 16).setWidth 8, (v >>> 24).setWidth 8]

/-- `LittleEndianWriteU64`, serialize.h:155-164. -/
def leWriteU64 (v : BitVec 64) : List Byte :=
  [v.setWidth 8, (v >>> 8).setWidth 8, (v >>> 16).setWidth 8, (v >>> 24).setWidth 8,
    (v >>> 32).setWidth 8, (v >>> 40).setWidth 8, (v >>> 48).setWidth 8, (v >>> 56).setWidth 8]

/-- `BigEndianReadU16`, serialize.h:167-170. -/
def beReadU16 (W : Nat) (b0 b1 : Byte) : BitVec 16 :=
  (b0.setWidth W <<< 8 ||| b1.setWidth W).setWidth 16

/-- `BigEndianReadU32`, serialize.h:173-178. -/
def beReadU32 (W : Nat) (b0 b1 b2 b3 : Byte) : BitVec 32 :=
  (b0.setWidth W <<< 24 ||| b1.setWidth W <<< 16 ||| b2.setWidth W <<< 8 ||| b3.setWidth W).setWidth 32

/-- `BigEndianReadU64`, serialize.h:181-190. -/
def beReadU64 (W : Nat) (b0 b1 b2 b3 b4 b5 b6 b7 : Byte) : BitVec 64 :=
  (b0.setWidth W <<< 56 ||| b1.setWidth W <<< 48 ||| b2.setWidth W <<< 40 ||| b3.setWidth W <<< 32
    ||| b4.setWidth W <<< 24 ||| b5.setWidth W <<< 16 ||| b6.setWidth W <<< 8
    ||| b7.setWidth W).setWidth 64

/-- `BigEndianWriteU16`, serialize.h:193-196. -/
def beWriteU16 (v : BitVec 16) : List Byte := [(v >>> 8).setWidth 8, v.setWidth 8]

/-- `BigEndianWriteU32`, serialize.h:199-204. -/
def beWriteU32 (v : BitVec 32) : List Byte :=
  [(v >>> 24).setWidth 8, (v >>> 16).setWidth 8, (v >>> 8).setWidth 8, v.setWidth 8]

/-- `BigEndianWriteU64`, serialize.h:207-216. -/
def beWriteU64 (v : BitVec 64) : List Byte :=
  [(v >>> 56).setWidth 8, (v >>> 48).setWidth 8, (v >>> 40).setWidth 8, (v >>> 32).setWidth 8,
    (v >>> 24).setWidth 8, (v >>> 16).setWidth 8, (v >>> 8).setWidth 8, v.setWidth 8]

/-- Type pun through a union of the unsigned and the signed type, serialize.h:224-240, 279-295:
two's complement reinterpretation. -/
def pun {N : Nat} (u : BitVec N) : Int := u.toInt

/-- Cast of a signed value to the unsigned type of the same width, serialize.h:254-265, 309-319. -/
def unpun (N : Nat) (s : Int) : BitVec N := BitVec.ofInt N s

/-! ### Dispatch on byte order and width

`Order`/`Width` select one of the functions above; `read` and `write` are what a caller of
`{Little,Big}Endian{Read,Write}U{16,32,64}` observes. -/

inductive Order | little | big

inductive Width | w16 | w32 | w64

/-- Number of bytes. -/
def Width.bytes : Width → Nat | .w16 => 2 | .w32 => 4 | .w64 => 8

/-- The unsigned write functions. -/
def writeU : Order → (w : Width) → BitVec (8 * w.bytes) → List Byte
  | .little, .w16 => leWriteU16
  | .little, .w32 => leWriteU32
  | .little, .w64 => leWriteU64
  | .big, .w16 => beWriteU16
  | .big, .w32 => beWriteU32
  | .big, .w64 => beWriteU64

/-- The unsigned read functions, on a buffer with exactly the bytes they access (`none`: the buffer
has another size). -/
def readU (W : Nat) : Order → (w : Width) → List Byte → Option (BitVec (8 * w.bytes))
  | .little, .w16, [b0, b1] => some (leReadU16 W b0 b1)
  | .little, .w32, [b0, b1, b2, b3] => some (leReadU32 W b0 b1 b2 b3)
  | .little, .w64, [b0, b1, b2, b3, b4, b5, b6, b7] => some (leReadU64 W b0 b1 b2 b3 b4 b5 b6 b7)
  | .big, .w16, [b0, b1] => some (beReadU16 W b0 b1)
  | .big, .w32, [b0, b1, b2, b3] => some (beReadU32 W b0 b1 b2 b3)
  | .big, .w64, [b0, b1, b2, b3, b4, b5, b6, b7] => some (beReadU64 W b0 b1 b2 b3 b4 b5 b6 b7)
  | _, _, _ => none

/-- The signed write functions, serialize.h:254-265, 309-319. -/
def writeS (o : Order) (w : Width) (v : Int) : List Byte := writeU o w (unpun _ v)

/-- The signed read functions, serialize.h:224-240, 279-295. -/
def readS (W : Nat) (o : Order) (w : Width) (bs : List Byte) : Option Int := (readU W o w bs).map pun

end Verif.Serialize
