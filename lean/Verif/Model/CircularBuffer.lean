/-!
# Model of `audio/dsp/circular_buffer.h`

`CircularBuffer<DataType>` with its storage, indices and flags, and `PlanarCircularBuffer`.
Simplifications: C `int`s are unbounded `Nat`s (negative sizes are not modelled); `CHECK`s are
modelled (they abort: `Err.checkFailed`), `DCHECK`s are not (release build). Touching memory
outside the storage is `Err.outOfBounds`.
-/

namespace Verif.CircularBuffer

/-- Abnormal outcomes of a call. -/
inductive Err where
  /-- a `CHECK` macro aborts the program -/
  | checkFailed
  /-- access outside of `data_` (undefined behaviour) -/
  | outOfBounds
deriving DecidableEq, Repr

/-- Data members, circular_buffer.h:203-210. -/
structure Buf (α : Type) where
  capacity : Nat
  isFull : Bool
  avail : Nat
  data : List α
  readIdx : Nat
  writeIdx : Nat
deriving DecidableEq, Repr

/-- A span into `data_`: first index and number of elements (circular_buffer.h:45-46). -/
structure Span where
  start : Nat
  len : Nat
deriving DecidableEq, Repr

/-- The default-constructed empty span, e.g. circular_buffer.h:78. -/
def Span.empty : Span := ⟨0, 0⟩

variable {α : Type}

/-- Constructor, circular_buffer.h:48-49. Only `capacity_` is initialised in the code; the other
members are read by no operation before `Init` succeeds or a CHECK fails. -/
def fresh : Buf α := ⟨0, false, 0, [], 0, 0⟩

/-- `Clear`, circular_buffer.h:177-182. -/
def clear (b : Buf α) : Buf α :=
  { b with isFull := false, readIdx := 0, writeIdx := 0, avail := 0 }

/-- `Init`, circular_buffer.h:52-57. `fill` is the value-initialised `DataType()` that
`std::vector::resize` appends. -/
def init (fill : α) (b : Buf α) (capacity : Nat) : Except Err (Buf α) :=
  if 0 < capacity then
    .ok (clear { b with
      capacity := capacity
      data := b.data.take capacity ++ List.replicate (capacity - b.data.length) fill })
  else .error .checkFailed

/-- `Write(int)`, circular_buffer.h:74-101: bookkeeping and the two spans handed out. -/
def writeSpans (b : Buf α) (n : Nat) : Except Err (Buf α × Span × Span) :=
  if b.capacity = 0 then .error .checkFailed
  else if n = 0 then .ok (b, Span.empty, Span.empty)
  else
    let spans : Span × Span :=
      if b.writeIdx + n ≤ b.capacity then (⟨b.writeIdx, n⟩, Span.empty)
      else
        let entriesBeforeWrap := b.capacity - b.writeIdx
        (⟨b.writeIdx, entriesBeforeWrap⟩, ⟨0, n - entriesBeforeWrap⟩)
    let w := (b.writeIdx + n) % b.capacity
    .ok ({ b with
      writeIdx := w
      avail := if b.avail + n > b.capacity then b.capacity else b.avail + n
      isFull := decide (w = b.readIdx) }, spans.1, spans.2)

/-- Copying values into a span of `data_` (`std::copy`, circular_buffer.h:63-66). -/
def storeSpan (data : List α) (s : Span) (xs : List α) : Except Err (List α) :=
  if xs.length = 0 then .ok data
  else if xs.length ≤ s.len ∧ s.start + s.len ≤ data.length then
    .ok (data.take s.start ++ xs ++ data.drop (s.start + xs.length))
  else .error .outOfBounds

/-- Reading the elements of a span of `data_` (`std::copy`, circular_buffer.h:197-200). -/
def loadSpan (data : List α) (s : Span) : Except Err (List α) :=
  if s.len = 0 then .ok []
  else if s.start + s.len ≤ data.length then .ok ((data.drop s.start).take s.len)
  else .error .outOfBounds

/-- `Write(Span)`, circular_buffer.h:60-67. -/
def write (b : Buf α) (xs : List α) : Except Err (Buf α) := do
  let (b', s1, s2) ← writeSpans b xs.length
  let d1 ← storeSpan b'.data s1 (xs.take s1.len)
  let d2 ← storeSpan d1 s2 (xs.drop s1.len)
  return { b' with data := d2 }

/-- `Peek(int)`, circular_buffer.h:145-165. -/
def peekSpans (b : Buf α) (n : Nat) : Except Err (Span × Span) :=
  if b.capacity = 0 then .error .checkFailed
  else if n = 0 then .ok (Span.empty, Span.empty)
  else
    let e := (b.readIdx + n) % b.capacity
    if b.readIdx < e then .ok (⟨b.readIdx, e - b.readIdx⟩, Span.empty)
    else
      let samplesBeforeWrap := b.capacity - b.readIdx
      .ok (⟨b.readIdx, b.data.length - b.readIdx⟩, ⟨0, n - samplesBeforeWrap⟩)

/-- `Peek(int, vector*)`/`Peek(MutableSpan)`, circular_buffer.h:133-143 with
`CopySpansToBuffer` 195-201. -/
def peek (b : Buf α) (n : Nat) : Except Err (List α) := do
  let (s1, s2) ← peekSpans b n
  let x ← loadSpan b.data s1
  let y ← loadSpan b.data s2
  return x ++ y

/-- `Advance`, circular_buffer.h:169-174. -/
def advance (b : Buf α) (n : Nat) : Except Err (Buf α) :=
  if n ≤ b.avail then
    .ok { b with isFull := false, readIdx := (b.readIdx + n) % b.capacity, avail := b.avail - n }
  else .error .checkFailed

/-- `Read`, circular_buffer.h:105-128. -/
def read (b : Buf α) (n : Nat) : Except Err (Buf α × List α) := do
  let xs ← peek b n
  let b' ← advance b n
  return (b', xs)

/-- `IsFull`, circular_buffer.h:188. -/
def isFull (b : Buf α) : Bool := b.isFull

/-- `NumReadableEntries`, circular_buffer.h:192. -/
def numReadable (b : Buf α) : Nat := b.avail

/-- The mutating and observing calls of the public API. -/
inductive Op (α : Type) where
  | init (capacity : Nat)
  | clear
  | write (xs : List α)
  | read (n : Nat)
  | peek (n : Nat)
  | advance (n : Nat)
deriving Repr

/-- One API call; the second component is the data returned to the caller. -/
def step (fill : α) (b : Buf α) : Op α → Except Err (Buf α × List α)
  | .init c => do let b' ← init fill b c; return (b', [])
  | .clear => .ok (clear b, [])
  | .write xs => do let b' ← write b xs; return (b', [])
  | .read n => read b n
  | .peek n => do let xs ← peek b n; return (b, xs)
  | .advance n => do let b' ← advance b n; return (b', [])

/-- A history of API calls, with the data returned by each call. -/
def run (fill : α) : Buf α → List (Op α) → Except Err (Buf α × List (List α))
  | b, [] => .ok (b, [])
  | b, op :: ops => do
    let (b', o) ← step fill b op
    let (b'', os) ← run fill b' ops
    return (b'', o :: os)

/-! ## `PlanarCircularBuffer`, circular_buffer.h:213-261 -/

/-- `PlanarCircularBuffer::Init`, circular_buffer.h:219-225 (on `num_channels` buffers as resized
at line 221; freshly constructed). -/
def planarInit (fill : α) (numChannels capacity : Nat) : Except Err (List (Buf α)) :=
  (List.replicate numChannels (fresh : Buf α)).mapM (fun b => init fill b capacity)

/-- `PlanarCircularBuffer::Write`, circular_buffer.h:228-233; `input` has one vector per channel. -/
def planarWrite (bs : List (Buf α)) (input : List (List α)) : Except Err (List (Buf α)) :=
  if input.length < bs.length then .error .outOfBounds
  else (bs.zip input).mapM (fun p => write p.1 p.2)

/-- `PlanarCircularBuffer::Read`, circular_buffer.h:236-241. -/
def planarRead (bs : List (Buf α)) (n : Nat) : Except Err (List (Buf α × List α)) :=
  bs.mapM (fun b => read b n)

/-- Calls on an initialised `PlanarCircularBuffer`. -/
inductive PlanarOp (α : Type) where
  | write (input : List (List α))
  | read (n : Nat)
deriving Repr

/-- One call on a `PlanarCircularBuffer` (circular_buffer.h:228-241) and the returned
per-channel data. -/
def planarStep (bs : List (Buf α)) : PlanarOp α → Except Err (List (Buf α) × List (List α))
  | .write input => do let bs' ← planarWrite bs input; return (bs', [])
  | .read n => do let r ← planarRead bs n; return (r.map Prod.fst, r.map Prod.snd)

/-- A history of calls on a `PlanarCircularBuffer`. -/
def planarRun : List (Buf α) → List (PlanarOp α) →
    Except Err (List (Buf α) × List (List (List α)))
  | bs, [] => .ok (bs, [])
  | bs, op :: ops => do
    let (bs', o) ← planarStep bs op
    let (bs'', os) ← planarRun bs' ops
    return (bs'', o :: os)

end Verif.CircularBuffer
