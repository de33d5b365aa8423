import Verif.Model.CircularBuffer

/-!
# Specification of a bounded FIFO queue

Written without reference to indices, storage or flags.
-/

namespace Verif.CircularBuffer.Spec

/-- A bounded queue: its capacity and the unread entries, oldest first. -/
structure Queue (α : Type) where
  capacity : Nat
  items : List α

variable {α : Type}

/-- What the caller must respect: the buffer has been initialised, no write exceeds
the free space, no read exceeds the number of unread entries. -/
def Allowed (q : Queue α) : Op α → Prop
  | .init c => 0 < c
  | .clear => 0 < q.capacity
  | .write xs => 0 < q.capacity ∧ q.items.length + xs.length ≤ q.capacity
  | .read n | .peek n | .advance n => 0 < q.capacity ∧ n ≤ q.items.length

/-- The effect of a call on the queue and the data it returns. -/
def apply (q : Queue α) : Op α → Queue α × List α
  | .init c => (⟨c, []⟩, [])
  | .clear => ({ q with items := [] }, [])
  | .write xs => ({ q with items := q.items ++ xs }, [])
  | .read n => ({ q with items := q.items.drop n }, q.items.take n)
  | .peek n => (q, q.items.take n)
  | .advance n => ({ q with items := q.items.drop n }, [])

/-- All calls of a history are allowed when they are made. -/
def AllAllowed : Queue α → List (Op α) → Prop
  | _, [] => True
  | q, op :: ops => Allowed q op ∧ AllAllowed (apply q op).1 ops

/-- Queue after a history and the data returned by each call. -/
def applyAll : Queue α → List (Op α) → Queue α × List (List α)
  | q, [] => (q, [])
  | q, op :: ops =>
    let r := apply q op
    let rs := applyAll r.1 ops
    (rs.1, r.2 :: rs.2)

/-- The call is not a zero-length `Read` or `Advance`. -/
def NotEmptyRead : Op α → Prop
  | .read n | .advance n => n ≠ 0
  | _ => True

/-- Queue of an object that has not been initialised yet. -/
def uninitialised : Queue α := ⟨0, []⟩

/-! Planar (multi-channel) queue: one list of unread entries per channel. -/

/-- The caller passes one vector per channel and respects the free space of each channel. -/
def PlanarAllowed (capacity : Nat) (chans : List (List α)) : PlanarOp α → Prop
  | .write input => input.length = chans.length ∧
      ∀ c (h1 : c < chans.length) (h2 : c < input.length),
        chans[c].length + input[c].length ≤ capacity
  | .read n => ∀ items ∈ chans, n ≤ items.length

/-- Effect of a planar call. -/
def planarApply (chans : List (List α)) : PlanarOp α → List (List α) × List (List α)
  | .write input => (List.zipWith (· ++ ·) chans input, [])
  | .read n => (chans.map (·.drop n), chans.map (·.take n))

/-- All calls of a planar history are allowed when they are made. -/
def PlanarAllAllowed (capacity : Nat) : List (List α) → List (PlanarOp α) → Prop
  | _, [] => True
  | q, op :: ops => PlanarAllowed capacity q op ∧ PlanarAllAllowed capacity (planarApply q op).1 ops

/-- Channel contents after a history and the data returned by each call. -/
def planarApplyAll : List (List α) → List (PlanarOp α) → List (List α) × List (List (List α))
  | q, [] => (q, [])
  | q, op :: ops =>
    let r := planarApply q op
    let rs := planarApplyAll r.1 ops
    (rs.1, r.2 :: rs.2)

end Verif.CircularBuffer.Spec
