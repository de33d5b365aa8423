import Mathlib.Logic.Function.Basic
import Mathlib.Data.List.Perm.Basic
import Mathlib.Order.Defs.LinearOrder

/-!
# Model of `BatchTopN` and `TopNPeaks` (audio/dsp/batch_top_n.h)

The comparator is a Boolean function `gt`. `std::sort` and `std::nth_element` are relations: any
outcome the C++ standard allows is a possible step. The arrays have size `2 * limit`; indexing outside
is the outcome `none`.
-/

namespace Verif.BatchTopN

/-- Contract of `std::sort(first, last, comp)`. -/
def IsSorted (comp : ℕ → ℕ → Bool) (l out : List ℕ) : Prop :=
  out.Perm l ∧ out.Pairwise fun i j => comp j i = false

/-- Contract of `std::nth_element(first, first + n, last, comp)`: the element at `n` is the one that
sorting would put there; nothing before compares after it and nothing after compares before it. -/
def IsNthElement (comp : ℕ → ℕ → Bool) (n : ℕ) (l out : List ℕ) : Prop :=
  out.Perm l ∧ ∀ i j (hj : j < out.length) (hi : i ≤ n) (hn : n ≤ j) (hl : i < out.length),
    i ≠ j → comp out[j] out[i] = false

/-- Members of `BatchTopN`, batch_top_n.h:303-320. `elements_` is a function on slots; `indices_` has
length `2 * limit`; the threshold index -1 is `none`. -/
structure State (α : Type*) where
  limit : ℕ
  elements : ℕ → α
  indices : List ℕ
  cur : ℕ
  threshold : Option ℕ

variable {α : Type*} {β : Type*} [LinearOrder β]

/-- `Reset`, batch_top_n.h:95-101. -/
def State.reset (s : State α) : State α :=
  { s with
    cur := 0
    threshold := none
    indices := List.range (2 * s.limit) }

/-- Constructor, batch_top_n.h:77-85; the initial elements are arbitrary. -/
def State.init (limit : ℕ) (elements : ℕ → α) : State α :=
  State.reset ⟨limit, elements, [], 0, none⟩

/-- `IndexComparator`, batch_top_n.h:290-301. -/
def indexComp (gt : α → α → Bool) (e : ℕ → α) (i j : ℕ) : Bool := gt (e i) (e j)

/-- The loop at batch_top_n.h:279-285: `n` iterations from `i`. -/
def minLoop (gt : α → α → Bool) (e : ℕ → α) : ℕ → ℕ → ℕ → ℕ
  | 0, _, t => t
  | n + 1, i, t => minLoop gt e n (i + 1) (if gt (e t) (e i) then i else t)

/-- Whether `PushImpl` considers the element, batch_top_n.h:263-264. -/
def accepts (gt : α → α → Bool) (s : State α) (v : α) : Bool :=
  match s.threshold with
  | none => true
  | some t => gt v (s.elements t)

/-- `PushImpl`, batch_top_n.h:260-288; `perm` is what `std::nth_element` leaves in `indices_` if it is
called. -/
def pushImpl (gt : α → α → Bool) (perm : List ℕ) (s : State α) (v : α) : Option (State α) :=
  if accepts gt s v then
    match s.indices[s.cur]? with
    | none => none
    | some slot =>
      if slot < 2 * s.limit then
        let e := Function.update s.elements slot v
        let cur := s.cur + 1
        if cur ≥ 2 * s.limit then
          some ⟨s.limit, e, perm, s.limit, perm[s.limit - 1]?⟩
        else if cur = s.limit then
          some ⟨s.limit, e, s.indices, cur, some (minLoop gt e (s.limit - 1) 1 0)⟩
        else some ⟨s.limit, e, s.indices, cur, s.threshold⟩
      else none
  else some s

/-- The elements after the write at batch_top_n.h:266. -/
def written (s : State α) (v : α) : ℕ → α :=
  Function.update s.elements (s.indices.getD s.cur 0) v

/-- `GetTopElements`, batch_top_n.h:245-256: the new state and the elements viewed by the result;
`sorted` is what `std::sort` leaves in the first `current_size_` places. -/
def getImpl (sorted : List ℕ) (s : State α) : State α × List α :=
  let indices := sorted ++ s.indices.drop s.cur
  let s' : State α :=
    if s.cur ≥ s.limit then ⟨s.limit, s.elements, indices, s.limit, indices[s.limit - 1]?⟩
    else ⟨s.limit, s.elements, indices, s.cur, s.threshold⟩
  (s', (s'.indices.take s'.cur).map s'.elements)

/-- Public operations. -/
inductive Op (α : Type*)
  | push (v : α)
  | get
  | reset

/-- One call: operation, elements returned by `GetTopElements`, and the new state (`none`: an array is
indexed out of bounds). -/
inductive Step (gt : α → α → Bool) : State α → Op α → List α → Option (State α) → Prop
  | push (s : State α) (v : α) (perm : List ℕ)
      (h : accepts gt s v = true → s.cur + 1 ≥ 2 * s.limit →
        IsNthElement (indexComp gt (written s v)) (s.limit - 1) s.indices perm) :
      Step gt s (.push v) [] (pushImpl gt perm s v)
  | get (s : State α) (sorted : List ℕ)
      (h : IsSorted (indexComp gt s.elements) (s.indices.take s.cur) sorted) :
      Step gt s .get (getImpl sorted s).2 (some (getImpl sorted s).1)
  | reset (s : State α) : Step gt s .reset [] (some s.reset)

/-- States reachable from the constructor, with the history of operations. -/
inductive Reach (gt : α → α → Bool) (limit : ℕ) : List (Op α) → State α → Prop
  | init (e : ℕ → α) : Reach gt limit [] (State.init limit e)
  | step {h s op out s'} : Reach gt limit h s → Step gt s op out (some s') →
      Reach gt limit (h ++ [op]) s'

/-- The indices `TopNPeaks` pushes, in order, batch_top_n.h:344-368; `f` is the container. -/
def peakPushes (periodic : Bool) (size : ℕ) (f : ℕ → β) : List ℕ :=
  if size < 2 then []
  else
    ((List.range' 1 (size - 2)).filter fun i => f i > f (i - 1) ∧ f i ≥ f (i + 1)) ++
    (if periodic then
      (if f 0 > f 1 ∧ f 0 ≥ f (size - 1) then [0] else []) ++
      (if f (size - 1) > f (size - 2) ∧ f (size - 1) ≥ f 0 then [size - 1] else [])
    else
      (if f 0 > f 1 then [0] else []) ++
      (if f (size - 1) > f (size - 2) then [size - 1] else []))

/-- The comparator of `TopNPeaks`, batch_top_n.h:339-341. -/
def peakComp (f : ℕ → β) (i j : ℕ) : Bool := decide (f i > f j)

/-- Running a list of pushes. -/
inductive Pushes (gt : α → α → Bool) : State α → List α → State α → Prop
  | nil (s) : Pushes gt s [] s
  | cons {s v s' vs s''} : Step gt s (.push v) [] (some s') → Pushes gt s' vs s'' →
      Pushes gt s (v :: vs) s''

/-- `TopNPeaks(N, container)`, batch_top_n.h:332-372, as a relation. -/
def TopNPeaks (periodic : Bool) (N size : ℕ) (f : ℕ → β) (out : List ℕ) : Prop :=
  if size < 2 then out = []
  else ∃ e s s', Pushes (peakComp f) (State.init N e) (peakPushes periodic size f) s ∧
    Step (peakComp f) s .get out (some s')

end Verif.BatchTopN
