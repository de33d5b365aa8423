import Verif.Proof.CircularBuffer

/-!
# C01, C02: `CircularBuffer`
-/

namespace Verif.CircularBuffer
open Spec

variable {α : Type}

/-- **C01.** For every history of calls on a freshly constructed buffer that respects the free
space and the number of unread entries, no call fails (no CHECK failure, no out-of-bounds access),
every call returns exactly what the FIFO queue returns, and `NumReadableEntries()` and
`capacity()` are those of the queue. -/
theorem C01_fifo (fill : α) (ops : List (Op α)) (h : AllAllowed uninitialised ops) :
    ∃ b, run fill fresh ops = .ok (b, (applyAll uninitialised ops).2) ∧
      (ops ≠ [] → numReadable b = (applyAll uninitialised ops).1.items.length) ∧
      b.capacity = (applyAll uninitialised ops).1.capacity := by
  obtain ⟨b, h1, h2⟩ := run_rel fill ops (b := fresh) (q := uninitialised) (Or.inl ⟨rfl, rfl⟩) h
  refine ⟨b, h1, ?_, ?_⟩
  · intro hne
    rcases h2 with ⟨_, h3⟩ | h3
    · have := applyAll_capacity_pos ops h hne
      omega
    · exact h3.count
  · rcases h2 with ⟨h3, h4⟩ | h3
    · rw [h3, h4]
    · exact h3.cap

/-- **C01.** `IsFull()` reports exactly whether the queue is filled to capacity, for every
allowed history without zero-length `Read`/`Advance` calls. (With such calls it need not; see
`C01_isFull_zero_read_violation`.) -/
theorem C01_isFull (fill : α) (ops : List (Op α)) (h : AllAllowed uninitialised ops)
    (hz : ∀ op ∈ ops, NotEmptyRead op) {b : Buf α} {outs : List (List α)}
    (hr : run fill fresh ops = .ok (b, outs)) (hne : ops ≠ []) :
    isFull b = true ↔
      (applyAll uninitialised ops).1.items.length = (applyAll uninitialised ops).1.capacity := by
  have hf := run_full fill ops (b := fresh) (q := uninitialised) (Or.inl ⟨rfl, rfl⟩)
    (fun h => absurd rfl h) h hz hr
  obtain ⟨b2, h1, h2, h3⟩ := C01_fifo fill ops h
  rw [hr] at h1
  simp at h1
  obtain ⟨rfl, _⟩ := h1
  by_cases h0 : (applyAll (uninitialised : Queue α) ops).1.capacity = 0
  · have := applyAll_capacity_pos ops h hne
    omega
  · have := hf h0
    unfold isFull
    rw [this]
    simp

/-- A history used to instantiate the theorems above: it wraps around the end of the storage. -/
def sampleHistory : List (Op Nat) :=
  [.init 3, .write [1, 2], .read 1, .write [3, 4], .peek 2, .read 3, .write [], .write [5, 6, 7]]

example : AllAllowed uninitialised sampleHistory := by
  simp [sampleHistory, AllAllowed, Allowed, Spec.apply]

example : ∀ op ∈ sampleHistory, NotEmptyRead op := by
  simp [sampleHistory, NotEmptyRead]

example : (applyAll uninitialised sampleHistory).2
    = [[], [], [1], [], [2, 3], [2, 3, 4], [], []] := by decide

example : (run 0 fresh sampleHistory).toOption.map (fun r => (r.1.isFull, r.2))
    = some (true, [[], [], [1], [], [2, 3], [2, 3, 4], [], []]) := by decide

/-- **C01, finding.** `IsFull()` is false on a completely full buffer after a zero-length read. -/
theorem C01_isFull_zero_read_violation :
    ∃ (ops : List (Op Nat)) (b : Buf Nat) (outs : List (List Nat)),
      AllAllowed uninitialised ops ∧ run 0 fresh ops = .ok (b, outs) ∧
      numReadable b = b.capacity ∧ isFull b = false :=
  ⟨[.init 2, .write [1, 2], .read 0], ⟨2, false, 2, [1, 2], 0, 0⟩, [[], [], []],
    by simp [AllAllowed, Allowed, Spec.apply], rfl, rfl, rfl⟩

/-- **C02, finding.** The documented "overwriting old entries" does not keep the order: on a buffer
of capacity 4, writing 1,2,3 and then 4,5 makes a full read return 5,2,3,4 instead of the most
recent entries 2,3,4,5 in write order, and `IsFull()` is false although `NumReadableEntries()`
equals the capacity. -/
theorem C02_overflow_violation :
    ∃ b outs, run 0 fresh [.init 4, .write [1, 2, 3], .write [4, 5]] = .ok (b, outs) ∧
      numReadable b = b.capacity ∧ isFull b = false ∧
      (∃ b', read b 4 = .ok (b', [5, 2, 3, 4])) :=
  ⟨⟨4, false, 4, [5, 2, 3, 4], 0, 1⟩, [[], [], []], rfl, rfl, rfl, _, rfl⟩

/-- The state reached by an allowed history. -/
def Reached (fill : α) (b : Buf α) (q : Queue α) : Prop :=
  ∃ ops outs, AllAllowed uninitialised ops ∧ run fill fresh ops = .ok (b, outs) ∧
    q = (applyAll uninitialised ops).1 ∧ 0 < q.capacity

theorem Reached.rel {fill : α} {b : Buf α} {q : Queue α} (h : Reached fill b q) : Rel b q := by
  obtain ⟨ops, outs, h1, h2, rfl, h4⟩ := h
  obtain ⟨b', h5, h6⟩ := run_rel fill ops (b := fresh) (q := uninitialised) (Or.inl ⟨rfl, rfl⟩) h1
  rw [h2] at h5; simp at h5
  obtain ⟨rfl, _⟩ := h5
  rcases h6 with h | h
  · omega
  · exact h

/-- **C02, partial.** In every state reached by an allowed history, a write of at most `capacity`
entries that overflows the buffer keeps exactly the most recent `capacity` entries
(`recent`), and a full read returns them *rotated* by the overflow amount: the newest overflowing
entries come first. Missing from the full claim (and false, `C02_overflow_violation`): that they come
back in write order. -/
theorem C02_overflow_partial (fill : α) {b : Buf α} {q : Queue α} (hb : Reached fill b q)
    (xs : List α) (h1 : q.capacity ≤ q.items.length + xs.length) (h2 : xs.length ≤ q.capacity) :
    ∃ b' b'' out recent, write b xs = .ok b' ∧ read b' q.capacity = .ok (b'', out) ∧
      numReadable b' = q.capacity ∧
      recent = (q.items ++ xs).drop (q.items.length + xs.length - q.capacity) ∧
      out = recent.drop (2 * q.capacity - (q.items.length + xs.length)) ++
        recent.take (2 * q.capacity - (q.items.length + xs.length)) := by
  obtain ⟨b', b'', out, h3, h4, h5, _, h6⟩ := overflow_read hb.rel h1 h2
  exact ⟨b', b'', out, _, h3, h4, h5, rfl, h6⟩

/-- **C02, finding in general form.** After *every* write that overflows the buffer (and does not
overwrite a full buffer completely) `IsFull()` is false although no free entry is left. -/
theorem C02_overflow_isFull_false (fill : α) {b : Buf α} {q : Queue α} (hb : Reached fill b q)
    (xs : List α) (h1 : q.capacity < q.items.length + xs.length)
    (h2 : xs.length ≤ q.capacity) (h3 : q.items.length + xs.length < 2 * q.capacity) :
    ∃ b', write b xs = .ok b' ∧ numReadable b' = q.capacity ∧ isFull b' = false := by
  obtain ⟨b', b'', out, h4, _, h5, h6, _⟩ := overflow_read hb.rel (by omega) h2
  refine ⟨b', h4, h5, ?_⟩
  have hle : q.items.length ≤ q.capacity := by
    have := hb.rel.wf.av; have := hb.rel.count; have := hb.rel.cap; omega
  have hne : xs ≠ [] := by
    intro h; subst h; simp at h1; omega
  unfold isFull
  rw [h6 hne]
  apply decide_eq_false
  rw [mod_two h3, if_neg (by omega)]
  omega

example : Reached 0 (⟨4, false, 3, [1, 2, 3, 0], 0, 3⟩ : Buf Nat) ⟨4, [1, 2, 3]⟩ :=
  ⟨[.init 4, .write [1, 2, 3]], [[], []], by simp [AllAllowed, Allowed, Spec.apply], rfl, rfl,
    by decide⟩

/-! ## Planar buffer -/

/-- **C01 (planar).** For every channel count, capacity and history of planar writes and reads that
respects the free space of each channel, every read returns each channel's oldest entries in
order. -/
theorem C01_planar_fifo (fill : α) (numChannels cap : Nat) (hcap : 0 < cap)
    (ops : List (PlanarOp α))
    (h : PlanarAllAllowed cap (List.replicate numChannels []) ops) :
    ∃ bs bs', planarInit fill numChannels cap = .ok bs ∧
      planarRun bs ops = .ok (bs', (planarApplyAll (List.replicate numChannels []) ops).2) := by
  obtain ⟨bs, hb1, hb2⟩ : ∃ bs, planarInit fill numChannels cap = .ok bs ∧
      PlanarRel cap bs (List.replicate numChannels ([] : List α)) := by
    unfold planarInit PlanarRel
    induction numChannels with
    | zero => exact ⟨[], rfl, .nil⟩
    | succ k ih =>
      have hk : ∃ bs, (List.replicate k (fresh : Buf α)).mapM (fun b => init fill b cap) = .ok bs ∧
          List.Forall₂ (fun b items => Rel b ⟨cap, items⟩) bs (List.replicate k ([] : List α)) := by
        clear ih h
        induction k with
        | zero => exact ⟨[], rfl, .nil⟩
        | succ k ih =>
          obtain ⟨bs, h1, h2⟩ := ih
          obtain ⟨b, h3, h4, _⟩ := init_rel fill (fresh : Buf α) hcap
          exact ⟨b :: bs, by
            simp [List.replicate_succ, List.mapM_cons, h1, h3, bind, Except.bind, pure, Except.pure],
            by rw [List.replicate_succ]; exact .cons h4 h2⟩
      obtain ⟨bs, h1, h2⟩ := hk
      obtain ⟨b, h3, h4, _⟩ := init_rel fill (fresh : Buf α) hcap
      exact ⟨b :: bs, by
        simp [List.replicate_succ, List.mapM_cons, h1, h3, bind, Except.bind, pure, Except.pure],
        by rw [List.replicate_succ]; exact .cons h4 h2⟩
  refine ⟨bs, ?_⟩
  generalize List.replicate numChannels ([] : List α) = chans at h hb2
  suffices hs : ∃ bs', planarRun bs ops = .ok (bs', (planarApplyAll chans ops).2) by
    obtain ⟨bs', h⟩ := hs; exact ⟨bs', hb1, h⟩
  clear hb1
  induction ops generalizing bs chans with
  | nil => exact ⟨bs, rfl⟩
  | cons op ops ih =>
    cases op with
    | write input =>
      obtain ⟨bs', h1, h2⟩ := planarWrite_rel hb2 h.1.1 h.1.2
      have hl : bs.length = chans.length := List.Forall₂.length_eq hb2
      have hl2 : input.length = chans.length := h.1.1
      obtain ⟨bs'', h3⟩ := ih bs' _ h.2 h2
      refine ⟨bs'', ?_⟩
      simp [planarRun, planarStep, planarWrite, hl, hl2, h1, planarApplyAll, planarApply, bind,
        Except.bind, pure, Except.pure] at h3 ⊢
      rw [h3]
    | read n =>
      obtain ⟨r, h1, h2, h3⟩ := planarRead_rel n hb2 h.1
      obtain ⟨bs'', h4⟩ := ih _ _ h.2 h2
      refine ⟨bs'', ?_⟩
      simp [planarRun, planarStep, h1, planarApplyAll, planarApply, bind, Except.bind, pure,
        Except.pure] at h3 h4 ⊢
      rw [h4, h3]

example : PlanarAllAllowed 2 (List.replicate 2 ([] : List Nat))
    [.write [[1, 2], [3, 4]], .read 1, .write [[5], [6]], .read 2] := by
  simp [PlanarAllAllowed, PlanarAllowed, planarApply, List.replicate]
  decide

end Verif.CircularBuffer
