import Verif.Model.CircularBuffer
import Verif.Spec.CircularBuffer
import Mathlib.Data.List.Forall2

/-! Helper lemmas for the circular buffer. -/

namespace Verif.CircularBuffer
open Spec

variable {α : Type}

theorem mod_two {x c : Nat} (h : x < 2 * c) : x % c = if x < c then x else x - c := by
  split
  · exact Nat.mod_eq_of_lt (by assumption)
  · rw [Nat.mod_eq_sub_mod (by omega), Nat.mod_eq_of_lt (by omega)]

/-- Basic well-formedness of an initialised buffer. -/
structure WF (b : Buf α) : Prop where
  pos : 0 < b.capacity
  len : b.data.length = b.capacity
  rd : b.readIdx < b.capacity
  wr : b.writeIdx < b.capacity
  av : b.avail ≤ b.capacity

theorem peek_spec {b : Buf α} (h : WF b) {n : Nat} (hn : n ≤ b.capacity) :
    ∃ xs, peek b n = .ok xs ∧ xs.length = n ∧
      ∀ i, i < n → xs[i]? = b.data[(b.readIdx + i) % b.capacity]? := by
  obtain ⟨pos, len, rd, wr, av⟩ := h
  unfold peek peekSpans
  rw [if_neg (by omega)]
  by_cases h0 : n = 0
  · subst h0
    exact ⟨[], by simp [Span.empty, loadSpan, bind, Except.bind, pure, Except.pure], rfl,
      by intro i hi; omega⟩
  · rw [if_neg h0]
    simp only
    rw [mod_two (x := b.readIdx + n) (by omega)]
    by_cases hw : b.readIdx + n < b.capacity
    · rw [if_pos hw, if_pos (by omega)]
      refine ⟨(b.data.drop b.readIdx).take n, ?_, ?_, ?_⟩
      · simp only [bind, Except.bind, loadSpan, pure, Except.pure, Span.empty]
        rw [if_neg (by omega), if_pos (by omega)]
        have : b.readIdx + n - b.readIdx = n := by omega
        simp [this]
      · simp; omega
      · intro i hi
        rw [mod_two (x := b.readIdx + i) (by omega), if_pos (by omega)]
        simp [List.getElem?_take, hi]
    · rw [if_neg hw, if_neg (by omega)]
      refine ⟨b.data.drop b.readIdx ++ b.data.take (n - (b.capacity - b.readIdx)), ?_, ?_, ?_⟩
      · simp only [bind, Except.bind, loadSpan, pure, Except.pure]
        rw [if_neg (by omega), if_pos (by omega)]
        simp only
        by_cases hz : n - (b.capacity - b.readIdx) = 0
        · rw [if_pos hz, hz]
          rw [List.take_of_length_le (by simp)]; simp
        · rw [if_neg hz, if_pos (by omega)]
          simp only [List.drop_zero]
          congr 2
          rw [List.take_of_length_le (by simp)]
      · simp; omega
      · intro i hi
        rw [mod_two (x := b.readIdx + i) (by omega)]
        rw [List.getElem?_append]
        simp only [List.length_drop, len]
        by_cases hlt : b.readIdx + i < b.capacity
        · rw [if_pos (by omega), if_pos hlt]
          simp
        · rw [if_neg (by omega), if_neg hlt, List.getElem?_take, if_pos (by omega)]
          congr 1
          omega

/-- The storage after a write: position `j` holds input element `(j - writeIdx) mod capacity` if
there is one. -/
theorem write_spec {b : Buf α} (h : WF b) {xs : List α} (hn : xs.length ≤ b.capacity) :
    ∃ d, write b xs = .ok { b with
        data := d
        writeIdx := (b.writeIdx + xs.length) % b.capacity
        avail := if b.avail + xs.length > b.capacity then b.capacity else b.avail + xs.length
        isFull := if xs.length = 0 then b.isFull
          else decide ((b.writeIdx + xs.length) % b.capacity = b.readIdx) } ∧
      d.length = b.capacity ∧
      ∀ j, j < b.capacity → d[j]? =
        if (j + b.capacity - b.writeIdx) % b.capacity < xs.length
        then xs[(j + b.capacity - b.writeIdx) % b.capacity]? else b.data[j]? := by
  obtain ⟨pos, len, rd, wr, av⟩ := h
  unfold write writeSpans
  rw [if_neg (by omega)]
  by_cases h0 : xs.length = 0
  · refine ⟨b.data, ?_, len, ?_⟩
    · have hm : b.writeIdx % b.capacity = b.writeIdx := Nat.mod_eq_of_lt wr
      have ha : ¬ b.avail > b.capacity := by omega
      have : xs = [] := List.length_eq_zero_iff.mp h0
      subst this
      simp [Span.empty, storeSpan, bind, Except.bind, pure, Except.pure, hm, ha]
    · intro j hj; rw [if_neg (by omega)]
  · rw [if_neg h0]
    by_cases hw : b.writeIdx + xs.length ≤ b.capacity
    · rw [if_pos hw]
      refine ⟨b.data.take b.writeIdx ++ xs ++ b.data.drop (b.writeIdx + xs.length), ?_, ?_, ?_⟩
      · simp only [bind, Except.bind, storeSpan, pure, Except.pure, Span.empty, List.take_length,
          List.drop_length, List.length_nil]
        rw [if_neg h0, if_pos (by omega)]
        simp [h0]
      · simp; omega
      · intro j hj
        rw [mod_two (x := j + b.capacity - b.writeIdx) (by omega), List.append_assoc,
          List.getElem?_append]
        simp only [List.length_take, len]
        by_cases h1 : j < b.writeIdx
        · rw [if_pos (by omega), if_neg (by split <;> omega), List.getElem?_take, if_pos h1]
        · rw [if_neg (by omega), if_neg (by omega : ¬ j + b.capacity - b.writeIdx < b.capacity),
            List.getElem?_append]
          have hmin : min b.writeIdx b.capacity = b.writeIdx := by omega
          have he : j + b.capacity - b.writeIdx - b.capacity = j - b.writeIdx := by omega
          rw [hmin, he]
          split
          · rfl
          · rw [List.getElem?_drop]; congr 1; omega
    · rw [if_neg hw]
      have hb : xs.length - (b.capacity - b.writeIdx) + (b.capacity - b.writeIdx) = xs.length := by
        omega
      refine ⟨(xs.drop (b.capacity - b.writeIdx)) ++
        (b.data.take b.writeIdx ++ xs.take (b.capacity - b.writeIdx)).drop
          (xs.length - (b.capacity - b.writeIdx)), ?_, ?_, ?_⟩
      · have hdl : (b.data.take b.writeIdx ++ List.take (b.capacity - b.writeIdx) xs).length
            = b.capacity := by simp [len]; omega
        have hd0 : b.data.drop (b.writeIdx + (List.take (b.capacity - b.writeIdx) xs).length) = [] := by
          simp [len]; omega
        simp only [bind, Except.bind, storeSpan, pure, Except.pure]
        have htz : ¬ (xs.take (b.capacity - b.writeIdx)).length = 0 := by
          rw [List.length_take]; omega
        rw [if_neg htz, if_pos (by rw [List.length_take]; omega)]
        simp only [hd0, List.append_nil]
        have hdz : ¬ (xs.drop (b.capacity - b.writeIdx)).length = 0 := by
          rw [List.length_drop]; omega
        rw [if_neg hdz, if_pos (by rw [hdl, List.length_drop]; omega)]
        simp [h0]
      · simp [len]; omega
      · intro j hj
        rw [mod_two (x := j + b.capacity - b.writeIdx) (by omega), List.getElem?_append]
        simp only [List.length_drop]
        by_cases h1 : j < xs.length - (b.capacity - b.writeIdx)
        · rw [if_pos h1, if_pos (by omega : j + b.capacity - b.writeIdx < b.capacity),
            if_pos (by omega), List.getElem?_drop]
          congr 1; omega
        · rw [if_neg h1, List.getElem?_drop]
          have he : xs.length - (b.capacity - b.writeIdx) + (j - (xs.length - (b.capacity - b.writeIdx))) = j := by
            omega
          rw [he, List.getElem?_append]
          simp only [List.length_take, len]
          by_cases h2 : j < b.writeIdx
          · rw [if_pos (by omega), if_neg (by split <;> omega), List.getElem?_take, if_pos h2]
          · rw [if_neg (by omega), if_neg (by omega : ¬ j + b.capacity - b.writeIdx < b.capacity),
              if_pos (by omega), List.getElem?_take, if_pos (by omega)]
            congr 1; omega

/-- Abstraction relation between a buffer and a bounded queue. -/
structure Rel (b : Buf α) (q : Queue α) : Prop where
  cap : b.capacity = q.capacity
  wf : WF b
  count : b.avail = q.items.length
  sync : b.writeIdx = (b.readIdx + b.avail) % b.capacity
  content : ∀ i, i < b.avail → b.data[(b.readIdx + i) % b.capacity]? = q.items[i]?

/-- Relation that also covers an uninitialised object. -/
def Rel0 (b : Buf α) (q : Queue α) : Prop :=
  (b.capacity = 0 ∧ q.capacity = 0) ∨ Rel b q

theorem peek_rel {b : Buf α} {q : Queue α} (h : Rel b q) {n : Nat} (hn : n ≤ q.items.length) :
    peek b n = .ok (q.items.take n) := by
  have hc := h.count
  have hav := h.wf.av
  obtain ⟨xs, hx, hlen, hxs⟩ := peek_spec h.wf (n := n) (by omega)
  rw [hx]
  congr 1
  apply List.ext_getElem?
  intro i
  rw [List.getElem?_take]
  by_cases hi : i < n
  · rw [if_pos hi, hxs i hi, h.content i (by omega)]
  · rw [if_neg hi, List.getElem?_eq_none (by omega)]

theorem advance_rel {b : Buf α} {q : Queue α} (h : Rel b q) {n : Nat} (hn : n ≤ q.items.length) :
    ∃ b', advance b n = .ok b' ∧ Rel b' { q with items := q.items.drop n } ∧ b'.isFull = false := by
  obtain ⟨cap, ⟨pos, len, rd, wr, av⟩, count, sync, content⟩ := h
  have h1 : (b.readIdx + n) % b.capacity < b.capacity := Nat.mod_lt _ pos
  have hadv : advance b n = .ok { b with
      isFull := false, readIdx := (b.readIdx + n) % b.capacity, avail := b.avail - n } := by
    unfold advance; rw [if_pos (by omega)]
  refine ⟨_, hadv, ⟨cap, ⟨pos, len, h1, wr, ?_⟩, ?_, ?_, ?_⟩, rfl⟩
  · simp; omega
  · simp [count]
  · simp only
    rw [sync]
    rw [Nat.mod_add_mod]
    congr 1; omega
  · intro i hi
    simp only at hi ⊢
    rw [Nat.mod_add_mod, List.getElem?_drop, ← content (n + i) (by omega)]
    congr 2; omega

theorem write_rel {b : Buf α} {q : Queue α} (h : Rel b q) {xs : List α}
    (hn : q.items.length + xs.length ≤ q.capacity) :
    ∃ b', write b xs = .ok b' ∧ Rel b' { q with items := q.items ++ xs } ∧
      (xs ≠ [] → b'.isFull = decide (q.items.length + xs.length = q.capacity)) ∧
      (xs = [] → b'.isFull = b.isFull) := by
  obtain ⟨cap, wf, count, sync, content⟩ := h
  obtain ⟨d, hd, dlen, dget⟩ := write_spec wf (xs := xs) (by omega)
  obtain ⟨pos, len, rd, wr, av⟩ := wf
  refine ⟨_, hd, ⟨cap, ⟨pos, dlen, rd, Nat.mod_lt _ pos, ?_⟩, ?_, ?_, ?_⟩, ?_, ?_⟩
  · simp only; split <;> omega
  · simp only [List.length_append]; rw [if_neg (by omega)]; omega
  · simp only
    rw [if_neg (by omega), sync, Nat.mod_add_mod]
    congr 1; omega
  · intro i hi
    simp only at hi ⊢
    rw [if_neg (by omega)] at hi
    have hlt : (b.readIdx + i) % b.capacity < b.capacity := Nat.mod_lt _ pos
    rw [dget _ hlt, List.getElem?_append]
    have key : ((b.readIdx + i) % b.capacity + b.capacity - b.writeIdx) % b.capacity
        = if i < b.avail then i + b.capacity - b.avail else i - b.avail := by
      by_cases hfull : b.avail = b.capacity
      · have : xs.length = 0 := by omega
        have hi' : i < b.avail := by omega
        rw [if_pos hi', hfull]
        rw [mod_two (x := b.readIdx + i) (by omega), sync, hfull]
        rw [Nat.add_mod_right, Nat.mod_eq_of_lt rd]
        split
        · rw [mod_two (by omega)]; split <;> omega
        · rw [mod_two (by omega)]; split <;> omega
      · rw [mod_two (x := b.readIdx + i) (by omega), sync,
          mod_two (x := b.readIdx + b.avail) (by omega)]
        split <;> split <;> rw [mod_two (by omega)] <;> split <;> split <;> omega
    rw [key]
    by_cases h1 : i < b.avail
    · have h2 : ¬ (i + b.capacity - b.avail < xs.length) := by omega
      rw [if_pos h1, if_neg h2, content i h1, if_pos (by omega)]
    · have h2 : i - b.avail < xs.length := by omega
      rw [if_neg h1, if_pos h2, if_neg (by omega), count]
  · intro hne
    have h0 : xs.length ≠ 0 := by
      intro h0; exact hne (List.length_eq_zero_iff.mp h0)
    simp only [h0, if_false]
    rw [sync, Nat.mod_add_mod]
    congr 1
    apply propext
    have : b.readIdx + b.avail + xs.length = b.readIdx + (q.items.length + xs.length) := by omega
    rw [this]
    by_cases hf : q.items.length + xs.length = q.capacity
    · simp only [hf, iff_true]
      rw [← cap, Nat.add_mod_right, Nat.mod_eq_of_lt rd]
    · simp only [hf, iff_false]
      rw [mod_two (by omega)]
      split <;> omega
  · intro he
    simp [he]

theorem init_rel (fill : α) (b : Buf α) {c : Nat} (hc : 0 < c) :
    ∃ b', init fill b c = .ok b' ∧ Rel b' ⟨c, []⟩ ∧ b'.isFull = false := by
  refine ⟨_, by unfold init; rw [if_pos hc], ⟨rfl, ⟨hc, ?_, hc, hc, Nat.zero_le _⟩, rfl, ?_, ?_⟩, rfl⟩
  · simp [clear]; omega
  · simp [clear]
  · intro i hi; simp [clear] at hi

theorem clear_rel {b : Buf α} {q : Queue α} (h : Rel b q) :
    Rel (clear b) { q with items := [] } := by
  obtain ⟨cap, ⟨pos, len, rd, wr, av⟩, count, sync, content⟩ := h
  refine ⟨cap, ⟨pos, len, pos, pos, Nat.zero_le _⟩, rfl, ?_, ?_⟩
  · simp [clear]
  · intro i hi; simp [clear] at hi

theorem step_rel (fill : α) {b : Buf α} {q : Queue α} (h : Rel0 b q) {op : Op α}
    (ha : Allowed q op) :
    ∃ b', step fill b op = .ok (b', (apply q op).2) ∧ Rel b' (apply q op).1 := by
  have hr : ∀ (_ : 0 < q.capacity), Rel b q := by
    intro h0; rcases h with h | h
    · omega
    · exact h
  cases op with
  | init c =>
    obtain ⟨b', h1, h2, _⟩ := init_rel fill b (c := c) ha
    exact ⟨b', by simp [step, h1, apply, bind, Except.bind, pure, Except.pure], h2⟩
  | clear => exact ⟨clear b, rfl, clear_rel (hr ha)⟩
  | write xs =>
    obtain ⟨b', h1, h2, _⟩ := write_rel (hr ha.1) ha.2
    exact ⟨b', by simp [step, h1, apply, bind, Except.bind, pure, Except.pure], h2⟩
  | read n =>
    obtain ⟨b', h1, h2, _⟩ := advance_rel (hr ha.1) ha.2
    refine ⟨b', ?_, h2⟩
    simp [step, read, peek_rel (hr ha.1) ha.2, h1, apply, bind, Except.bind, pure, Except.pure]
  | peek n =>
    refine ⟨b, ?_, hr ha.1⟩
    simp [step, peek_rel (hr ha.1) ha.2, apply, bind, Except.bind, pure, Except.pure]
  | advance n =>
    obtain ⟨b', h1, h2, _⟩ := advance_rel (hr ha.1) ha.2
    exact ⟨b', by simp [step, h1, apply, bind, Except.bind, pure, Except.pure], h2⟩

theorem run_rel (fill : α) : ∀ (ops : List (Op α)) {b : Buf α} {q : Queue α}, Rel0 b q →
    AllAllowed q ops →
    ∃ b', run fill b ops = .ok (b', (applyAll q ops).2) ∧ Rel0 b' (applyAll q ops).1
  | [], b, q, h, _ => ⟨b, rfl, h⟩
  | op :: ops, b, q, h, ha => by
    obtain ⟨b', h1, h2⟩ := step_rel fill h ha.1
    obtain ⟨b'', h3, h4⟩ := run_rel fill ops (Or.inr h2) ha.2
    refine ⟨b'', ?_, h4⟩
    simp [run, h1, h3, applyAll, bind, Except.bind, pure, Except.pure]

/-- `IsFull` agrees with the queue. -/
def FullOk (b : Buf α) (q : Queue α) : Prop :=
  q.capacity ≠ 0 → b.isFull = decide (q.items.length = q.capacity)

theorem step_full (fill : α) {b b' : Buf α} {q : Queue α} (h : Rel0 b q) (hf : FullOk b q)
    {op : Op α} (ha : Allowed q op) (hne : NotEmptyRead op) {o : List α}
    (hs : step fill b op = .ok (b', o)) : FullOk b' (apply q op).1 := by
  have hr : ∀ (_ : 0 < q.capacity), Rel b q := by
    intro h0; rcases h with h | h
    · omega
    · exact h
  cases op with
  | init c =>
    obtain ⟨b2, h1, h2, h3⟩ := init_rel fill b (c := c) ha
    simp [step, h1, bind, Except.bind, pure, Except.pure] at hs
    have hc : 0 < c := ha
    intro _; rw [← hs.1, h3]; exact (decide_eq_false (by simp [apply]; omega)).symm
  | clear =>
    simp [step] at hs
    have : 0 < q.capacity := ha
    intro _; rw [← hs.1]; exact (decide_eq_false (by simp [apply]; omega)).symm
  | write xs =>
    obtain ⟨b2, h1, h2, h3, h4⟩ := write_rel (hr ha.1) ha.2
    simp [step, h1, bind, Except.bind, pure, Except.pure] at hs
    intro hq
    by_cases hx : xs = []
    · rw [← hs.1, h4 hx, hf (by simpa [apply] using hq)]; simp [apply, hx]
    · rw [← hs.1, h3 hx]; simp [apply]
  | read n =>
    obtain ⟨b2, h1, h2, h3⟩ := advance_rel (hr ha.1) ha.2
    simp [step, read, peek_rel (hr ha.1) ha.2, h1, bind, Except.bind, pure, Except.pure] at hs
    have hq := hr ha.1
    have := hq.wf.av; have := hq.count; have := hq.cap
    have hn : n ≠ 0 := hne
    have hn2 : n ≤ q.items.length := ha.2
    have hn3 : 0 < q.capacity := ha.1
    intro _; rw [← hs.1, h3]; exact (decide_eq_false (by simp [apply]; omega)).symm
  | peek n =>
    simp [step, peek_rel (hr ha.1) ha.2, bind, Except.bind, pure, Except.pure] at hs
    rw [← hs.1]; exact hf
  | advance n =>
    obtain ⟨b2, h1, h2, h3⟩ := advance_rel (hr ha.1) ha.2
    simp [step, h1, bind, Except.bind, pure, Except.pure] at hs
    have hq := hr ha.1
    have := hq.wf.av; have := hq.count; have := hq.cap
    have hn : n ≠ 0 := hne
    have hn2 : n ≤ q.items.length := ha.2
    have hn3 : 0 < q.capacity := ha.1
    intro _; rw [← hs.1, h3]; exact (decide_eq_false (by simp [apply]; omega)).symm

theorem run_full (fill : α) : ∀ (ops : List (Op α)) {b b' : Buf α} {q : Queue α} {os},
    Rel0 b q → FullOk b q → AllAllowed q ops → (∀ op ∈ ops, NotEmptyRead op) →
    run fill b ops = .ok (b', os) → FullOk b' (applyAll q ops).1
  | [], b, b', q, os, h, hf, _, _, hr => by
    simp [run] at hr; rw [← hr.1]; exact hf
  | op :: ops, b, b', q, os, h, hf, ha, hne, hr => by
    obtain ⟨b1, h1, h2⟩ := step_rel fill h ha.1
    obtain ⟨b2, h3, h4⟩ := run_rel fill ops (Or.inr h2) ha.2
    have := step_full fill h hf ha.1 (hne op (by simp)) h1
    have h5 := run_full fill ops (Or.inr h2) this ha.2 (fun o ho => hne o (by simp [ho])) h3
    simp [run, h1, h3, bind, Except.bind, pure, Except.pure] at hr
    rw [← hr.1]; exact h5

/-- What an overflowing write leaves in the storage. -/
theorem overflow_read {b : Buf α} {q : Queue α} (h : Rel b q) {xs : List α}
    (h1 : q.capacity ≤ q.items.length + xs.length) (h2 : xs.length ≤ q.capacity) :
    ∃ b' b'' out, write b xs = .ok b' ∧ read b' q.capacity = .ok (b'', out) ∧
      numReadable b' = q.capacity ∧
      (xs ≠ [] → b'.isFull = decide ((q.items.length + xs.length) % q.capacity = 0)) ∧
      out =
        ((q.items ++ xs).drop (q.items.length + xs.length - q.capacity)).drop
          (2 * q.capacity - (q.items.length + xs.length)) ++
        ((q.items ++ xs).drop (q.items.length + xs.length - q.capacity)).take
          (2 * q.capacity - (q.items.length + xs.length)) := by
  obtain ⟨cap, wf, count, sync, content⟩ := h
  obtain ⟨d, hd, dlen, dget⟩ := write_spec wf (xs := xs) (by omega)
  obtain ⟨pos, len, rd, wr, av⟩ := wf
  have hav : (if b.avail + xs.length > b.capacity then b.capacity else b.avail + xs.length)
      = b.capacity := by split <;> omega
  rw [hav] at hd
  have hwf' : WF ({ b with
        data := d
        writeIdx := (b.writeIdx + xs.length) % b.capacity
        avail := b.capacity
        isFull := if xs.length = 0 then b.isFull
          else decide ((b.writeIdx + xs.length) % b.capacity = b.readIdx) } : Buf α) :=
    ⟨pos, dlen, rd, Nat.mod_lt _ pos, Nat.le_refl _⟩
  obtain ⟨out, ho, olen, oget⟩ := peek_spec hwf' (n := q.capacity) (by simp [cap])
  refine ⟨_, { b with
        data := d
        writeIdx := (b.writeIdx + xs.length) % b.capacity
        avail := b.capacity - q.capacity
        isFull := false
        readIdx := (b.readIdx + q.capacity) % b.capacity }, out, hd, ?_, ?_, ?_, ?_⟩
  · unfold read
    rw [ho]
    simp [bind, Except.bind, pure, Except.pure, advance, cap]
  · simp [numReadable, cap]
  · intro hne
    have h0 : xs.length ≠ 0 := by
      intro h0; exact hne (List.length_eq_zero_iff.mp h0)
    simp only [h0, if_false]
    congr 1
    apply propext
    rw [sync, Nat.mod_add_mod, ← cap, ← count]
    have hb := mod_two (x := b.avail + xs.length) (c := b.capacity)
    by_cases hbig : b.avail + xs.length = 2 * b.capacity
    · have : b.readIdx + b.avail + xs.length = b.readIdx + b.capacity * 2 := by omega
      rw [this, Nat.add_mul_mod_self_left, Nat.mod_eq_of_lt rd, hbig, Nat.mul_mod_left]
      simp
    · rw [hb (by omega), if_neg (by omega)]
      have : b.readIdx + b.avail + xs.length = b.readIdx + (b.avail + xs.length - b.capacity) + b.capacity := by omega
      rw [this, Nat.add_mod_right, mod_two (by omega)]
      split <;> omega
  · have hLen : ((q.items ++ xs).drop (q.items.length + xs.length - q.capacity)).length = q.capacity := by
      simp; omega
    apply List.ext_getElem?
    intro i
    by_cases hi : i < q.capacity
    · rw [oget i hi]
      simp only
      have hlt : (b.readIdx + i) % b.capacity < b.capacity := Nat.mod_lt _ pos
      rw [dget _ hlt]
      -- index in the most recent entries
      have hrec' : ∀ m, m < q.capacity →
            ((q.items ++ xs).drop (q.items.length + xs.length - q.capacity))[m]?
          = if m + xs.length < q.capacity then
              q.items[q.items.length + xs.length - q.capacity + m]?
            else xs[m + xs.length - q.capacity]? := by
        intro m hm
        rw [List.getElem?_drop, List.getElem?_append]
        split <;> split
        · rfl
        · omega
        · omega
        · congr 1; omega
      have key : ((b.readIdx + i) % b.capacity + b.capacity - b.writeIdx) % b.capacity
          = if i < b.avail then (if b.avail = b.capacity then i else i + b.capacity - b.avail)
            else i - b.avail := by
        by_cases hfull : b.avail = b.capacity
        · have hi' : i < b.avail := by omega
          rw [if_pos hi', hfull]
          rw [mod_two (x := b.readIdx + i) (by omega), sync, hfull]
          rw [Nat.add_mod_right, Nat.mod_eq_of_lt rd]
          split
          · rw [mod_two (by omega)]; split <;> split <;> omega
          · rw [mod_two (by omega)]; split <;> split <;> omega
        · rw [mod_two (x := b.readIdx + i) (by omega), sync,
            mod_two (x := b.readIdx + b.avail) (by omega)]
          split <;> split <;> rw [mod_two (by omega)] <;> split <;> split <;> (try split) <;> omega
      rw [List.getElem?_append]
      simp only [List.length_drop, hLen]
      generalize ((b.readIdx + i) % b.capacity + b.capacity - b.writeIdx) % b.capacity = p at key
      by_cases ha : i < b.avail
      · rw [if_pos ha] at key
        by_cases ht : i < q.capacity - (2 * q.capacity - (q.items.length + xs.length))
        · have hp : p < xs.length := by split at key <;> omega
          rw [if_pos hp, if_pos ht, List.getElem?_drop, hrec' _ (by omega), if_neg (by omega)]
          congr 1; split at key <;> omega
        · have hp : ¬ p < xs.length := by split at key <;> omega
          rw [if_neg hp, if_neg ht, List.getElem?_take, if_pos (by omega), hrec' _ (by omega),
            content i ha, if_pos (by omega)]
          congr 1; omega
      · rw [if_neg ha] at key
        have ht : ¬ i < q.capacity - (2 * q.capacity - (q.items.length + xs.length)) := by omega
        have hp : p < xs.length := by omega
        rw [if_pos hp, if_neg ht, List.getElem?_take, if_pos (by omega), hrec' _ (by omega),
          if_neg (by omega)]
        congr 1; omega
    · rw [List.getElem?_eq_none (by omega), List.getElem?_eq_none]
      rw [List.length_append, List.length_drop, List.length_take, hLen]
      omega

theorem applyAll_capacity_pos (ops : List (Op α)) (h : AllAllowed uninitialised ops)
    (hne : ops ≠ []) : 0 < (applyAll uninitialised ops).1.capacity := by
  have this : ∀ (ops : List (Op α)) (q : Queue α), 0 < q.capacity → AllAllowed q ops →
      0 < (applyAll q ops).1.capacity := by
    intro ops
    induction ops with
    | nil => intro q hq _; exact hq
    | cons op ops ih =>
      intro q hq ha
      refine ih _ ?_ ha.2
      cases op <;> first | exact hq | exact ha.1
  cases ops with
  | nil => exact absurd rfl hne
  | cons op ops =>
    have hpos : 0 < (apply (uninitialised : Queue α) op).1.capacity := by
      cases op with
      | init c => exact h.1
      | clear => exact absurd h.1 (Nat.lt_irrefl 0)
      | write xs => exact absurd h.1.1 (Nat.lt_irrefl 0)
      | read n => exact absurd h.1.1 (Nat.lt_irrefl 0)
      | peek n => exact absurd h.1.1 (Nat.lt_irrefl 0)
      | advance n => exact absurd h.1.1 (Nat.lt_irrefl 0)
    exact this ops _ hpos h.2

/-- Every channel buffer refines its queue. -/
def PlanarRel (cap : Nat) (bs : List (Buf α)) (chans : List (List α)) : Prop :=
  List.Forall₂ (fun b items => Rel b ⟨cap, items⟩) bs chans

theorem planarWrite_rel {cap : Nat} : ∀ {bs : List (Buf α)} {chans input : List (List α)},
    PlanarRel cap bs chans → input.length = chans.length →
    (∀ c (h1 : c < chans.length) (h2 : c < input.length),
        chans[c].length + input[c].length ≤ cap) →
    ∃ bs', (bs.zip input).mapM (fun p => write p.1 p.2) = .ok bs' ∧
      PlanarRel cap bs' (List.zipWith (· ++ ·) chans input)
  | [], [], input, _, hl, _ => ⟨[], by simp [pure, Except.pure], by simp [PlanarRel]⟩
  | b :: bs, items :: chans, x :: input, .cons h1 h2, hl, hc => by
    obtain ⟨b', h3, h4, _⟩ := write_rel (q := ⟨cap, items⟩) h1 (xs := x) (hc 0 (by simp) (by simp))
    obtain ⟨bs', h5, h6⟩ := planarWrite_rel (input := input) h2 (by simpa using hl)
      (fun c ha hb => hc (c + 1) (by simpa using ha) (by simpa using hb))
    exact ⟨b' :: bs', by simp [List.mapM_cons, h3, h5, bind, Except.bind, pure, Except.pure],
      .cons h4 h6⟩

theorem planarRead_rel {cap : Nat} (n : Nat) : ∀ {bs : List (Buf α)} {chans : List (List α)},
    PlanarRel cap bs chans → (∀ items ∈ chans, n ≤ items.length) →
    ∃ r, planarRead bs n = .ok r ∧ PlanarRel cap (r.map Prod.fst) (chans.map (·.drop n)) ∧
      r.map Prod.snd = chans.map (·.take n)
  | [], [], _, _ => ⟨[], rfl, by simp [PlanarRel], rfl⟩
  | b :: bs, items :: chans, .cons h1 h2, hc => by
    obtain ⟨b', h3, h4, _⟩ := advance_rel (q := ⟨cap, items⟩) h1 (n := n) (hc items (by simp))
    have h5 := peek_rel (q := ⟨cap, items⟩) h1 (n := n) (hc items (by simp))
    obtain ⟨r, h6, h7, h8⟩ := planarRead_rel n h2 (fun i hi => hc i (by simp [hi]))
    refine ⟨(b', items.take n) :: r, ?_, .cons h4 h7, by simp [h8]⟩
    unfold planarRead at h6 ⊢
    have hrd : read b n = .ok (b', items.take n) := by
      simp [read, h3, h5, bind, Except.bind, pure, Except.pure]
    simp [List.mapM_cons, hrd, h6, bind, Except.bind, pure, Except.pure]

end Verif.CircularBuffer
