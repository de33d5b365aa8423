import Verif.Proof.IntResampler

/-!
# C114: the sizes of the C resampler in 32-bit arithmetic

C08 to C10 are about a resampler that computes sizes with natural numbers. Here the sizes are `int`s, as in the code.
-/

namespace Verif.IntResampler
open Verif.Resampler

universe u

variable {R M : Type u} [Zero R] [Zero M] [Mac R M]

/-- **C114 (the full statement would omit the condition `hR` on the sizes).** When the number of coefficients, the largest input
with two filter lengths and the largest output are representable as `int`, `Make` is defined, it fails only if `malloc` does, and
it makes the resampler with the given factor, an input size that is not smaller than asked for and enough for a flush, and an
output buffer for the largest output. -/
theorem C114_make_partial {alloc : ℕ → Bool} {h : ℚ → R} {a b r maxInput : ℕ} (hG : GoodFactor a b r)
    (hR : InRange a b r (max maxInput (2 * r))) (hA : ∀ n, alloc n = true) :
    ∃ o, make alloc h a b r maxInput = .object o ∧ o.cfg = makeC h a b r ∧ o.maxInput = max maxInput (2 * r) ∧
      o.capacity = (max maxInput (2 * r) * b + a - 1) / a := by
  obtain ⟨h1, h2, h3, h4⟩ := hR
  have m : (if 2 * r + 1 - 1 > maxInput then 2 * r + 1 - 1 else maxInput) = max maxInput (2 * r) := by split_ifs <;> omega
  unfold make
  dsimp only
  rw [m]
  generalize max maxInput (2 * r) = w at *
  have a0 := hG.1
  have e : ((w : ℤ) * b + a - 1) / a = (((w * b + a - 1) / a : ℕ) : ℤ) := by
    rw [Int.natCast_div]
    congr 1
    have : (w * b + a - 1) + 1 = w * b + a := by omega
    have : ((w * b + a - 1 : ℕ) : ℤ) + 1 = w * b + a := by exact_mod_cast this
    linarith
  have t : 2 * r + 1 ≤ b * (2 * r + 1) := Nat.le_mul_of_pos_left _ hG.2.1
  have c : 4 * b * (2 * r + 1) = 4 * (b * (2 * r + 1)) := by ring
  rw [e, toInt_eq h4, c]
  generalize b * (2 * r + 1) = v at *
  generalize (w * b + a - 1) / a = q at *
  have s : toSize (q : ℤ) = q := by unfold toSize; omega
  simp only [hA, s, Bool.true_eq_false, if_false]
  rw [if_neg (by unfold Fits; omega), if_neg (by omega)]
  exact ⟨_, rfl, rfl, rfl, by dsimp only; omega⟩

/-- **C114 (the full statement would omit the condition `hR` on the sizes).** In such a resampler no computation overflows
and nothing is written outside the output buffer, for every sequence of blocks of any sizes: all calls give the
output and the state that the exact computation gives. -/
theorem C114_process_partial {alloc : ℕ → Bool} {h : ℚ → R} {a b r maxInput : ℕ} (hG : GoodFactor a b r)
    (hR : InRange a b r (max maxInput (2 * r))) {o : Obj R} (ho : make alloc h a b r maxInput = .object o)
    (bs : List (List M)) :
    runBlocks (processC o) (reset o.cfg) bs = runBlocks (Resampler.processC (makeC h a b r) o.maxInput) (reset o.cfg) bs ∧
      ∃ yss s', runBlocks (processC o) (reset o.cfg) bs = some (yss, s') ∧ StateOk o.cfg s' := by
  obtain ⟨c1, c2, c3⟩ := made hG hR ho
  have hw : (makeC h a b r).Wf := Built.wf (Or.inl rfl) hG
  suffices H : ∀ s : St M, StateOk (makeC h a b r) s →
      runBlocks (processC o) s bs = runBlocks (Resampler.processC (makeC h a b r) o.maxInput) s bs ∧
      ∃ yss s', runBlocks (processC o) s bs = some (yss, s') ∧ StateOk (makeC h a b r) s' by
    rw [c1]; exact H _ (reset_ok hw)
  induction bs with
  | nil => intro s hs; exact ⟨rfl, [], s, rfl, hs⟩
  | cons x bs ih =>
    intro s hs
    obtain ⟨e, ys, s', k1, k2⟩ := processC_eq hG hR c1 c2 c3 hs x
    obtain ⟨i1, yss, s'', i2, i3⟩ := ih s' k2
    simp only [runBlocks, ← e, k1, Option.bind_eq_bind, Option.bind_some, i1.symm, true_and]
    rw [i2]
    exact ⟨ys :: yss, s'', rfl, i3⟩

/-- **C114 is violated**: for the factor 1/3 (16 kHz to 48 kHz) and `max_input_size` = 1431655766, the size of the output buffer,
4294967298, is truncated to 2. For every radius of the kernel `Make` then returns a resampler with an output buffer of 2 floats,
and the first block, if it has one sample more than the radius, writes 3. -/
theorem C114_buffer_overflow_violation {alloc : ℕ → Bool} (hA : ∀ n, alloc n = true) (h : ℚ → R) {r : ℕ} (hr : 1 ≤ r)
    (hr' : r ≤ 100000000) (x : List M) (hx : x.length = r + 1) :
    ∃ o, make alloc h 1 3 r 1431655766 = .object o ∧ x.length ≤ o.maxInput ∧ o.capacity = 2 ∧
      (∃ ys s', process o.cfg (reset o.cfg) x = some (ys, s') ∧ ys.length = 3) ∧ processC o (reset o.cfg) x = none := by
  have hG : GoodFactor 1 3 r := ⟨by norm_num, by norm_num, by omega⟩
  have hR : InRange 1 3 r (r + 1) := ⟨by omega, by norm_num, by omega, by omega⟩
  have hw : (makeC h 1 3 r).Wf := Built.wf (Or.inl rfl) hG
  have hs : StateOk (makeC h 1 3 r) (reset (makeC h 1 3 r) : St M) := reset_ok hw
  have p := process_eq' hG hR hs (x := x) hx.le
  obtain ⟨ys, s', q, l⟩ : ∃ ys s', Resampler.process (makeC h 1 3 r) (reset (makeC h 1 3 r)) x = some (ys, s') ∧
      ys.length = 3 := by
    refine ⟨_, _, process_eq hw _ x hs.1 hs.2, ?_⟩
    rw [outFrom, outs_length]
    simp only [num, cnt, reset, List.length_append, List.length_replicate, hx, Cfg.taps, makeC]
    omega
  rw [q] at p
  obtain ⟨w, hw'⟩ : ∃ w, w = 1431655766 := ⟨_, rfl⟩
  have e1 : toInt (((w : ℤ) * (3 : ℕ) + (1 : ℕ) - 1) / (1 : ℕ)) = 2 := by rw [hw']; norm_num [toInt]
  have e2 : (4 * toSize 2) % 2 ^ 64 = 8 := by simp [toSize]
  rw [← hw']
  refine ⟨⟨makeC h 1 3 r, w, 2⟩, ?_, ?_, rfl, ⟨ys, s', p, l⟩, ?_⟩
  · unfold make
    dsimp only
    rw [if_neg (not_not.2 (by unfold Fits; omega)), if_neg (show ¬ 2 * r + 1 - 1 > w by omega), e1, e2]
    simp only [hA, Bool.true_eq_false, if_false]
    rw [if_neg (by omega)]
  · show x.length ≤ w
    omega
  · unfold processC
    have : ¬ (x.length - w > 0) := by omega
    simp only [this, if_false, p, Option.bind_eq_bind, Option.bind_some, l]
    rfl

/-- The default of 44.1 kHz to 48 kHz with blocks of a million samples is in range. -/
example : GoodFactor 147 160 17 ∧ InRange 147 160 17 (max 1000000 (2 * 17)) :=
  ⟨by decide, by norm_num, by norm_num, by norm_num, by norm_num⟩

example : ¬ InRange 1 3 17 (max 1431655766 (2 * 17)) := fun h => by have := h.output; norm_num at this

end Verif.IntResampler
