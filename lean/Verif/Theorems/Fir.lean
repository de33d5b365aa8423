import Verif.Proof.Fir
import Mathlib.Data.Real.Basic

/-!
# C19, C20, C27, C43: FIR filters, the decimator and the Teager filter

The specification is `Verif.LinearFilter.Spec.IsConv`: the output is the causal convolution of the
whole input (the concatenation of all blocks) with the kernel.
-/

namespace Verif.Fir
open Verif.Stream Verif.LinearFilter.Spec Finset

variable {R : Type} [CommRing R]

/-! ### C19: `FIRFilter` -/

/-- **C19.** For every non-empty kernel and every sequence of blocks, the concatenated output of
`FIRFilter::Filter` is the convolution of the concatenated input with the kernel, and each output
block has the length of its input block. -/
theorem C19_convolution {h st : List R} (hi : firInit h = some st) (blocks : List (List R)) :
    IsConv h blocks.flatten (runBlocks (runSamples (firStep h)) st blocks).2.flatten ∧
    (runBlocks (runSamples (firStep h)) st blocks).2.map List.length
      = blocks.map List.length := by
  obtain ⟨_, h2, h3⟩ := runBlocks_runSamples (firStep h) blocks st
  refine ⟨?_, h3⟩
  rw [h2]
  unfold firInit at hi
  split at hi
  · simp at hi
  rename_i hne
  have hne' : h ≠ [] := by simpa using hne
  injection hi with hi
  subst hi
  obtain ⟨_, g⟩ := runSamples_hist (step := firStep h)
    (fun st r => st.length = h.length - 1 ∧ ∀ j, j < st.length → st.getD j 0 = tail h r j)
    (fun r => ∑ k ∈ range h.length, h.getD k 0 * r.getD k 0)
    (fun s r x hs => firStep_hist h hne' s r x hs.1 hs.2)
    blocks.flatten (List.replicate (h.length - 1) 0) []
    ⟨by simp, by intro j _; simp [tail, List.getElem?_replicate]; split <;> rfl⟩
  refine ⟨by simp, ?_⟩
  intro n hn
  rw [List.getD_eq_getElem?_getD, g n hn, Option.getD_some, List.append_nil]
  apply sum_congr rfl
  intro k _
  rw [past_eq_reverse _ _ _ hn]

/-- **C19.** The constructor fails exactly on the empty kernel. -/
theorem C19_init (h : List R) : firInit h = none ↔ h = [] := by
  unfold firInit
  by_cases c : h = []
  · subst c; simp
  · have : h.isEmpty = false := by simpa using c
    simp [this, c]

/-- Non-vacuity: a three-tap kernel over two blocks, the first shorter than the state. -/
example : firInit ([1, 2, 3] : List ℤ) = some [0, 0] ∧
    (runBlocks (runSamples (firStep ([1, 2, 3] : List ℤ))) [0, 0] [[5], [0, 0, 7]]).2
      = [[5], [10, 15, 7]] := by decide

/-! ### C20: `FirFilter` -/

/-- **C20.** For every kernel and every sequence of blocks: no column index ever leaves its array
and the concatenated output is the convolution of the concatenated input with the kernel. -/
theorem C20_convolution (kernel : List R) (blocks : List (List R)) :
    ∃ st outs, firRun kernel (firFilterInit kernel) blocks = .ok (st, outs) ∧
      outs.map List.length = blocks.map List.length ∧
      IsConv kernel blocks.flatten outs.flatten := by
  obtain ⟨st, outs, e, l, g⟩ := firRun_spec kernel blocks (firFilterInit kernel) []
    ⟨by simp [firFilterInit], by
      intro j
      simp only [spill, firFilterInit]
      rw [List.getD_eq_getElem?_getD, List.getElem?_replicate]
      split <;> simp⟩
  refine ⟨st, outs, e, l, ?_, ?_⟩
  · simp [List.length_flatten, l]
  · intro n hn
    rw [g n hn, List.append_nil]
    apply sum_congr rfl
    intro k _
    rw [past_eq_reverse _ _ _ hn]

theorem getD_map_proj {C : ℕ} (l : List (Fin C → R)) (c : Fin C) (k : ℕ) :
    (l.getD k 0) c = (l.map (· c)).getD k 0 := by
  rw [List.getD_eq_getElem?_getD, List.getD_eq_getElem?_getD, List.getElem?_map]
  cases l[k]? <;> simp

/-- **C20, per channel.** With one kernel per channel (a kernel *matrix*: column `k` holds the
`k`-th tap of every channel) each channel of the output is the convolution of that channel of the
input with that channel's kernel. -/
theorem C20_per_channel {C : ℕ} (kernel : List (Fin C → R)) (blocks : List (List (Fin C → R))) :
    ∃ st outs, firRun kernel (firFilterInit kernel) blocks = .ok (st, outs) ∧
      outs.map List.length = blocks.map List.length ∧
      ∀ c, IsConv (kernel.map (· c)) (blocks.flatten.map (· c)) (outs.flatten.map (· c)) := by
  obtain ⟨st, outs, e, l, h1, h2⟩ := C20_convolution kernel blocks
  refine ⟨st, outs, e, l, ?_⟩
  intro c
  refine ⟨by rw [List.length_map, List.length_map, h1], ?_⟩
  intro n hn
  rw [List.length_map] at hn
  have := congrFun (h2 n hn) c
  rw [← getD_map_proj, this, Finset.sum_apply, List.length_map]
  apply sum_congr rfl
  intro k _
  rw [Pi.mul_apply, getD_map_proj]
  congr 1
  unfold past
  split
  · rw [getD_map_proj]
  · rfl

/-- Non-vacuity: kernel longer than a block, then a longer block. -/
example : (firRun ([1, 2, 3] : List ℤ) (firFilterInit [1, 2, 3]) [[5], [], [0, 0, 7, 1]]).map (·.2)
    = .ok [[5], [], [10, 15, 7, 15]] := by decide +kernel

/-! ### C27: `TwoTapFirFilter` and `FactorTwoDecimator` -/

section General

-- any arithmetic
variable {R : Type} [Zero R] [Add R] [Mul R]

/-- One column at a time. -/
def twoTapStep (g : TwoTap R) (s x : R) : R × R := (x, g.gainNow * x + g.gainPrev * s)

theorem twoTapBlock_eq (g : TwoTap R) : ∀ (xs : List R) (s : R),
    twoTapBlock g s xs = runSamples (twoTapStep g) s xs
  | [], s => rfl
  | x :: xs, s => by
    have ih := twoTapBlock_eq g xs x
    rw [runSamples]
    simp only [twoTapStep]
    rw [← ih]
    cases xs with
    | nil => simp [twoTapBlock]
    | cons y ys => simp [twoTapBlock]

end General

/-- **C27.** For every block split, the concatenated output of `TwoTapFirFilter` is
`gain_now x[n] + gain_prev x[n-1]`. The constructor's pair is `(gain of the previous sample, gain of
the current sample)`. -/
theorem C27_two_tap (first second : R) (blocks : List (List R)) :
    IsConv [second, first] blocks.flatten
      (runBlocks (twoTapBlock (TwoTap.make first second)) 0 blocks).2.flatten ∧
    (runBlocks (twoTapBlock (TwoTap.make first second)) 0 blocks).2.map List.length
      = blocks.map List.length := by
  have e : twoTapBlock (TwoTap.make first second) = runSamples (twoTapStep (TwoTap.make first second)) := by
    funext s xs; exact twoTapBlock_eq _ xs s
  rw [e]
  obtain ⟨_, h2, h3⟩ := runBlocks_runSamples (twoTapStep (TwoTap.make first second)) blocks 0
  refine ⟨?_, h3⟩
  rw [h2]
  obtain ⟨_, g⟩ := runSamples_hist (step := twoTapStep (TwoTap.make first second))
    (fun s r => s = r.getD 0 0)
    (fun r => second * r.getD 0 0 + first * r.getD 1 0)
    (fun s r x hs => ⟨rfl, by simp only [twoTapStep, TwoTap.make, hs, List.getD_cons_zero, List.getD_cons_succ]⟩)
    blocks.flatten 0 [] rfl
  refine ⟨by simp, ?_⟩
  intro n hn
  rw [List.getD_eq_getElem?_getD, g n hn, Option.getD_some, List.append_nil]
  simp only [List.length_cons, List.length_nil, Nat.zero_add, sum_range_succ, sum_range_zero, past_eq_reverse _ _ _ hn]
  simp

/-- **C27.** `FirstDifferenceFilter` computes `x[n] - x[n-1]`. -/
theorem C27_first_difference (blocks : List (List R)) :
    IsConv [1, -1] blocks.flatten
      (runBlocks (twoTapBlock firstDifference) 0 blocks).2.flatten :=
  (C27_two_tap (-1) 1 blocks).1

example : (runBlocks (twoTapBlock (TwoTap.make (2 : ℤ) 3)) 0 [[1, 10], [], [100]]).2
    = [[3, 32], [], [320]] := by decide

theorem strided_spec {α : Type} (input : List α) : ∀ (count first : ℕ),
    first + 2 * count ≤ input.length + 1 →
    ∃ l, strided input first count = some l ∧ l.length = count ∧
      ∀ i, i < count → l[i]? = input[first + 2 * i]?
  | 0, first, _ => ⟨[], rfl, rfl, by simp⟩
  | count + 1, first, h => by
    obtain ⟨l, e, hl, g⟩ := strided_spec input count (first + 2) (by omega)
    have hx : input[first]? = some (input[first]'(by omega)) := List.getElem?_eq_getElem _
    refine ⟨input[first]'(by omega) :: l, by rw [strided, hx, e]; rfl, by simp [hl], ?_⟩
    intro i hi
    cases i with
    | zero => simp
    | succ i =>
      rw [List.getElem?_cons_succ, g i (by omega)]
      congr 1; omega

theorem decimate_spec {α : Type} (skip : Bool) (input : List α) :
    ∃ out, decimate skip input = some (xor skip (decide (input.length % 2 = 1)), out) ∧
      2 * out.length + (if skip then 1 else 0) =
        input.length + (if xor skip (decide (input.length % 2 = 1)) then 1 else 0) ∧
      ∀ i, i < out.length → out[i]? = input[(if skip then 1 else 0) + 2 * i]? := by
  obtain ⟨l, e, hl, g⟩ := strided_spec input ((input.length + (if skip then 0 else 1)) / 2)
    (if skip then 1 else 0) (by cases skip <;> simp <;> omega)
  refine ⟨l, ?_, ?_, ?_⟩
  · unfold decimate
    rw [e]
    by_cases h : input.length % 2 = 1 <;> cases skip <;> simp [h]
  · rw [hl]
    by_cases h : input.length % 2 = 1 <;> cases skip <;> simp [h] <;> omega
  · intro i hi
    exact g i (by omega)

theorem decimateRun_spec {α : Type} : ∀ (blocks : List (List α)) (skip : Bool),
    ∃ skip' outs, decimateRun skip blocks = some (skip', outs) ∧
      outs.length = blocks.length ∧
      2 * outs.flatten.length + (if skip then 1 else 0) =
        blocks.flatten.length + (if skip' then 1 else 0) ∧
      ∀ i, outs.flatten[i]? = blocks.flatten[(if skip then 1 else 0) + 2 * i]?
  | [], skip => ⟨skip, [], rfl, rfl, by simp, by simp⟩
  | x :: xs, skip => by
    obtain ⟨o, e1, l1, g1⟩ := decimate_spec skip x
    obtain ⟨skip', outs, e2, n2, l2, g2⟩ := decimateRun_spec xs (xor skip (decide (x.length % 2 = 1)))
    refine ⟨skip', o :: outs, ?_, by simp [n2], ?_, ?_⟩
    · rw [decimateRun, e1]
      simp only [Option.bind_eq_bind, Option.bind_some]
      rw [e2]; rfl
    · rw [List.flatten_cons, List.flatten_cons, List.length_append, List.length_append]
      omega
    · intro i
      have hq : (if (xor skip (decide (x.length % 2 = 1))) = true then 1 else 0) ≤ 1 := by
        split <;> omega
      have hp : (if skip = true then 1 else 0) ≤ 1 := by split <;> omega
      have g1' := g1 i
      have g2' := g2 (i - o.length)
      generalize (if (xor skip (decide (x.length % 2 = 1))) = true then 1 else 0) = q at *
      generalize (if skip = true then 1 else 0) = p at *
      rw [List.flatten_cons, List.flatten_cons, List.getElem?_append, List.getElem?_append]
      by_cases c : i < o.length
      · rw [if_pos c, g1' c, if_pos (by omega)]
      · rw [if_neg c, g2', if_neg (by omega)]
        congr 1; omega

/-- **C27.** For every block split, `FactorTwoDecimator::Decimate` never reads outside of its input
and frame `i` of the concatenated output is frame `2 i` of the concatenated input (in particular
there are `⌈total / 2⌉` output frames). -/
theorem C27_decimator {α : Type} (blocks : List (List α)) :
    ∃ skip outs, decimateRun false blocks = some (skip, outs) ∧
      outs.length = blocks.length ∧
      outs.flatten.length = (blocks.flatten.length + 1) / 2 ∧
      ∀ i, outs.flatten[i]? = blocks.flatten[2 * i]? := by
  obtain ⟨skip', outs, e, n, l, g⟩ := decimateRun_spec blocks false
  refine ⟨skip', outs, e, n, ?_, ?_⟩
  · simp only [Bool.false_eq_true, if_false] at l
    split at l <;> omega
  · intro i
    have := g i
    simpa using this

example : decimateRun false [[0, 1, 2], [3], [], [4, 5]] = some (false, [[0, 2], [], [], [4]]) := by
  decide

/-! ### C43: `TeagerEnergyFilter` -/

/-- **C43.** For every block split, output `n` of the Teager filter is
`(x[n-1]² - x[n-2] x[n]) · normalize`, with zero history. -/
theorem C43_teager (normalize : R) (blocks : List (List R)) :
    (runBlocks (runSamples (teagerStep normalize)) (0, 0) blocks).2.map List.length
      = blocks.map List.length ∧
    ∀ n, n < blocks.flatten.length →
      (runBlocks (runSamples (teagerStep normalize)) (0, 0) blocks).2.flatten.getD n 0 =
        (past blocks.flatten n 1 ^ 2 - past blocks.flatten n 2 * past blocks.flatten n 0)
          * normalize := by
  obtain ⟨_, h2, h3⟩ := runBlocks_runSamples (teagerStep normalize) blocks (0, 0)
  refine ⟨h3, ?_⟩
  intro n hn
  rw [h2]
  obtain ⟨_, g⟩ := runSamples_hist (step := teagerStep normalize)
    (fun s r => s.2 = r.getD 0 0 ∧ s.1 = r.getD 1 0)
    (fun r => (r.getD 1 0 ^ 2 - r.getD 2 0 * r.getD 0 0) * normalize)
    (fun s r x hs => ⟨⟨rfl, hs.1⟩, by
      simp only [teagerStep, hs.1, hs.2, List.getD_cons_succ, List.getD_cons_zero]; ring⟩)
    blocks.flatten (0, 0) [] ⟨rfl, rfl⟩
  rw [List.getD_eq_getElem?_getD, g n hn, Option.getD_some, List.append_nil,
    past_eq_reverse _ _ _ hn, past_eq_reverse _ _ _ hn, past_eq_reverse _ _ _ hn]

example : (runBlocks (runSamples (teagerStep (1 : ℤ))) (0, 0) [[1], [2, 5], [7]]).2
    = [[0], [1, -1], [11]] := by decide

end Verif.Fir
