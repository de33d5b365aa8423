import Verif.Model.FloatResampler
import Verif.Model.Float32
import Verif.Proof.FloatResampler
import Verif.Proof.BitExact
import Verif.Proof.Stream
import Verif.Theorems.Resampler
import Verif.Theorems.Biquad
import Verif.Theorems.Fir

/-!
# C101: cutting a stream into blocks does not change a bit of the output

The operations on samples are arbitrary functions here: the theorems hold for `float` with or without fused
multiply-add, for fixed point numbers and for exact numbers. What they assume of the compiler is that it translates the
same expression in the same way at each place where the model has the same operation.
-/

namespace Verif.BitExact

universe u

/-! ### The C resampler -/

/-- **C101.** For every arithmetic, two ways of cutting a stream into blocks that the C resampler accepts give the same
output and leave the same state. -/
theorem C101_c_resampler {R M : Type u} [Zero R] [Zero M] [Resampler.Mac R M] {h : ℚ → R} {a b r : ℕ}
    (hG : Resampler.GoodFactor a b r) (maxInput : ℕ) (s : Resampler.St M)
    (hs : Resampler.StateOk (Resampler.makeC h a b r) s) (bs bs' : List (List M))
    (h1 : ∀ x ∈ bs, x.length ≤ maxInput) (h2 : ∀ x ∈ bs', x.length ≤ maxInput) (hf : bs.flatten = bs'.flatten) :
    ∃ yss yss' s', Resampler.runBlocks (Resampler.processC (Resampler.makeC h a b r) maxInput) s bs = some (yss, s') ∧
      Resampler.runBlocks (Resampler.processC (Resampler.makeC h a b r) maxInput) s bs' = some (yss', s') ∧
      yss.flatten = yss'.flatten :=
  Resampler.C08_c_block_invariance hG maxInput s hs bs bs' h1 h2 hf

/-- `float` arithmetic without fused multiply-add. -/
def floatMac : Resampler.Mac ℚ ℚ := ⟨fun s h v => Float32.f32 (s + Float32.f32 (h * v))⟩

/-- The sum `2^24 + 1 + 1` in `float` is `2^24`, and stays so if the input is cut. -/
example : (@Resampler.runBlocks ℚ (@Resampler.processC ℚ ℚ _ floatMac (Resampler.makeC (fun _ => 1) 1 1 1) 8)
      ⟨[0], 0⟩ [[2 ^ 24, 1, 1]]).map (·.1.flatten) = some [2 ^ 24, 2 ^ 24] ∧
    (@Resampler.runBlocks ℚ (@Resampler.processC ℚ ℚ _ floatMac (Resampler.makeC (fun _ => 1) 1 1 1) 8)
      ⟨[0], 0⟩ [[2 ^ 24], [1, 1]]).map (·.1.flatten) = some [2 ^ 24, 2 ^ 24] := by
  decide +kernel

/-! ### `QResampler` -/

open FloatResampler in
theorem evaluates_exact {R M : Type u} [Semiring R] [AddCommMonoid M] [Module R M] {z : M} {y : Sym R M}
    (h : Evaluates Arith.exact z y) : z = (y.2.map fun p => p.1 • p.2).sum := by
  have e : ∀ l : List (R × M), (List.zipWith (fun a b => a • b) (l.map Prod.fst) (l.map Prod.snd)).sum =
      (l.map fun p => p.1 • p.2).sum := by
    intro l
    rw [List.zipWith_map, List.zipWith_self]
  rcases h with ⟨k, rfl⟩ | ⟨k, k', n, _, _, rfl⟩
  · exact e _
  · simp only [Arith.exact]
    rw [← List.map_take, ← List.map_take, ← List.map_drop, ← List.map_drop, e, e, ← List.sum_append, ← List.map_append,
      List.take_append_drop]

theorem sum_map_range {M : Type*} [AddCommMonoid M] (f : ℕ → M) (n : ℕ) :
    ((List.range n).map f).sum = ∑ t ∈ Finset.range n, f t := by
  induction n with
  | zero => simp
  | succ n ih => rw [List.range_succ, List.map_append, List.sum_append, ih, Finset.sum_range_succ]; simp

/-- **C101.** In exact arithmetic `QResampler`, with its separate sums for the part of the filter on the delayed input
and the part on the new input, does the same as the C resampler; so that C08, C09 and C10 speak about it. -/
theorem C101_q_exact_arithmetic {R M : Type u} [Semiring R] [AddCommMonoid M] [Module R M] {h : ℚ → R} {a b r : ℕ}
    (hG : Resampler.GoodFactor a b r) (s : Resampler.St M) (hs : Resampler.StateOk (Resampler.makeQ h a b r) s)
    (x : List M) : FloatResampler.process FloatResampler.Arith.exact (Resampler.makeQ h a b r) s x =
      Resampler.process (Resampler.makeQ h a b r) s x := by
  have hc : (Resampler.makeQ h a b r).Wf := Resampler.Built.wf (Or.inr rfl) hG
  obtain ⟨zs, h1, h2⟩ := FloatResampler.process_sim FloatResampler.Arith.exact hc s x hs.1 hs.2
  rw [h1, Resampler.process_eq hc s x hs.1 hs.2]
  congr 2
  have all : ∀ (zs : List M) (ys : List (FloatResampler.Sym R M)),
      List.Forall₂ (FloatResampler.Evaluates FloatResampler.Arith.exact) zs ys →
      zs = ys.map fun y => (y.2.map fun p => p.1 • p.2).sum := by
    intro zs ys h2
    induction h2 with
    | nil => rfl
    | cons hz _ ih => rw [List.map_cons, ← evaluates_exact hz, ← ih]
  rw [all _ _ h2]
  unfold Resampler.outFrom Resampler.outs
  rw [List.map_map, List.length_map]
  apply List.map_congr_left
  intro j _
  simp only [Function.comp]
  rw [FloatResampler.tapAt_sym, Resampler.tapAt_eq_sum, List.map_map]
  exact sum_map_range _ _

example : Resampler.GoodFactor 147 160 5 ∧ Resampler.StateOk (Resampler.makeQ (fun q : ℚ => 1 - q) 147 160 5)
    (⟨[1, 2, 3], 17⟩ : Resampler.St ℚ) := by
  unfold Resampler.StateOk; decide +kernel

/-- `float` arithmetic where a product of matrices is a loop over the columns. -/
def floatArith : FloatResampler.Arith ℚ ℚ where
  dot _ h v := (h.zip v).foldl (fun s p => Float32.f32 (s + Float32.f32 (p.1 * p.2))) 0
  add x y := Float32.f32 (x + y)

/-- **C101, finding.** The output of `QResampler` depends on where the stream is cut: with a filter of three equal
coefficients and the input `2^24, 1, 1`, the second output is `2^24` when all comes in one block, and `2^24 + 2` when the
first sample comes alone, because the sum over the new input is then rounded separately. -/
theorem C101_q_violation :
    ((FloatResampler.runCalls (Resampler.makeQ (fun _ => 1) 1 1 1) (Resampler.reset (Resampler.makeQ (fun _ => (1 : ℚ)) 1 1 1))
      [(floatArith, [2 ^ 24, 1, 1])]).map (·.1.flatten) = some [2 ^ 24, 2 ^ 24]) ∧
    ((FloatResampler.runCalls (Resampler.makeQ (fun _ => 1) 1 1 1) (Resampler.reset (Resampler.makeQ (fun _ => (1 : ℚ)) 1 1 1))
      [(floatArith, [2 ^ 24]), (floatArith, [1, 1])]).map (·.1.flatten) = some [2 ^ 24, 2 ^ 24 + 2]) := by
  decide +kernel

/-! ### Filters -/

open Stream

/-- **C101.** For every arithmetic, a cascade of biquad filters gives the same output sample by sample, stage by stage over
a block, and however the stream is cut into blocks. -/
theorem C101_biquad_cascade {K : Type} [Add K] [Sub K] [Mul K] (fs : List (Biquad.Filter K × (K × K)))
    (blocks : List (List K)) :
    (runBlocks Biquad.cascadeBlock fs blocks).2.flatten = (runSamples Biquad.cascadeStep fs blocks.flatten).2 ∧
      (runBlocks Biquad.cascadeBlock fs blocks).1 = (runSamples Biquad.cascadeStep fs blocks.flatten).1 := by
  have h : (Biquad.cascadeBlock : List (Biquad.Filter K × (K × K)) → List K → _) = runSamples Biquad.cascadeStep := by
    funext fs xs; rw [Biquad.runSamples_cascadeStep]
  rw [h]
  have := runBlocks_runSamples Biquad.cascadeStep blocks fs
  exact ⟨this.2.1, this.1⟩

/-- **C101.** The same for the multichannel biquad filter. -/
theorem C101_biquad {K : Type} [Add K] [Sub K] [Mul K] {C : ℕ} (f : Biquad.Filter K) (s : Fin C → K × K)
    (blocks : List (List (Fin C → K))) :
    (runBlocks (Biquad.processBlock f) s blocks).2.flatten = (Biquad.processBlock f s blocks.flatten).2 ∧
      (runBlocks (Biquad.processBlock f) s blocks).1 = (Biquad.processBlock f s blocks.flatten).1 := by
  have := runBlocks_runSamples (Biquad.stepMulti f) blocks s
  exact ⟨this.2.1, this.1⟩

/-- **C101.** For every arithmetic, `FirFilter` gives the same output and the same state however the stream is cut into
blocks, although it adds up an output sample partly in its state and partly in the output. -/
theorem C101_fir {R : Type} [Zero R] [Add R] [Mul R] (kernel : List R) (blocks : List (List R)) :
    ∃ st outs out, Fir.firRun kernel (Fir.firFilterInit kernel) blocks = .ok (st, outs) ∧
      Fir.firProcessBlock kernel (Fir.firFilterInit kernel) blocks.flatten = .ok (st, out) ∧ outs.flatten = out := by
  obtain ⟨st, outs, e1, i1, l1, g1⟩ := Fir.General.firRun_spec kernel blocks _ _ (Fir.General.inv_init kernel)
  obtain ⟨st', out, e2, i2, l2, g2⟩ :=
    Fir.General.firProcessBlock_spec kernel _ [] blocks.flatten (Fir.General.inv_init kernel)
  have hst : st' = st := by
    apply List.ext_getElem (by rw [i1.len, i2.len])
    intro j h1 h2
    have a1 := i1.val j (by rw [← i1.len]; exact h2)
    have a2 := i2.val j (by rw [← i2.len]; exact h1)
    rw [List.getD_eq_getElem _ _ h2] at a1
    rw [List.getD_eq_getElem _ _ h1] at a2
    rw [a1, a2]
  subst hst
  refine ⟨st', outs, out, e1, e2, ?_⟩
  have hl : outs.flatten.length = blocks.flatten.length := by rw [List.length_flatten, List.length_flatten, l1]
  apply List.ext_getElem (by rw [hl, l2])
  intro j h1 h2
  have a1 := g1 j (by omega)
  have a2 := g2 j (by omega)
  rw [List.getD_eq_getElem _ _ h1] at a1
  rw [List.getD_eq_getElem _ _ h2] at a2
  rw [a1, a2]

/-- **C101.** The same for `TwoTapFirFilter`. -/
theorem C101_two_tap {R : Type} [Zero R] [Add R] [Mul R] (g : Fir.TwoTap R) (s : R) (blocks : List (List R)) :
    (runBlocks (Fir.twoTapBlock g) s blocks).2.flatten = (Fir.twoTapBlock g s blocks.flatten).2 ∧
      (runBlocks (Fir.twoTapBlock g) s blocks).1 = (Fir.twoTapBlock g s blocks.flatten).1 := by
  have e : Fir.twoTapBlock g = runSamples (Fir.twoTapStep g) := by
    funext s xs; exact Fir.twoTapBlock_eq _ xs s
  rw [e]
  have := runBlocks_runSamples (Fir.twoTapStep g) blocks s
  exact ⟨this.2.1, this.1⟩

/-- **C101.** The same for `FIRFilter`. -/
theorem C101_fir_filter {R : Type} [Zero R] [Add R] [Mul R] (h st : List R) (blocks : List (List R)) :
    (runBlocks (runSamples (Fir.firStep h)) st blocks).2.flatten = (runSamples (Fir.firStep h) st blocks.flatten).2 ∧
      (runBlocks (runSamples (Fir.firStep h)) st blocks).1 = (runSamples (Fir.firStep h) st blocks.flatten).1 := by
  have := runBlocks_runSamples (Fir.firStep h) blocks st
  exact ⟨this.2.1, this.1⟩

/-! `float` numbers with rounded operations, which are not associative. -/

/-- A `float` without infinities and NaN. -/
structure Flt where
  val : ℚ
deriving DecidableEq

instance : Zero Flt := ⟨⟨0⟩⟩
instance : Add Flt := ⟨fun x y => ⟨Float32.f32 (x.val + y.val)⟩⟩
instance : Sub Flt := ⟨fun x y => ⟨Float32.f32 (x.val - y.val)⟩⟩
instance : Mul Flt := ⟨fun x y => ⟨Float32.f32 (x.val * y.val)⟩⟩

example : (⟨2 ^ 24⟩ + ⟨1⟩ + ⟨1⟩ : Flt) ≠ ⟨2 ^ 24⟩ + (⟨1⟩ + ⟨1⟩) := by decide +kernel

example : (Fir.firRun [⟨1⟩, ⟨1⟩, ⟨1⟩] (Fir.firFilterInit [⟨1⟩, ⟨1⟩, (⟨1⟩ : Flt)]) [[⟨2 ^ 24⟩], [⟨1⟩, ⟨1⟩]]).map (·.2.flatten) =
    .ok [⟨2 ^ 24⟩, ⟨2 ^ 24⟩, ⟨2 ^ 24⟩] := by decide +kernel

end Verif.BitExact
