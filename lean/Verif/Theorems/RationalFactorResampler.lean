import Verif.Theorems.Resampler
import Verif.Theorems.RationalApproximation
import Verif.Theorems.NumberUtil
import Verif.Proof.RationalFactorResampler
import Verif.Proof.ResamplerKernel

/-!
# C91, C92: the deprecated `RationalFactorResampler`

Specifications: `Verif/Spec/Resampler.lean` (the interpolation formula) and
`Verif/Spec/ResamplerKernel.lean` (the Kaiser-windowed sinc).
-/

namespace Verif.RationalFactorResampler

open Verif.Resampler (St makeQ GoodFactor StateOk Built runBlocks)

universe u

variable {R M : Type u} [Semiring R] [AddCommMonoid M] [Module R M]

theorem built (h : ℚ → R) (a b r : ℕ) : Built (makeQ h a b r) h a b r := Or.inr rfl

/-- **C91.** For every kernel, factor and radius, from every state between two calls, `ProcessSamples` and
`Flush` do what those of `QResampler` do with the same kernel. -/
theorem C91_same_as_q {h : ℚ → R} {a b r : ℕ} (hG : GoodFactor a b r) (s : St M)
    (hs : StateOk (makeQ h a b r) s) (input : List M) :
    process (init h a b r) s input = Resampler.process (makeQ h a b r) s input ∧
    flush (init h a b r) s = Resampler.flushQ (makeQ h a b r) s ∧
    (reset (init h a b r) : St M) = Resampler.reset (makeQ h a b r) ∧
    (resetFullyPrimed (init h a b r) : St M) = Resampler.resetFullyPrimed (makeQ h a b r) := by
  have key : ∀ input : List M, process (init h a b r) s input = Resampler.process (makeQ h a b r) s input := by
    intro input
    obtain ⟨ys, s', hp, -⟩ := (Resampler.C08_states_stay_valid (M := M) (built h a b r) hG).2.2 s input hs
    rw [process]
    split_ifs with hi
    · subst hi
      rw [Resampler.process, if_neg (not_not.2 hs.1), if_neg (not_not.2 hs.2), if_pos (by simpa using hs.1)]
      have hl : s.delayed.length + ([] : List M).length ≤ (makeQ h a b r).delayCap := by
        have := hs.1
        simp only [Resampler.Cfg.taps, makeQ, List.length_nil] at this ⊢
        omega
      rw [if_pos hl, List.append_nil]
    · rw [outputSize_eq h hG.1, hp]
      simp only
      rw [processEigen_eq h hG.1 s input _ hp]
      split_ifs with hlt
      · have h0 : Resampler.nextOutputSize (makeQ h a b r) s input.length = 0 := by
          rw [Resampler.nextOutputSize, if_pos]
          show 1 + input.length + s.delayed.length - (2 * r + 1) = 0
          omega
        rw [Resampler.process, if_neg (not_not.2 hs.1), if_neg (not_not.2 hs.2), if_pos (show s.delayed.length + input.length < (makeQ h a b r).taps from hlt)] at hp
        split_ifs at hp
        cases hp
        rw [h0]
        rfl
      · rfl
  refine ⟨key input, ?_, rfl, rfl⟩
  rw [flush, Resampler.flushQ]
  have e : List.replicate ((init h a b r).taps - 1) (0 : M) =
      List.replicate (Resampler.flushFrames (makeQ h a b r)) 0 := rfl
  rw [e, key]
  rfl

theorem runBlocks_same {h : ℚ → R} {a b r : ℕ} (hG : GoodFactor a b r) : ∀ (bs : List (List M)) (s : St M),
    StateOk (makeQ h a b r) s →
    runBlocks (process (init h a b r)) s bs = runBlocks (Resampler.process (makeQ h a b r)) s bs
  | [], s, _ => rfl
  | x :: bs, s, hs => by
    obtain ⟨ys, s', hp, hs'⟩ := (Resampler.C08_states_stay_valid (M := M) (built h a b r) hG).2.2 s x hs
    rw [runBlocks, runBlocks, (C91_same_as_q hG s hs x).1, hp]
    simp only [Option.bind_eq_bind, Option.bind_some]
    rw [runBlocks_same hG bs s' hs']

/-- **C91.** After construction or `Reset`, however the input is cut into blocks, output `m` is the
polyphase formula of the documentation, and is produced exactly when the input it depends on has arrived. -/
theorem C91_polyphase {h : ℚ → R} {a b r : ℕ} (hG : GoodFactor a b r) (bs : List (List M)) :
    ∃ yss s', runBlocks (process (init h a b r)) (reset (init h a b r)) bs = some (yss, s') ∧
      ∀ m, yss.flatten[m]? =
        if m * a / b + r < bs.flatten.length then some (Resampler.Spec.polyphase h a b r bs.flatten m)
        else none := by
  obtain ⟨yss, s', h1, h2⟩ := Resampler.C09_polyphase (M := M) (built h a b r) hG bs
  refine ⟨yss, s', ?_, h2⟩
  rw [← h1]
  exact runBlocks_same hG bs _ (Resampler.reset_ok ((built h a b r).wf hG))

/-- **C91.** For a kernel that vanishes outside `[-r, r]` that is the interpolation
`x'[m] = ∑ x[n] h(m a/b - n)`. -/
theorem C91_interpolates {h : ℚ → R} {a b r : ℕ} (hG : GoodFactor a b r)
    (hs : ∀ q : ℚ, (r : ℚ) + 1 / b ≤ |q| → h q = 0) (bs : List (List M)) :
    ∃ yss s', runBlocks (process (init h a b r)) (reset (init h a b r)) bs = some (yss, s') ∧
      ∀ m, yss.flatten[m]? =
        if m * a / b + r < bs.flatten.length then
          some (Resampler.Spec.interpolate h bs.flatten ((m : ℚ) * a / b)) else none := by
  obtain ⟨yss, s', k1, k2⟩ := C91_polyphase (h := h) hG bs
  refine ⟨yss, s', k1, fun m => ?_⟩
  rw [k2, Resampler.polyphase_interpolate h hG.2.1 hs]

/-- **C91.** After `ResetFullyPrimed` the output is delayed by `r` frames; blocks whose sizes are multiples
of the reduced numerator yield exactly `n b / a` frames each. -/
theorem C91_fully_primed {h : ℚ → R} {a b r : ℕ} (hG : GoodFactor a b r) (bs : List (List M)) :
    ∃ yss s', runBlocks (process (init h a b r)) (resetFullyPrimed (init h a b r)) bs = some (yss, s') ∧
      (∀ m, yss.flatten[m]? =
        if m * a / b < bs.flatten.length then
          some (Resampler.Spec.polyphase h a b r (List.replicate r 0 ++ bs.flatten) m) else none) ∧
      ((∀ x ∈ bs, a / Nat.gcd a b ∣ x.length) →
        yss.map (fun ys => ys.length * a) = bs.map (fun x => x.length * b)) := by
  obtain ⟨yss, s', h1, h2⟩ := Resampler.C09_polyphase_fully_primed (M := M) (built h a b r) hG bs
  refine ⟨yss, s', ?_, h2, fun hbs => ?_⟩
  · rw [← h1]
    exact runBlocks_same hG bs _ (Resampler.primed_ok ((built h a b r).wf hG))
  · obtain ⟨zss, t, h3, h4⟩ := Resampler.C10_fully_primed_exact (M := M) (built h a b r) hG bs hbs
    rw [h1] at h3
    cases h3
    exact h4

/-- **C91.** The whole signal in any blocks, then `Flush`: all outputs `m` with `⌊m a / b⌋ < n + r` are
produced, and the resampler is as after construction. -/
theorem C91_flush {h : ℚ → R} {a b r : ℕ} (hG : GoodFactor a b r) (bs : List (List M)) :
    ∃ yss s' zs, runBlocks (process (init h a b r)) (reset (init h a b r)) bs = some (yss, s') ∧
      flush (init h a b r) s' = some (zs, reset (init h a b r)) ∧
      ∀ m, (yss.flatten ++ zs)[m]? =
        if m * a / b < bs.flatten.length + r then some (Resampler.Spec.polyphase h a b r bs.flatten m)
        else none := by
  have hc := (built h a b r).wf hG
  have hr : StateOk (makeQ h a b r) (Resampler.reset (makeQ h a b r) : St M) := Resampler.reset_ok hc
  obtain ⟨yss, s', h1, h2⟩ := C91_polyphase (M := M) (h := h) hG (bs ++ [List.replicate (2 * r) 0])
  have hsplit : ∀ (proc : St M → List M → Option (List M × St M)) (bs : List (List M)) (x : List M) (s : St M)
      (yss : List (List M)) (s' : St M),
      runBlocks proc s (bs ++ [x]) = some (yss, s') →
      ∃ yss' t zs, runBlocks proc s bs = some (yss', t) ∧ proc t x = some (zs, s') ∧ yss = yss' ++ [zs] := by
    intro proc bs
    induction bs with
    | nil =>
      intro x s yss s' hrun
      rw [List.nil_append, runBlocks] at hrun
      simp only [Option.bind_eq_bind, Option.bind_eq_some_iff] at hrun
      obtain ⟨⟨ys, s1⟩, k1, ⟨yss2, s2⟩, k2, k3⟩ := hrun
      cases k2
      cases k3
      exact ⟨[], s, ys, rfl, k1, rfl⟩
    | cons y bs ih =>
      intro x s yss s' hrun
      rw [List.cons_append, runBlocks] at hrun
      simp only [Option.bind_eq_bind, Option.bind_eq_some_iff] at hrun
      obtain ⟨⟨ys, s1⟩, k1, ⟨yss2, s2⟩, k2, k3⟩ := hrun
      cases k3
      obtain ⟨yss', t, zs, g1, g2, g3⟩ := ih x s1 yss2 s2 k2
      refine ⟨ys :: yss', t, zs, ?_, g2, by rw [g3]; rfl⟩
      rw [runBlocks, k1]
      simp only [Option.bind_eq_bind, Option.bind_some, g1]
      rfl
  obtain ⟨yss', t, zs, g1, g2, g3⟩ := hsplit _ _ _ _ _ _ h1
  refine ⟨yss', t, zs, g1, ?_, fun m => ?_⟩
  · rw [flush]
    have e : List.replicate ((init h a b r).taps - 1) (0 : M) = List.replicate (2 * r) 0 := rfl
    rw [e, g2]
    rfl
  · have := h2 m
    rw [g3, List.flatten_append, List.flatten_singleton, List.flatten_append, List.flatten_singleton,
      Resampler.polyphase_append_zeros, List.length_append, List.length_replicate] at this
    rw [this]
    congr 1
    rw [eq_iff_iff]
    generalize m * a / b = z
    omega

/-- **C91.** `ProcessSamplesEigen` writes what `ProcessSamples` returns, if that many samples are
available that there is an output; and it always leaves the same state. -/
theorem C91_eigen_partial {h : ℚ → R} {a b r : ℕ} (hG : GoodFactor a b r) (s : St M)
    (hs : StateOk (makeQ h a b r) s) (input output : List M) :
    ∃ ys s', process (init h a b r) s input = some (ys, s') ∧
      processEigen (init h a b r) s input output =
        some (if s.delayed.length + input.length < 2 * r + 1 then output else ys, s') := by
  obtain ⟨ys, s', hp, -⟩ := (Resampler.C08_states_stay_valid (M := M) (built h a b r) hG).2.2 s input hs
  exact ⟨ys, s', (C91_same_as_q hG s hs input).1.trans hp, processEigen_eq h hG.1 s input output hp⟩

/-- Finding: if too few samples are available for an output, `ProcessSamplesEigen` does not empty the
caller's vector: the samples of the previous call stay in it and look like new output. -/
theorem C91_eigen_stale_violation :
    let c := init (fun q : ℚ => if |q| ≤ 1 then 1 - |q| else 0) 1 1 1
    processEigen c (reset c) [(3 : ℚ), 6, 9] [] = some ([3, 6], ⟨[6, 9], 0⟩) ∧
    processEigen c ⟨[(6 : ℚ), 9], 0⟩ [12] [3, 6] = some ([9], ⟨[9, 12], 0⟩) ∧
    processEigen c (reset c) [(3 : ℚ)] [7, 8] = some ([7, 8], ⟨[0, 3], 0⟩) ∧
    process c (reset c) [(3 : ℚ)] = some ([], ⟨[0, 3], 0⟩) := by
  decide +kernel

/-! ## Construction -/

/-- **C92.** The kernel is valid exactly for positive parameters with the cutoff at most at the input
Nyquist rate; the default parameters are valid for all positive rates. -/
theorem C92_kernel_valid (inputRate outputRate radius cutoff beta : ℝ) :
    ((kernelInit inputRate outputRate radius cutoff beta).isSome ↔
      0 < inputRate ∧ 0 < outputRate ∧ 0 < radius ∧ 0 < cutoff ∧ cutoff ≤ inputRate / 2 ∧ 0 < beta) ∧
    ((kernelDefault inputRate outputRate).isSome ↔ 0 < inputRate ∧ 0 < outputRate) := by
  have key : ∀ inputRate outputRate radius cutoff beta : ℝ,
      ((kernelInit inputRate outputRate radius cutoff beta).isSome ↔
      0 < inputRate ∧ 0 < outputRate ∧ 0 < radius ∧ 0 < cutoff ∧ cutoff ≤ inputRate / 2 ∧ 0 < beta) := by
    intro inputRate outputRate radius cutoff beta
    rw [kernelInit]
    split_ifs with h
    · refine ⟨fun h => (by simp at h), fun hg => ?_⟩
      obtain ⟨h1, h2, h3, h4, h5, h6⟩ := hg
      exfalso
      rcases h with h | h | h | h | h | h <;> linarith
    · push Not at h
      obtain ⟨h1, h2, h3, h4, h5, h6⟩ := h
      exact ⟨fun _ => ⟨h1, h2, h3, h4, by linarith, h6⟩, fun _ => rfl⟩
  refine ⟨key _ _ _ _ _, ?_⟩
  rw [kernelDefault, key]
  refine ⟨fun h => ⟨h.1, h.2.1⟩, fun ⟨h1, h2⟩ => ⟨h1, h2, ?_, ?_, ?_, by norm_num⟩⟩
  · split_ifs
    · norm_num
    · positivity
  · have := lt_min h1 h2; positivity
  · have := min_le_left inputRate outputRate; linarith

/-- **C92.** The kernel is even and vanishes beyond its radius (up to a relative `10⁻¹²`). -/
theorem C92_kernel_even_and_supported {inputRate outputRate radius cutoff beta : ℝ} {k : Kernel}
    (hk : kernelInit inputRate outputRate radius cutoff beta = some k) (x : ℝ) :
    k.radius = radius ∧ k.eval (-x) = k.eval x ∧ (radius * (1 + 1 / 10 ^ 12) < |x| → k.eval x = 0) := by
  have h1 := ResamplerKernel.old_eval hk x
  have h2 := ResamplerKernel.old_eval hk (-x)
  have hr := h1.1.2.2.1
  refine ⟨?_, ?_, fun hx => ?_⟩
  · rw [kernelInit] at hk
    split_ifs at hk
    cases hk
    rfl
  · rw [h1.2, h2.2, abs_neg, mul_neg]
    congr 2
    rw [sinc, sinc, abs_neg, Real.sin_neg, neg_div_neg_eq]
  · have hy : 1 + 1 / 10 ^ 12 < |x| / radius := by rw [lt_div_iff₀ hr]; linarith
    have hn : (0 : ℝ) < 1 / 10 ^ 12 := by norm_num
    rw [h1.2, if_neg (show ¬ |x| / radius < 1 / 10 ^ 12 by linarith), if_pos hy, mul_zero]

/-- **C92.** The kernel is the Kaiser-windowed sinc, with an error of at most `5·10⁻¹⁵` of its value at 0. -/
theorem C92_kernel_accuracy {inputRate outputRate radius cutoff beta : ℝ} {k : Kernel}
    (hk : kernelInit inputRate outputRate radius cutoff beta = some k)
    (hbeta : beta ≤ 10 ^ 8) (x : ℝ) (hx : |x| ≤ radius ∨ radius * (1 + 1 / 10 ^ 12) < |x|) :
    |k.eval x - ResamplerKernel.Spec.kernel (2 * cutoff / inputRate) radius beta x|
      ≤ 5 / 10 ^ 15 * (2 * cutoff / inputRate) :=
  ResamplerKernel.old_close hk hbeta x hx

/-- **C09.** So is the kernel of the C resampler and of `QResampler`, for `beta` below 21 (the documented
range of its Bessel function is 20). -/
theorem C09_kernel_accuracy {inputRate outputRate radiusFactor cutoff beta : ℝ} {k : Resampler.Kernel.Kernel}
    (hk : Resampler.Kernel.init inputRate outputRate radiusFactor cutoff beta = some k)
    (hbeta : beta < 21) (x : ℝ) (hx : |x| ≤ k.radius ∨ k.radius * (1 + 100 / 2 ^ 52) < |x|) :
    |Resampler.Kernel.eval k x -
        ResamplerKernel.Spec.kernel (cutoff / max 1 (inputRate / outputRate)) k.radius beta x|
      ≤ 5 / 10 ^ 15 * (cutoff / max 1 (inputRate / outputRate)) :=
  ResamplerKernel.new_close hk hbeta x hx

/-- **C92.** The constructor with an explicit factor is valid exactly for a valid kernel and positive
numbers, and uses the reduced fraction. -/
theorem C92_factor (k : Option Kernel) (num den : ℤ) :
    ((constructFactor k num den).isSome ↔ k.isSome ∧ 0 < num ∧ 0 < den) ∧
    ∀ c, constructFactor k num den = some c →
      0 < c.num ∧ 0 < c.den ∧ Nat.Coprime c.num c.den ∧ (c.num : ℤ) * den = num * c.den ∧
      ∃ k', k = some k' ∧ c = init (fun q => k'.eval (q : ℝ)) c.num c.den ⌈k'.radius⌉₊ := by
  rcases k with - | k
  · exact ⟨by simp [constructFactor], fun c hc => by cases hc⟩
  · rw [constructFactor]
    simp only
    split_ifs with h
    · refine ⟨⟨fun h => (by simp at h), fun hg => ?_⟩, fun c hc => (by cases hc)⟩
      exfalso
      rcases h with h | h
      · exact absurd hg.2.1 (not_lt.2 h)
      · exact absurd hg.2.2 (not_lt.2 h)
    · push Not at h
      refine ⟨⟨fun _ => ⟨rfl, h⟩, fun _ => rfl⟩, fun c hc => ?_⟩
      obtain ⟨n, rfl⟩ := Int.eq_ofNat_of_zero_le h.1.le
      obtain ⟨d, rfl⟩ := Int.eq_ofNat_of_zero_le h.2.le
      have hn : 0 < n := by exact_mod_cast h.1
      have hd : 0 < d := by exact_mod_cast h.2
      rw [NumberUtil.gcdLoop_eq _ _ h.1.le h.2.le] at hc
      have hg : 0 < Nat.gcd n d := Nat.gcd_pos_of_pos_left _ hn
      have e1 : (((n : ℤ) / ((Int.gcd (n : ℤ) (d : ℤ) : ℕ) : ℤ))).toNat = n / Nat.gcd n d := by
        rw [Int.gcd_natCast_natCast, ← Int.natCast_div, Int.toNat_natCast]
      have e2 : (((d : ℤ) / ((Int.gcd (n : ℤ) (d : ℤ) : ℕ) : ℤ))).toNat = d / Nat.gcd n d := by
        rw [Int.gcd_natCast_natCast, ← Int.natCast_div, Int.toNat_natCast]
      rw [e1, e2] at hc
      cases hc
      have g1 := Nat.div_mul_cancel (Nat.gcd_dvd_left n d)
      have g2 := Nat.div_mul_cancel (Nat.gcd_dvd_right n d)
      refine ⟨Nat.div_pos (Nat.gcd_le_left d hn) hg, Nat.div_pos (Nat.gcd_le_right n hd) hg,
        Nat.coprime_div_gcd_div_gcd hg, ?_, k, rfl, rfl⟩
      show ((n / Nat.gcd n d : ℕ) : ℤ) * d = n * ((d / Nat.gcd n d : ℕ) : ℤ)
      have : n / Nat.gcd n d * d = n * (d / Nat.gcd n d) := by
        generalize n / Nat.gcd n d = x at *
        generalize d / Nat.gcd n d = y at *
        generalize Nat.gcd n d = g at *
        subst g1
        rw [← g2]
        ring
      exact_mod_cast this

/-- **C92.** The constructor that takes the factor from the kernel uses a closest fraction with an allowed
denominator. -/
theorem C92_approximated_factor (k : Kernel) {maxDen : ℤ} (h1 : 1 ≤ maxDen) (h2 : maxDen ≤ 499999999)
    (hin : 0 < k.inputRate) (hout : 0 < k.outputRate) :
    ∃ a b : ℕ, construct (some k) maxDen = some (init (fun q => k.eval (q : ℝ)) a b ⌈k.radius⌉₊) ∧
      1 ≤ b ∧ (b : ℤ) ≤ maxDen ∧ Nat.Coprime a b ∧
      RationalApproximation.Closest (k.inputRate / k.outputRate) maxDen a b := by
  obtain ⟨a, b, e, hb1, hb2, hg, hc⟩ :=
    RationalApproximation.C11_default_best_partial (value := k.inputRate / k.outputRate) h1 h2
  have hv : 0 < k.inputRate / k.outputRate := div_pos hin hout
  have ha : 0 ≤ a := by
    by_contra hn
    push Not at hn
    have h0 := hc 0 1 le_rfl h1 (by norm_num)
    have hab : (a : ℝ) / b < 0 := div_neg_of_neg_of_pos (by exact_mod_cast hn) (by exact_mod_cast hb1)
    rw [abs_of_pos (by linarith), Int.cast_zero, zero_div, sub_zero, abs_of_pos hv] at h0
    linarith
  obtain ⟨a, rfl⟩ := Int.eq_ofNat_of_zero_le ha
  obtain ⟨b, rfl⟩ := Int.eq_ofNat_of_zero_le (by omega : 0 ≤ b)
  refine ⟨a, b, ?_, by exact_mod_cast hb1, hb2, by exact_mod_cast hg, hc⟩
  rw [construct]
  simp only [if_neg (show ¬ maxDen ≤ 0 by omega), e, Option.bind_eq_bind, Option.bind_some]
  rfl

/-- Finding: upsampling by more than twice `max_denominator` is accepted, with the factor 0 by which
`ProcessSamples` divides. -/
theorem C92_zero_factor_violation (k : Kernel) (hk : k.inputRate / k.outputRate = 1 / 2500) :
    ∃ c, construct (some k) 1000 = some c ∧ c.num = 0 ∧
      ∀ x : List ℝ, c.radius < x.length → process c (reset c) x = none := by
  obtain ⟨a, b, e, hb1, hb2, hg, hc⟩ :=
    RationalApproximation.C11_default_best_partial (value := k.inputRate / k.outputRate) (maxDen := 1000)
      (by norm_num) (by norm_num)
  have h0 := hc 0 1 le_rfl (by norm_num) (by norm_num)
  have hb : (0 : ℝ) < b := by exact_mod_cast hb1
  have hb' : (b : ℝ) ≤ 1000 := by exact_mod_cast hb2
  have ha : a = 0 := by
    rw [hk, Int.cast_zero, zero_div, sub_zero, abs_of_pos (by norm_num : (0 : ℝ) < 1 / 2500)] at h0
    have h3 := abs_le.1 h0
    have h4 : |(a : ℝ) / b| < 1 / b := by
      have : (1 : ℝ) / 1000 ≤ 1 / b := one_div_le_one_div_of_le hb hb'
      rw [abs_lt]
      constructor <;> linarith
    rw [abs_div, abs_of_pos hb, div_lt_div_iff_of_pos_right hb] at h4
    have : |a| < 1 := by exact_mod_cast h4
    exact Int.abs_lt_one_iff.1 this
  subst ha
  refine ⟨init (fun q => k.eval (q : ℝ)) 0 b.toNat ⌈k.radius⌉₊, ?_, rfl, fun x hx => ?_⟩
  · rw [construct]
    simp only [if_neg (show ¬ (1000 : ℤ) ≤ 0 by norm_num), e, Option.bind_eq_bind, Option.bind_some]
    rfl
  · have hx' : ⌈k.radius⌉₊ < x.length := hx
    have hne : x ≠ [] := by rintro rfl; simp at hx'
    rw [process, if_neg hne, outputSize]
    have e1 : (reset (init (fun q => k.eval (q : ℝ)) 0 b.toNat ⌈k.radius⌉₊) : St ℝ).delayed.length = ⌈k.radius⌉₊ :=
      List.length_replicate
    have e2 : (init (fun q => k.eval (q : ℝ)) 0 b.toNat ⌈k.radius⌉₊).taps = 2 * ⌈k.radius⌉₊ + 1 := rfl
    have e3 : (init (fun q => k.eval (q : ℝ)) 0 b.toNat ⌈k.radius⌉₊).num = 0 := rfl
    simp only [e1, e2, e3]
    rw [if_neg (by omega)]
    simp

/-- Finding: a radius that is small against the factor is accepted, and the first call with enough samples
for an output steps beyond the end of its input (`DCHECK_LE(i, input.size())` fails; without it, the new
size of the delayed input is negative). -/
theorem C91_short_filter_violation (h : ℚ → R) (x y : M) :
    process (init h 4 1 1) (reset (init h 4 1 1)) [x, y] = none := by
  simp [process, processEigen, outputSize, reset, init, Cfg.taps, straddleLoop, inputLoop, dot, segment, advance,
    List.range_succ]

/-! ## Migration to `QResampler` -/

/-- The documented conversion of the kernel parameters. -/
noncomputable def convertedKernel (inputRate outputRate radius cutoff beta : ℝ) : Option Resampler.Kernel.Kernel :=
  Resampler.Kernel.init inputRate outputRate (radius * min 1 (outputRate / inputRate))
    (2 * cutoff / min inputRate outputRate) beta

theorem converted {inputRate outputRate radius cutoff beta : ℝ} {k : Kernel}
    (hk : kernelInit inputRate outputRate radius cutoff beta = some k) :
    ((convertedKernel inputRate outputRate radius cutoff beta).isSome ↔ cutoff ≤ min inputRate outputRate / 2) ∧
    ∀ k', convertedKernel inputRate outputRate radius cutoff beta = some k' →
      k'.radius = radius ∧
      2 * cutoff / min inputRate outputRate / max 1 (inputRate / outputRate) = 2 * cutoff / inputRate := by
  obtain ⟨⟨h1, h2, h3, h4, h5, h6⟩, -⟩ := ResamplerKernel.old_eval hk 0
  have hmin : 0 < min inputRate outputRate := lt_min h1 h2
  have hmul : min 1 (outputRate / inputRate) * max 1 (inputRate / outputRate) = 1 := by
    rcases le_total inputRate outputRate with h | h
    · rw [min_eq_left ((one_le_div h1).2 h), max_eq_left ((div_le_one h2).2 h), mul_one]
    · rw [min_eq_right ((div_le_one h1).2 h), max_eq_right ((one_le_div h2).2 h)]
      field_simp
  have hmm : min inputRate outputRate * max 1 (inputRate / outputRate) = inputRate := by
    have : min inputRate outputRate = inputRate * min 1 (outputRate / inputRate) := by
      rcases le_total inputRate outputRate with h | h
      · rw [min_eq_left h, min_eq_left ((one_le_div h1).2 h), mul_one]
      · rw [min_eq_right h, min_eq_right ((div_le_one h1).2 h)]
        field_simp
    rw [this, mul_assoc, hmul, mul_one]
  have hI := Resampler.C09_kernel_init inputRate outputRate (radius * min 1 (outputRate / inputRate))
    (2 * cutoff / min inputRate outputRate) beta
  refine ⟨?_, fun k' hk' => ⟨?_, ?_⟩⟩
  · rw [convertedKernel, Option.isSome_iff_exists, hI.1, div_le_one hmin]
    refine ⟨fun h => by linarith [h.2.2.2.2.1], fun h => ⟨h1, h2, ?_, by positivity, by linarith, h6⟩⟩
    exact mul_pos h3 (lt_min one_pos (div_pos h2 h1))
  · rw [(hI.2 k' hk').2.1, mul_assoc, hmul, mul_one]
  · rw [div_div, hmm]

/-- **C92.** Migration: the converted parameters are accepted exactly if the cutoff is not above the smaller
of the two Nyquist rates; then the radius is the same and the kernels differ by at most `10⁻¹⁴` of the value
at 0, for `beta` below 21. -/
theorem C92_migration_kernel {inputRate outputRate radius cutoff beta : ℝ} {k : Kernel}
    (hk : kernelInit inputRate outputRate radius cutoff beta = some k) :
    ((convertedKernel inputRate outputRate radius cutoff beta).isSome ↔ cutoff ≤ min inputRate outputRate / 2) ∧
    ∀ k', convertedKernel inputRate outputRate radius cutoff beta = some k' →
      k'.radius = radius ∧
      (beta < 21 → ∀ x : ℝ, |x| ≤ radius ∨ radius * (1 + 1 / 10 ^ 12) < |x| →
        |k.eval x - Resampler.Kernel.eval k' x| ≤ 1 / 10 ^ 14 * (2 * cutoff / inputRate)) := by
  refine ⟨(converted hk).1, fun k' hk' => ⟨((converted hk).2 k' hk').1, fun hb x hx => ?_⟩⟩
  obtain ⟨e1, e2⟩ := (converted hk).2 k' hk'
  have hr : 0 < radius := (ResamplerKernel.old_eval hk 0).1.2.2.1
  have h1 := C92_kernel_accuracy hk (by linarith) x hx
  have h2 := C09_kernel_accuracy hk' hb x (by
    rw [e1]
    refine hx.imp_right fun h => lt_of_le_of_lt ?_ h
    refine mul_le_mul_of_nonneg_left ?_ hr.le
    norm_num)
  rw [e1, e2] at h2
  have := abs_sub_le (k.eval x) (ResamplerKernel.Spec.kernel (2 * cutoff / inputRate) radius beta x)
    (Resampler.Kernel.eval k' x)
  rw [abs_sub_comm (ResamplerKernel.Spec.kernel _ _ _ _)] at this
  linarith

/-- Finding: the parameters are not equivalent. The deprecated kernel accepts a cutoff between the output
and the input Nyquist rates; the converted parameters are then rejected. -/
theorem C92_migration_violation :
    (kernelInit 48000 16000 15 10000 6).isSome ∧ (convertedKernel 48000 16000 15 10000 6) = none := by
  have h := ((C92_kernel_valid 48000 16000 15 10000 6).1).2 (by norm_num)
  refine ⟨h, ?_⟩
  obtain ⟨k, hk⟩ := Option.isSome_iff_exists.1 h
  have h2 := (converted hk).1
  rw [← Option.not_isSome_iff_eq_none, h2]
  norm_num

/-- A sample point of the filters is not in the zone just outside the radius where only the deprecated
kernel is nonzero. -/
def Clear (radius : ℝ) (b : ℕ) : Prop :=
  ∀ (p : ℕ) (j : ℤ), |(p : ℝ) / b + j| ≤ radius ∨ radius * (1 + 1 / 10 ^ 12) < |(p : ℝ) / b + j|

/-- That is so for an integer radius (as for the default parameters when upsampling). -/
theorem C92_clear_integer {r b : ℕ} (hb : 0 < b) (hrb : r * b < 10 ^ 12) : Clear r b := by
  intro p j
  have hb' : (0 : ℝ) < b := by exact_mod_cast hb
  have e : |(p : ℝ) / b + j| = ((|(p : ℤ) + j * b| : ℤ) : ℝ) / b := by
    rw [Int.cast_abs]
    push_cast
    rw [← abs_of_pos hb', ← abs_div, abs_of_pos hb']
    congr 1
    field_simp
  rw [e]
  rcases le_or_gt (|(p : ℤ) + j * b|) (r * b : ℤ) with h | h
  · left
    rw [div_le_iff₀ hb']
    exact_mod_cast h
  · right
    rw [lt_div_iff₀ hb']
    have h1 : ((r : ℝ) * b + 1) ≤ ((|(p : ℤ) + j * b| : ℤ) : ℝ) := by exact_mod_cast h
    have h2 : (r : ℝ) * b < 10 ^ 12 := by exact_mod_cast hrb
    have h3 : (r : ℝ) * b * (1 / 10 ^ 12) < 1 := by
      rw [mul_one_div, div_lt_one (by norm_num)]; exact h2
    linarith

/-- **C92.** Migration: with the converted parameters `QResampler` gives as many outputs, and for input
bounded by `B` each differs by at most `10⁻¹⁴ (2 r + 1) B` times the kernel's value at 0. -/
theorem C92_migration {inputRate outputRate radius cutoff beta : ℝ} {k : Kernel} {k' : Resampler.Kernel.Kernel}
    (hk : kernelInit inputRate outputRate radius cutoff beta = some k)
    (hk' : convertedKernel inputRate outputRate radius cutoff beta = some k') (hbeta : beta < 21)
    {a b : ℕ} (hG : GoodFactor a b ⌈radius⌉₊) (hC : Clear radius b) (bs : List (List ℝ)) {B : ℝ}
    (hB : ∀ v ∈ bs.flatten, |v| ≤ B) :
    let c := init (fun q : ℚ => k.eval (q : ℝ)) a b ⌈k.radius⌉₊
    let c' := makeQ (fun q : ℚ => Resampler.Kernel.eval k' (q : ℝ)) a b ⌈k'.radius⌉₊
    ∃ yss s zss t, runBlocks (process c) (reset c) bs = some (yss, s) ∧
      runBlocks (Resampler.process c') (Resampler.reset c') bs = some (zss, t) ∧
      yss.flatten.length = zss.flatten.length ∧
      ∀ (m : ℕ) (y z : ℝ), yss.flatten[m]? = some y → zss.flatten[m]? = some z →
        |y - z| ≤ 1 / 10 ^ 14 * (2 * cutoff / inputRate) * ((2 * ⌈radius⌉₊ + 1) * B) := by
  intro c c'
  have er : k.radius = radius := (C92_kernel_even_and_supported hk 0).1
  have er' : k'.radius = radius := ((C92_migration_kernel hk).2 k' hk').1
  have hclose := ((C92_migration_kernel hk).2 k' hk').2 hbeta
  obtain ⟨⟨p1, p2, p3, p4, -, -⟩, -⟩ := ResamplerKernel.old_eval hk 0
  obtain ⟨yss, s, h1, h2⟩ := C91_polyphase (h := fun q : ℚ => k.eval (q : ℝ)) (er ▸ hG : GoodFactor a b ⌈k.radius⌉₊) bs
  obtain ⟨zss, t, h3, h4⟩ := Resampler.C09_polyphase (built (fun q : ℚ => Resampler.Kernel.eval k' (q : ℝ)) a b ⌈k'.radius⌉₊)
    (er' ▸ hG : GoodFactor a b ⌈k'.radius⌉₊) bs
  rw [er] at h2
  rw [er'] at h4
  refine ⟨yss, s, zss, t, h1, h3, ?_, fun m y z hy hz => ?_⟩
  · have hiff : ∀ m, m < yss.flatten.length ↔ m < zss.flatten.length := by
      intro m
      rw [← not_le, ← not_le, ← List.getElem?_eq_none_iff, ← List.getElem?_eq_none_iff, h2, h4]
      split_ifs <;> simp
    rcases lt_trichotomy yss.flatten.length zss.flatten.length with h | h | h
    · exact absurd ((hiff _).2 h) (lt_irrefl _)
    · exact h
    · exact absurd ((hiff _).1 h) (lt_irrefl _)
  · rw [h2] at hy
    rw [h4] at hz
    split_ifs at hy hz
    cases hy
    cases hz
    generalize hx : bs.flatten = x at *
    have hB0 : 0 ≤ B ∨ x = [] := by
      rcases x with - | ⟨v, x⟩
      · exact Or.inr rfl
      · exact Or.inl ((abs_nonneg v).trans (hB v (by simp)))
    have hth : 0 < 2 * cutoff / inputRate := by positivity
    rcases hB0 with hB0 | hnil
    swap
    · rename_i hlt
      rw [hnil] at hlt
      simp at hlt
    unfold Resampler.Spec.polyphase
    rw [← Finset.sum_sub_distrib]
    refine (Finset.abs_sum_le_sum_abs _ _).trans ?_
    have hterm : ∀ n ∈ Finset.range x.length,
        |(if m * a / b ≤ n + ⌈radius⌉₊ ∧ n ≤ m * a / b + ⌈radius⌉₊ then
          k.eval (((((m * a % b : ℕ) : ℚ) / (b : ℚ) + (((m * a / b : ℕ) : ℚ) - (n : ℚ)) : ℚ)) : ℝ) • x.getD n 0 else 0) -
        (if m * a / b ≤ n + ⌈radius⌉₊ ∧ n ≤ m * a / b + ⌈radius⌉₊ then
          Resampler.Kernel.eval k' (((((m * a % b : ℕ) : ℚ) / (b : ℚ) + (((m * a / b : ℕ) : ℚ) - (n : ℚ)) : ℚ)) : ℝ) • x.getD n 0
          else 0)|
        ≤ if n ∈ Finset.Icc (m * a / b - ⌈radius⌉₊) (m * a / b + ⌈radius⌉₊) then
            1 / 10 ^ 14 * (2 * cutoff / inputRate) * B else 0 := by
      intro n hn
      rw [Finset.mem_range] at hn
      by_cases hin : m * a / b ≤ n + ⌈radius⌉₊ ∧ n ≤ m * a / b + ⌈radius⌉₊
      · have hin' : n ∈ Finset.Icc (m * a / b - ⌈radius⌉₊) (m * a / b + ⌈radius⌉₊) := by
          rw [Finset.mem_Icc]
          generalize m * a / b = q at *
          omega
        rw [if_pos hin, if_pos hin, if_pos hin', smul_eq_mul, smul_eq_mul, ← sub_mul, abs_mul]
        have hcl := hC (m * a % b) (((m * a / b : ℕ) : ℤ) - (n : ℤ))
        refine mul_le_mul (hclose _ ?_) ?_ (abs_nonneg _) (by positivity)
        · push_cast at hcl ⊢
          exact hcl
        · rw [List.getD_eq_getElem _ _ hn]
          exact hB _ (List.getElem_mem hn)
      · rw [if_neg hin, if_neg hin, sub_zero, abs_zero]
        split_ifs
        · positivity
        · exact le_rfl
    refine (Finset.sum_le_sum hterm).trans ?_
    rw [Finset.sum_ite_mem, Finset.sum_const, nsmul_eq_mul]
    have hcard : ((Finset.range x.length ∩ Finset.Icc (m * a / b - ⌈radius⌉₊) (m * a / b + ⌈radius⌉₊)).card : ℝ)
        ≤ 2 * ⌈radius⌉₊ + 1 := by
      have h5 := Finset.card_le_card (Finset.inter_subset_right (s₁ := Finset.range x.length)
        (s₂ := Finset.Icc (m * a / b - ⌈radius⌉₊) (m * a / b + ⌈radius⌉₊)))
      rw [Nat.card_Icc] at h5
      have h6 : m * a / b + ⌈radius⌉₊ + 1 - (m * a / b - ⌈radius⌉₊) ≤ 2 * ⌈radius⌉₊ + 1 := by
        generalize m * a / b = q
        omega
      exact_mod_cast h5.trans h6
    have h7 : 0 ≤ 1 / 10 ^ 14 * (2 * cutoff / inputRate) * B := by positivity
    refine (mul_le_mul_of_nonneg_right hcard h7).trans (le_of_eq (by ring))

/-! ## The hypotheses are met -/

example : runBlocks (process (init (fun q : ℚ => 1 - q) 3 2 1)) (reset (init (fun q : ℚ => 1 - q) 3 2 1))
    [[(1 : ℚ)], [2, 3], [], [4, 5]] =
    some ([[], [5, 5], [], [14]], ⟨[4, 5], 1⟩) := by decide +kernel

example : flush (init (fun q : ℚ => if |q| ≤ 1 then 1 - |q| else 0) 2 3 1) ⟨[(0 : ℚ), 9], 0⟩ =
    some ([9, 3, 0], ⟨[0], 0⟩) := by decide +kernel

/-- 44.1 kHz to 48 kHz with the default parameters. -/
example : ∃ k k', kernelInit 44100 48000 5 (45 / 100 * 44100) 6 = some k ∧
    convertedKernel 44100 48000 5 (45 / 100 * 44100) 6 = some k' ∧ GoodFactor 147 160 ⌈(5 : ℝ)⌉₊ ∧ Clear 5 160 := by
  obtain ⟨k, hk⟩ := Option.isSome_iff_exists.1 (((C92_kernel_valid 44100 48000 5 (45 / 100 * 44100) 6).1).2 (by norm_num))
  obtain ⟨k', hk'⟩ := Option.isSome_iff_exists.1 ((C92_migration_kernel hk).1.2 (by norm_num))
  refine ⟨k, k', hk, hk', ?_, ?_⟩
  · have : ⌈(5 : ℝ)⌉₊ = 5 := by norm_num
    rw [this]
    decide
  · have := C92_clear_integer (r := 5) (b := 160) (by norm_num) (by norm_num)
    exact_mod_cast this

end Verif.RationalFactorResampler
