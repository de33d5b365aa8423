import Verif.Proof.SpectralProcessor
import Verif.Proof.SpectrogramPr
import Verif.Theorems.NumberUtil

/-!
# C17: `SpectralProcessor` outputs the delayed overlap-add of the processed blocks
-/

namespace Verif.SpectralProcessor

open Spec

section
variable {α M σ : Type} [Zero α] [AddCommMonoid M]

/-- What the constructor computes: the latency is the block length minus the greatest common divisor of
the hop size and the chunk lengths. -/
theorem configure_good {nIn windowSize block hop : ℤ} {lens : List ℤ} {c : Config}
    (h : configure nIn lens windowSize block hop = some c) (hh : 1 ≤ hop) (hb : hop ≤ block)
    (hl : ∀ l ∈ lens, 1 ≤ l) :
    ∃ D : ℕ, Good c D ∧ (∀ l ∈ lens, (D : ℤ) ∣ l) ∧ (∀ d : ℤ, d ∣ hop → (∀ l ∈ lens, d ∣ l) → d ∣ D) ∧
      (c.nIn : ℤ) = nIn ∧ (c.block : ℤ) = block ∧ (c.hop : ℤ) = hop ∧ 0 < c.maxChunk ∧
      (∀ l ∈ lens, l ≤ c.maxChunk) := by
  unfold configure at h
  cases hm : lens.max? with
  | none => rw [hm] at h; simp at h
  | some mx =>
    obtain ⟨g, g1, g2, g3, g4⟩ := NumberUtil.C12_gcd_vector (l := lens ++ [hop]) (by simp) (by
      intro x hx
      rcases List.mem_append.1 hx with hx | hx
      · have := hl x hx; omega
      · simp at hx; omega)
    rw [hm, g1] at h
    simp only [Option.bind_eq_bind, Option.bind_some] at h
    split at h
    · simp at h
    rename_i h1
    split at h
    · simp at h
    rename_i h2
    split at h
    · simp at h
    simp only [Option.pure_def, Option.some.injEq] at h
    subst h
    have hgh : g ∣ hop := g3 hop (by simp)
    have hg0 : g ≠ 0 := by
      rintro rfl
      rw [zero_dvd_iff] at hgh
      omega
    have hmx := (List.max?_eq_some_iff.1 hm)
    refine ⟨g.toNat, ⟨?_, ?_, ?_, ?_, ?_, ?_⟩, ?_, ?_, ?_, ?_, ?_, ?_, ?_⟩
    · show 0 < nIn.toNat
      omega
    · show 0 < hop.toNat
      omega
    · show hop.toNat ≤ block.toNat
      omega
    · omega
    · show g.toNat ∣ hop.toNat
      have e1 : ((g.toNat : ℕ) : ℤ) = g := by omega
      have e2 : ((hop.toNat : ℕ) : ℤ) = hop := by omega
      rw [← Int.natCast_dvd_natCast, e1, e2]
      exact hgh
    · show (block - g).toNat + g.toNat = block.toNat
      omega
    · intro l hl'
      rw [Int.toNat_of_nonneg g2]
      exact g3 l (by simp [hl'])
    · intro d hd hd'
      rw [Int.toNat_of_nonneg g2]
      apply g4
      intro x hx
      rcases List.mem_append.1 hx with hx | hx
      · exact hd' x hx
      · simp at hx; rw [hx]; exact hd
    · show (nIn.toNat : ℤ) = nIn
      omega
    · show (block.toNat : ℤ) = block
      omega
    · show (hop.toNat : ℤ) = hop
      omega
    · show 0 < mx.toNat
      omega
    · intro l hl'
      have := hmx.2 l hl'
      show l ≤ (mx.toNat : ℤ)
      omega

/-- C17, for hop sizes up to the block length and positive chunk lengths. After construction or `Reset`
(from any state), for every sequence of chunks of the announced lengths, no call fails; each output chunk
has the length of the input chunk; output column `t` is the overlap-add at spacing `hop` of the processed
blocks (each of them complete) of the input delayed by `latency_frames()` zero columns, which is the block length minus the
greatest common divisor of the hop size and the chunk lengths. -/
theorem C17_overlap_add_partial (nIn windowSize block hop : ℤ) (lens : List ℤ) (c : Config)
    (h : configure nIn lens windowSize block hop = some c) (hh : 1 ≤ hop) (hb : hop ≤ block)
    (hl : ∀ l ∈ lens, 1 ≤ l) (f : σ → List (List α) → σ × List M)
    (hf : ∀ s b, (b.length : ℤ) = block → ((f s b).2.length : ℤ) = block) (s : State α M σ) :
    ((c.delay : ℤ) = block - (c.block - c.delay : ℕ) ∧
      ∀ d : ℤ, d ∣ ((c.block - c.delay : ℕ) : ℤ) ↔ d ∣ hop ∧ ∀ l ∈ lens, d ∣ l) ∧
    ∃ s1, reset c s = some s1 ∧
    ∀ chunks : List (List (List α)),
      (∀ k ∈ chunks, (k.length : ℤ) ∈ lens ∧ ∀ col ∈ k, (col.length : ℤ) = nIn) →
    ∃ outs s' n, processAll c f s1 chunks = some (outs, s') ∧
      outs.map List.length = chunks.map List.length ∧
      (chunks.flatten.length ≤ n * hop.toNat ∧ (n = 0 ∨ (n - 1) * hop.toNat < chunks.flatten.length)) ∧
      (n = 0 ∨ (n - 1) * hop.toNat + block.toNat ≤ c.delay + chunks.flatten.length) ∧
      s'.cb = (processed f s.cb (List.replicate c.delay (List.replicate nIn.toNat 0) ++ chunks.flatten)
          block.toNat hop.toNat n).1 ∧
      ∀ t, t < chunks.flatten.length → outs.flatten.getD t 0 =
        overlapAdd (processed f s.cb (List.replicate c.delay (List.replicate nIn.toNat 0) ++ chunks.flatten)
          block.toNat hop.toNat n).2 hop.toNat t := by
  obtain ⟨D, hg, hd1, hd2, e1, e2, e3, hm, hmx⟩ := configure_good h hh hb hl
  have hdel := hg.delay
  have q1 : nIn.toNat = c.nIn := by omega
  have q2 : block.toNat = c.block := by omega
  have q3 : hop.toNat = c.hop := by omega
  have hD : c.block - c.delay = D := by omega
  refine ⟨⟨by omega, fun d => ?_⟩, ?_⟩
  · rw [hD]
    constructor
    · intro hd
      refine ⟨hd.trans ?_, fun l hl' => hd.trans (hd1 l hl')⟩
      rw [← e3]
      exact_mod_cast hg.dvd
    · rintro ⟨h1, h2⟩
      exact hd2 d h1 h2
  · have hf' : ∀ s b, b.length = c.block → (f s b).2.length = c.block := by
      intro s b hbl
      have := hf s b (by omega)
      omega
    obtain ⟨s1, r1, r2, r3⟩ := reset_between hg hm f s
    refine ⟨s1, r1, fun chunks hc => ?_⟩
    obtain ⟨n, outs, s', a1, a2, a3, ad, a4, a5⟩ := Between.all hg hf' chunks r3 (dvd_zero D) (by
      intro i hi
      obtain ⟨i1, i2⟩ := hc i hi
      refine ⟨fun k hk => ?_, ?_, ?_, ?_⟩
      · have := i2 k hk; omega
      · have := hl _ i1; omega
      · have := hmx _ i1; omega
      · exact_mod_cast hd1 _ i1)
    rw [q1, q2, q3]
    simp only [zero_add] at a2 a5 ad
    refine ⟨outs, s', n, a1, a4, ⟨?_, a2.small⟩, by simpa using a2.fits hg ad, a2.cb, a5⟩
    have := a2.pos
    omega

/-- The constructor ends with `Reset`. -/
theorem C17_construct (c : Config) (cb : σ) :
    (construct c cb : Option (State α M σ)) = reset c ⟨CircularBuffer.fresh, [], 0, cb⟩ := rfl

end

/-- The processed blocks of a stateless function. -/
theorem processed_stateless {F M σ : Type} [AddCommMonoid M] (g : List F → List M) (s0 : σ) (x : List F)
    (B H : ℕ) : ∀ n, (processed (fun s b => (s, g b)) s0 x B H n).2 =
      (List.range n).map fun m => g (block x B H m)
  | 0 => rfl
  | n + 1 => by
    rw [processed]
    simp only
    rw [processed_stateless g s0 x B H n, List.range_succ, List.map_append]
    rfl

/-- C17 with the code's windowing, transforms that invert each other and a callback that copies the
spectra. If the squared window, summed over each residue class modulo the hop size, is 1, then the output
is the input delayed by exactly `latency_frames()`, from the first sample on. In general it is scaled by
that sum (once the startup zeros have passed, and before that it is zero like the delayed input). -/
theorem C17_identity_partial {β : Type} [Zero β] (nIn block hop : ℤ) (lens : List ℤ) (c : Config)
    (window : List ℝ) (h : configure nIn lens window.length block hop = some c) (hh : 1 ≤ hop)
    (hb : hop ≤ block) (hl : ∀ l ∈ lens, 1 ≤ l) (fwd : List ℝ → β) (inv : β → List ℝ)
    (hinv : ∀ x : List ℝ, (x.length : ℤ) = block → inv (fwd x) = x) :
    ∃ s, construct c () = some s ∧
    ∀ chunks : List (List (List ℝ)),
      (∀ k ∈ chunks, (k.length : ℤ) ∈ lens ∧ ∀ col ∈ k, (col.length : ℤ) = nIn) →
    ∃ outs s', processAll c (windowAndProcess nIn.toNat nIn.toNat block.toNat window fwd inv
        (fun s X => (s, X))) s chunks = some (outs, s') ∧
      outs.map List.length = chunks.map List.length ∧
      ∀ t (ch : Fin nIn.toNat), t < chunks.flatten.length →
        outs.flatten.getD t 0 ch =
          (if t < c.delay then 0 else (chunks.flatten.getD (t - c.delay) []).getD ch 0) *
          ∑ m ∈ Finset.range window.length,
            if m % hop.toNat = t % hop.toNat then window.getD m 0 ^ 2 else 0 := by
  have hws : (window.length : ℤ) = block := by
    unfold configure at h
    cases hm : lens.max? with
    | none => rw [hm] at h; simp at h
    | some mx =>
      cases hgv : NumberUtil.gcdVector (lens ++ [hop]) with
      | none => rw [hm, hgv] at h; simp at h
      | some g =>
        rw [hm, hgv] at h
        simp only [Option.bind_eq_bind, Option.bind_some] at h
        split at h
        · simp at h
        · rename_i h1
          push Not at h1
          exact h1.2.2.2
  obtain ⟨D, hg, -, -, e1, e2, e3, -, -⟩ := configure_good h hh hb hl
  have hdel := hg.delay
  have hDle : D ≤ c.hop := Nat.le_of_dvd hg.hop hg.dvd
  obtain ⟨g, hgd⟩ : ∃ g : List (List ℝ) → List (Fin nIn.toNat → ℝ), g = fun b =>
    (windowAndProcess nIn.toNat nIn.toNat block.toNat window fwd inv (fun s X => (s, X)) () b).2 := ⟨_, rfl⟩
  have hfg : windowAndProcess nIn.toNat nIn.toNat block.toNat window fwd inv (fun (s : Unit) X => (s, X))
      = fun s b => (s, g b) := by
    rw [hgd]
  obtain ⟨-, s1, r1, r2⟩ := C17_overlap_add_partial nIn window.length block hop lens c h hh hb hl
    (windowAndProcess nIn.toNat nIn.toNat block.toNat window fwd inv (fun s X => (s, X)))
    (by
      intro s b _
      unfold windowAndProcess
      simp only [List.length_map, List.length_range]
      omega) ⟨CircularBuffer.fresh, [], 0, ()⟩
  refine ⟨s1, r1, fun chunks hc => ?_⟩
  obtain ⟨outs, s', n, a1, a2, ⟨a3, a4⟩, a5, -, a6⟩ := r2 chunks hc
  refine ⟨outs, s', a1, a2, fun t ch ht => ?_⟩
  rw [a6 t ht, hfg, processed_stateless]
  obtain ⟨x, hx⟩ : ∃ x, x = List.replicate c.delay (List.replicate nIn.toNat (0 : ℝ)) ++ chunks.flatten :=
    ⟨_, rfl⟩
  rw [← hx]
  have hxl : x.length = c.delay + chunks.flatten.length := by rw [hx]; simp
  have hxt : (x.getD t []).getD ch 0 =
      if t < c.delay then 0 else (chunks.flatten.getD (t - c.delay) []).getD ch 0 := by
    rw [hx]
    simp only [List.getD_eq_getElem?_getD]
    split
    · rename_i h1
      rw [List.getElem?_append_left (by simpa using h1), List.getElem?_replicate, if_pos h1]
      simp only [Option.getD_some, List.getElem?_replicate]
      split <;> simp
    · rename_i h1
      rw [List.getElem?_append_right (by simp; omega)]
      simp
  rw [← hxt]
  unfold overlapAdd
  rw [Finset.sum_apply, List.length_map, List.length_range]
  have key : ∀ m ∈ Finset.range n, (if m * hop.toNat ≤ t then (((List.range n).map fun m =>
      g (Spec.block x block.toNat hop.toNat m)).getD m []).getD (t - m * hop.toNat) 0 else 0) ch =
      (x.getD t []).getD ch 0 * (if m * hop.toNat ≤ t then window.getD (t - m * hop.toNat) 0 ^ 2 else 0) := by
    intro m hm
    rw [Finset.mem_range] at hm
    have hmn : m * hop.toNat ≤ (n - 1) * hop.toNat := Nat.mul_le_mul_right _ (by omega)
    have hfit : m * hop.toNat + block.toNat ≤ x.length := by
      rcases a5 with h0 | h0 <;> omega
    by_cases hmt : m * hop.toNat ≤ t
    · rw [if_pos hmt, if_pos hmt]
      obtain ⟨i, hi⟩ : ∃ i, i = t - m * hop.toNat := ⟨_, rfl⟩
      rw [← hi]
      have hgl : ∀ b, (g b).length = block.toNat := by
        intro b
        rw [hgd]
        unfold windowAndProcess
        simp only [List.length_map, List.length_range]
      have hbl : (Spec.block x block.toNat hop.toNat m).length = block.toNat := by
        unfold Spec.block; simp; omega
      rw [List.getD_eq_getElem?_getD (l := List.map _ _), List.getElem?_map, List.getElem?_range hm]
      simp only [Option.map_some, Option.getD_some]
      by_cases hiB : i < block.toNat
      · rw [hgd]
        unfold windowAndProcess
        simp only
        rw [List.getD_eq_getElem?_getD, List.getElem?_map, List.getElem?_range hiB]
        simp only [Option.map_some, Option.getD_some]
        rw [List.getD_eq_getElem?_getD (l := List.map _ (List.range nIn.toNat)), List.getElem?_map,
          List.getElem?_range ch.isLt]
        simp only [Option.map_some, Option.getD_some]
        rw [hinv _ (by rw [List.length_zipWith, List.length_map, hbl]; omega)]
        have hz : (List.zipWith (· * ·) ((Spec.block x block.toNat hop.toNat m).map (·.getD ch 0))
            window).getD i 0 = (x.getD t []).getD ch 0 * window.getD i 0 := by
          simp only [List.getD_eq_getElem?_getD]
          rw [List.getElem?_eq_getElem (by rw [List.length_zipWith, List.length_map, hbl]; omega),
            List.getElem?_eq_getElem (l := window) (by omega),
            List.getElem?_eq_getElem (l := x) (i := t) (by omega)]
          simp only [List.getElem_zipWith, List.getElem_map, Option.getD_some]
          congr 1
          unfold Spec.block
          simp only [List.getElem_take, List.getElem_drop]
          have : m * hop.toNat + i = t := by omega
          simp only [this]
        rw [hz]
        ring
      · rw [getD_none _ _ (by rw [hgl]; omega), getD_none window i (by omega)]
        simp
    · rw [if_neg hmt, if_neg hmt]
      simp
  rw [Finset.sum_congr rfl key, ← Finset.mul_sum]
  by_cases ht2 : window.length ≤ t + hop.toNat
  · rw [Spectrogram.sum_frames window hop.toNat n t (by omega) ht2 (by omega)]
    rfl
  · have : t < c.delay := by omega
    rw [hxt, if_pos this, zero_mul, zero_mul]

/-! ## Concrete cases -/

/-- The hypotheses hold, e.g. for two channels, chunk lengths 4 and 6, block length 8, hop size 2
(latency 6). -/
example : configure 2 [4, 6] 8 8 2 = some ⟨2, 2, 8, 6, 6⟩ := by decide +kernel

/-- Block length 4, hop size 2, chunks of 2, 4 and 2 columns, a callback that doubles: the first output
columns (in this example without window, so the blocks add up to 4 times the input). -/
example : (processAll ⟨1, 2, 4, 4, 2⟩ (fun (s : Unit) b => (s, b.map fun k => 2 * k.getD 0 0))
    ((construct ⟨1, 2, 4, 4, 2⟩ () : Option (State ℕ ℕ Unit)).getD ⟨CircularBuffer.fresh, [], 0, ()⟩)
    [[[1], [2]], [[3], [4], [5], [6]], [[7], [8]]]).map (·.1) =
      some [[0, 0], [4, 8, 12, 16], [20, 24]] := by decide +kernel

/-! ## Failures -/

/-- C17 fails for hop sizes beyond the block length, which the constructor accepts: the first chunk makes
the `CHECK` in `Advance` fail (one channel, block length 2, hop size 3, chunk length 1; any sample and any
callback). -/
theorem C17_hop_violation {M σ : Type} [AddCommMonoid M] (f : σ → List (List ℕ) → σ × List M) (cb : σ)
    (x : ℕ) : configure 1 [1] 2 2 3 = some ⟨1, 3, 2, 1, 1⟩ ∧
    ∃ s, construct ⟨1, 3, 2, 1, 1⟩ cb = some s ∧ processChunk ⟨1, 3, 2, 1, 1⟩ f s [[x]] = none := by
  refine ⟨by decide +kernel, ⟨⟨3, false, 1, [0, 0, 0], 0, 1⟩, List.replicate 3 0, 0, cb⟩, rfl, ?_⟩
  rfl

/-- C17 fails for hop size 0, which the constructor accepts: the first chunk makes the loop run forever
(it does not end within any number of iterations). -/
theorem C17_zero_hop_violation (x : ℕ) : configure 1 [1] 2 2 0 = some ⟨1, 0, 2, 1, 1⟩ ∧
    ∃ s b, (construct ⟨1, 0, 2, 1, 1⟩ () : Option (State ℕ ℕ Unit)) = some s ∧
      CircularBuffer.write s.buf [x] = .ok b ∧
      ∀ fuel, loop ⟨1, 0, 2, 1, 1⟩ (fun s _ => (s, [0, 0])) fuel
        { s with buf := b, overflow := (moveOverflow s.overflow 1).2 } (moveOverflow s.overflow 1).1
          = none := by
  refine ⟨by decide +kernel, ⟨⟨3, false, 1, [0, 0, 0], 0, 1⟩, List.replicate 3 0, 0, ()⟩,
    ⟨3, false, 2, [0, x, 0], 0, 2⟩, rfl, rfl, fun fuel => ?_⟩
  induction fuel with
  | zero => rfl
  | succ n ih => exact ih

/-- C17 fails for empty chunks, which the constructor accepts as a possible length: an empty chunk erases
the samples waiting to be output. Block length 4, hop size 2, callback that copies. -/
theorem C17_empty_chunk_violation : configure 1 [2, 0] 4 4 2 = some ⟨1, 2, 4, 2, 2⟩ ∧
    ∃ s : State ℕ ℕ Unit, construct ⟨1, 2, 4, 2, 2⟩ () = some s ∧
    ((processAll ⟨1, 2, 4, 2, 2⟩ (fun s b => (s, b.map (·.getD 0 0))) s
      [[[1], [2]], [[3], [4]]]).map (·.1)) = some [[0, 0], [2, 4]] ∧
    ((processAll ⟨1, 2, 4, 2, 2⟩ (fun s b => (s, b.map (·.getD 0 0))) s
      [[[1], [2]], [], [[3], [4]]]).map (·.1)) = some [[0, 0], [], [1, 2]] := by
  refine ⟨by decide +kernel, _, rfl, ?_, ?_⟩ <;> decide +kernel

end Verif.SpectralProcessor
