import Verif.Proof.MultiCrossoverRun
import Mathlib.Analysis.Normed.Module.Ray

/-!
# C46: the multi-band crossover filterbank
-/

namespace Verif.MultiCrossover
open Verif.BiquadCascade Verif.FilterDesign Verif.PoleZero Verif.Stream Verif.LinearFilter Spec

variable {cfg : Ladder.Config}

/-- Angles are wrapped to `[-π, π)` modulo `2π`. -/
theorem C46_wrap_angle (x : ℝ) :
    (∃ k : ℤ, wrapAngle x = x + 2 * Real.pi * k) ∧ -Real.pi ≤ wrapAngle x ∧ wrapAngle x < Real.pi := wrapAngle_spec x

/-! ### Processing -/

/-- Each band is the input passed through the filters of its path, one after the other, whatever the division of the
signal into blocks and however long the run; every block of output has the length of its block of input. -/
theorem C46_bands {b : Bank} {n : ℕ} {L H A : ℕ → List Ladder.Filter} (h : Holds b n L H A) (blocks : List (List ℝ)) :
    ∃ b' outs, b.run cfg blocks = some (b', outs) ∧ outs.length = blocks.length ∧ (∀ o ∈ outs, o.length = n) ∧
      ∀ i, i < n → (outs.map (·.getD i [])).flatten = (cascade cfg (path n L H A i) blocks.flatten).2 ∧
        (outs.map (·.getD i [])).map List.length = blocks.map List.length := by
  obtain ⟨b', L', H', A', outs, e, _, l, o, k, _⟩ := run_rep (cfg := cfg) blocks h
  exact ⟨b', outs, e, l, o, fun i hi => ⟨by rw [(k i hi).1], (k i hi).2⟩⟩

/-- After the constructor and `Init`, every band of the output satisfies the difference equation of the transfer
function designed for the band, whatever the division into blocks. -/
theorem C46_transfer {type : CrossoverType} {order n : ℕ} {rate : ℝ} {freqs : List ℝ} {b0 b : Bank} {c : Coeffs}
    (h0 : make n = some b0) (hd : design (1 / 10 ^ 10) type order n rate freqs = some c)
    (h : b0.init cfg (1 / 10 ^ 10) type order rate freqs = some b)
    (hne : ∀ i, i < n - 1 → c.low.getD i [] ≠ [] ∧ c.high.getD i [] ≠ [])
    (hs : ∀ i, i < n → ∀ s ∈ c.bandStages n i, Exact cfg s ∧ ∃ x ∈ s.b, x ≠ 0) (blocks : List (List ℝ)) :
    ∃ b' outs, b.run cfg blocks = some (b', outs) ∧ ∀ i, i < n → ∃ p q, asPolynomialRatio (c.bandStages n i) = some (p, q) ∧
      DiffEq p q blocks.flatten (outs.map (·.getD i [])).flatten := by
  unfold make at h0
  split_ifs at h0 with hn
  have h0 := (Option.some.inj h0).symm
  have hbn : b0.n = n := by rw [h0]
  obtain ⟨c', hd', hr⟩ := init_rep (by rw [hbn]; omega) (by rw [hbn, h0]; simp) h
  rw [hbn] at hd' hr
  rw [hd] at hd'
  have hd' := Option.some.inj hd'
  subst hd'
  obtain ⟨L, H, A, hh, m1, m2⟩ := hr hne
  obtain ⟨b', outs, e, _, _, k⟩ := C46_bands (cfg := cfg) hh blocks
  refine ⟨b', outs, e, fun i hi => ?_⟩
  obtain ⟨p, q, e1, e2⟩ := made_diffEq (path_made m1 m2 hi) (pathStages_perm c n i) (fun s hs' => (hs i hi s hs').1)
    (fun s hs' => (hs i hi s hs').2)
  refine ⟨p, q, e1, ?_⟩
  rw [(k i hi).1]
  exact e2 _

theorem reachable_inv {N n : ℕ} (hN : 0 < N) (he : N % 2 = 0) {rate : ℝ} {b : Bank} (h : Reachable cfg N n rate b) :
    ∃ L H A, Holds b n L H A ∧ ∀ i, (i < n - 1 → (L i).length = N ∧ (H i).length = N) ∧ (i < n - 2 → (A i).length = n - 2 - i) := by
  induction h with
  | init made regular done =>
    rename_i b0 b freqs
    unfold make at made
    split_ifs at made with hn
    have made := (Option.some.inj made).symm
    have hbn : b0.n = n := by rw [made]
    obtain ⟨c, hd, hr⟩ := init_rep (by rw [hbn]; omega) (by rw [hbn, made]; simp) done
    rw [hbn] at hd hr
    obtain ⟨g, _, _, q⟩ := linkwitz_design hN regular hd
    obtain ⟨_, a, _⟩ := design_aligned hd g
    obtain ⟨L, H, A, hh, m1, m2⟩ := hr fun i hi => ⟨(q i hi).1, (q i hi).2.1⟩
    refine ⟨L, H, A, hh, fun i => ⟨fun hi => ?_, fun hi => ?_⟩⟩
    · rw [(m1 i hi).1.length, (m1 i hi).2.length]; exact ((q i hi).2.2.1 he).1
    · rw [(m2 i hi).length]; exact a i hi
  | process before done ih =>
    obtain ⟨L, H, A, hh, l⟩ := ih
    obtain ⟨b1, L', H', A', e, hh', _, g⟩ := processBlock_rep (cfg := cfg) hh _
    rw [e] at done
    rw [← Option.some.inj done]
    refine ⟨L', H', A', hh', fun i => ?_⟩
    obtain ⟨x1, x2, x3, e1, e2, e3⟩ := g i
    rw [e1, e2, e3, cascade_state_length, cascade_state_length, cascade_state_length]
    exact l i
  | retune before regular done ih =>
    obtain ⟨L, H, A, hh, l⟩ := ih
    obtain ⟨c, hd, hr⟩ := setFrequencies_rep hh done
    obtain ⟨g, _, _, q⟩ := linkwitz_design hN regular hd
    obtain ⟨_, a, _⟩ := design_aligned hd g
    obtain ⟨L', H', A', hh', l'⟩ := hr
      (fun i hi => by rw [((l i).1 hi).1, ((l i).1 hi).2]; exact ((q i hi).2.2.1 he).1)
      (fun i hi => by rw [(l i).2 hi]; exact a i hi)
    refine ⟨L', H', A', hh', fun i => ⟨fun hi => ?_, fun hi => ?_⟩⟩
    · rw [((l' i).1 hi).1, ((l' i).1 hi).2]; exact (l i).1 hi
    · rw [(l' i).2 hi]; exact (l i).2 hi
  | reset before done ih =>
    obtain ⟨L, H, A, hh, l⟩ := ih
    obtain ⟨b1, e, hh'⟩ := reset_rep (cfg := cfg) hh
    rw [e] at done
    rw [← Option.some.inj done]
    exact ⟨_, _, _, hh', fun i => by simpa using l i⟩

/-- With Linkwitz-Riley crossovers of order `4 M`, once `Init` has succeeded, no sequence of `ProcessBlock`,
`SetCrossoverFrequencies` and `Reset` calls makes `ProcessBlock` or `Reset` abort, and each processed block gives `n`
bands with the length of the block: retuning never leaves a filter uninitialised. -/
theorem C46_never_aborts {N n : ℕ} (hN : 0 < N) (he : N % 2 = 0) {rate : ℝ} {b : Bank} (h : Reachable cfg N n rate b) :
    (∀ x, ∃ b', b.processBlock cfg x = some b' ∧ b'.out.length = n ∧ ∀ i, i < n → (b'.out.getD i []).length = x.length) ∧
      ∃ b', b.reset cfg = some b' := by
  obtain ⟨L, H, A, hh, _⟩ := reachable_inv hN he h
  refine ⟨fun x => ?_, ?_⟩
  · obtain ⟨b', L', H', A', e, hh', k, _⟩ := processBlock_rep (cfg := cfg) hh x
    refine ⟨b', e, hh'.outLen, fun i hi => ?_⟩
    have := congrArg (fun r => r.2.length) (k i hi)
    dsimp only at this
    rw [← this, cascade_length]
  · obtain ⟨b', e, _⟩ := reset_rep (cfg := cfg) hh
    exact ⟨b', e⟩

/-- `Reset` takes a bank back to what it was after `Init`: after any run, the same input gives the same output as
right after `Init`. -/
theorem C46_reset {N n : ℕ} (hN : 0 < N) {rate : ℝ} {freqs : List ℝ} {b0 b b1 b2 : Bank} {outs : List (List (List ℝ))}
    (h0 : make n = some b0) (hf : ∀ hz ∈ freqs, Regular N rate hz)
    (h : b0.init cfg (1 / 10 ^ 10) .linkwitzRiley (2 * N) rate freqs = some b) {before : List (List ℝ)}
    (h1 : b.run cfg before = some (b1, outs)) (h2 : b1.reset cfg = some b2) (blocks : List (List ℝ)) :
    (b2.run cfg blocks).map (·.2) = (b.run cfg blocks).map (·.2) := by
  unfold make at h0
  split_ifs at h0 with hn
  have h0 := (Option.some.inj h0).symm
  have hbn : b0.n = n := by rw [h0]
  obtain ⟨c, hd, hr⟩ := init_rep (by rw [hbn]; omega) (by rw [hbn, h0]; simp) h
  rw [hbn] at hd hr
  obtain ⟨g, _, _, q⟩ := linkwitz_design hN hf hd
  obtain ⟨L, H, A, hh, m1, m2⟩ := hr fun i hi => ⟨(q i hi).1, (q i hi).2.1⟩
  obtain ⟨b1', L', H', A', outs', e, hh', _, _, _, w⟩ := run_rep (cfg := cfg) before hh
  rw [e] at h1
  have h1 := (Prod.mk.inj (Option.some.inj h1)).1
  subst h1
  obtain ⟨b2', e2, hh2⟩ := reset_rep (cfg := cfg) hh'
  rw [e2] at h2
  have h2 := Option.some.inj h2
  subst h2
  obtain ⟨c1, L1, H1, A1, o1, u1, s1, v1, w1, k1, _⟩ := run_rep (cfg := cfg) blocks hh2
  obtain ⟨c2, L2, H2, A2, o2, u2, s2, v2, w2, k2, _⟩ := run_rep (cfg := cfg) blocks hh
  rw [u1, u2]
  simp only [Option.map_some, Option.some.injEq]
  have hpath : ∀ i, i < n → path n (fun i => (L' i).map (Ladder.reset cfg)) (fun i => (H' i).map (Ladder.reset cfg))
      (fun i => (A' i).map (Ladder.reset cfg)) i = path n L H A i := by
    intro i hi
    have hL : ∀ j, j < n - 1 → (L' j).map (Ladder.reset cfg) = L j := fun j hj => by
      obtain ⟨x1, _, _, q1, _, _⟩ := w j
      rw [q1, cascade_reset (m1 j hj).1]
    have hH : ∀ j, j < n - 1 → (H' j).map (Ladder.reset cfg) = H j := fun j hj => by
      obtain ⟨_, x2, _, _, q2, _⟩ := w j
      rw [q2, cascade_reset (m1 j hj).2]
    have hA : ∀ j, j < n - 2 → (A' j).map (Ladder.reset cfg) = A j := fun j hj => by
      obtain ⟨_, _, x3, _, _, q3⟩ := w j
      rw [q3, cascade_reset (m2 j hj)]
    unfold path
    congr 1
    · congr 1
      · exact List.flatMap_congr fun j hj => hH j (by have := List.mem_range.1 hj; omega)
      · split_ifs with hc
        · exact hL i hc
        · rfl
    · split_ifs with hc
      · exact hA i hc
      · rfl
  have hband : ∀ i, i < n → o1.map (·.getD i []) = o2.map (·.getD i []) := by
    intro i hi
    rw [List.eq_iff_flatten_eq]
    have a1 := (k1 i hi).1
    rw [hpath i hi, (k2 i hi).1] at a1
    exact ⟨(Prod.mk.inj a1).2.symm, by rw [(k1 i hi).2, (k2 i hi).2]⟩
  refine List.ext_getElem (by omega) fun j j1 j2 => ?_
  have w1j := w1 _ (List.getElem_mem j1)
  have w2j := w2 _ (List.getElem_mem j2)
  refine List.ext_getElem (by omega) fun i i1 i2 => ?_
  have := congrArg (fun l => l[j]?) (hband i (by omega))
  rw [List.getElem?_map, List.getElem?_map, List.getElem?_eq_getElem j1, List.getElem?_eq_getElem j2, Option.map_some,
    Option.map_some, Option.some.injEq, List.getD_eq_getElem _ _ i1, List.getD_eq_getElem _ _ i2] at this
  exact this

/-! ### Design -/

/-- Linkwitz-Riley crossovers of order `2 N`, any number of bands: at every crossover frequency the two bands that meet
there are in phase. -/
theorem C46_in_phase_partial {N n : ℕ} (hN : 0 < N) {rate : ℝ} {freqs : List ℝ} (hf : ∀ hz ∈ freqs, Regular N rate hz)
    {c : Coeffs} (h : design (1 / 10 ^ 10) .linkwitzRiley (2 * N) n rate freqs = some c)
    (hc : ∀ b, b < n - 2 → ∀ s ∈ c.ap.getD b [], 1 / 10 ^ 10 < |s.a.getD 2 0|) :
    ∀ b, b < n - 1 → SameRay ℝ (bandResponse c n b (radians (freqs.getD b 0) rate))
      (bandResponse c n (b + 1) (radians (freqs.getD b 0) rate)) := by
  intro b hb
  obtain ⟨g, _, _, q⟩ := linkwitz_design hN hf h
  obtain ⟨_, _, a⟩ := design_aligned h g
  by_cases hb' : b < n - 2
  · exact (a hc).2 b hb'
  · unfold bandResponse
    rw [if_pos hb, if_neg hb', if_neg (by omega), if_neg (by omega), Finset.prod_range_succ, mul_one, mul_one, mul_one]
    obtain ⟨_, _, _, k⟩ := q b hb
    exact (k _).2.map (LinearMap.mulLeft ℝ (∏ i ∈ Finset.range b, ((c.high.getD i []).map fun s =>
      response s (radians (freqs.getD b 0) rate)).prod))

theorem list_prod_norm (l : List ℂ) (h : ∀ x ∈ l, ‖x‖ = 1) : ‖l.prod‖ = 1 := by
  induction l with
  | nil => simp
  | cons x l ih => rw [List.prod_cons, norm_mul, h x (by simp), ih fun y hy => h y (by simp [hy]), one_mul]

/-- Linkwitz-Riley crossovers of order `2 N`, any number of bands: at every frequency the amplitude responses of the
bands add up to exactly one. -/
theorem C46_amplitudes_sum_partial {N n : ℕ} (hN : 0 < N) (hn : 2 ≤ n) {rate : ℝ} {freqs : List ℝ}
    (hf : ∀ hz ∈ freqs, Regular N rate hz)
    {c : Coeffs} (h : design (1 / 10 ^ 10) .linkwitzRiley (2 * N) n rate freqs = some c)
    (hc : ∀ b, b < n - 2 → ∀ s ∈ c.ap.getD b [], 1 / 10 ^ 10 < |s.a.getD 2 0|) (θ : ℝ) :
    ∑ b ∈ Finset.range n, ‖bandResponse c n b θ‖ = 1 := by
  obtain ⟨g, _, _, q⟩ := linkwitz_design hN hf h
  obtain ⟨_, _, a⟩ := design_aligned h g
  have ha := (a hc).1
  have hnorm : ∀ b, ‖bandResponse c n b θ‖ = (∏ i ∈ Finset.range b, ‖((c.high.getD i []).map fun s => response s θ).prod‖) *
      (if b < n - 1 then ‖((c.low.getD b []).map fun s => response s θ).prod‖ else 1) := by
    intro b
    unfold bandResponse
    rw [norm_mul, norm_mul, norm_prod]
    have h1 : ‖(if b < n - 2 then ((c.ap.getD b []).map fun s => response s θ).prod else 1)‖ = 1 := by
      split_ifs with hb
      · apply list_prod_norm
        intro x hx
        obtain ⟨s, hs, rfl⟩ := List.mem_map.1 hx
        obtain ⟨_, φ, e⟩ := ha b hb s hs
        exact (allpassMinimum_spec e).2.2.1 θ
      · exact norm_one
    rw [h1, mul_one]
    congr 1
    split_ifs
    · rfl
    · exact norm_one
  obtain ⟨m, rfl⟩ : ∃ m, n = m + 1 := ⟨n - 1, by omega⟩
  rw [Finset.sum_range_succ, hnorm m, if_neg (by omega), mul_one]
  refine Eq.trans ?_ (split_sum (fun i => ‖((c.low.getD i []).map fun s => response s θ).prod‖)
    (fun i => ‖((c.high.getD i []).map fun s => response s θ).prod‖) m fun i hi => ((q i (by omega)).2.2.2 θ).1)
  congr 1
  refine Finset.sum_congr rfl fun b hb => ?_
  rw [hnorm b, if_pos (by have := Finset.mem_range.1 hb; omega)]

/-- Hence the sum of the bands never amplifies any frequency. -/
theorem C46_sum_at_most_one_partial {N n : ℕ} (hN : 0 < N) (hn : 2 ≤ n) {rate : ℝ} {freqs : List ℝ}
    (hf : ∀ hz ∈ freqs, Regular N rate hz)
    {c : Coeffs} (h : design (1 / 10 ^ 10) .linkwitzRiley (2 * N) n rate freqs = some c)
    (hc : ∀ b, b < n - 2 → ∀ s ∈ c.ap.getD b [], 1 / 10 ^ 10 < |s.a.getD 2 0|) (θ : ℝ) :
    ‖∑ b ∈ Finset.range n, bandResponse c n b θ‖ ≤ 1 :=
  (norm_sum_le _ _).trans_eq (C46_amplitudes_sum_partial hN hn hf h hc θ)

/-- With two bands the sum of the bands is an allpass: every frequency keeps its amplitude. -/
theorem C46_two_bands_flat {N : ℕ} (hN : 0 < N) {rate hz : ℝ} (hf : Regular N rate hz) :
    ∃ c, design (1 / 10 ^ 10) .linkwitzRiley (2 * N) 2 rate [hz] = some c ∧
      ∀ θ : ℝ, ‖bandResponse c 2 0 θ + bandResponse c 2 1 θ‖ = 1 := by
  obtain ⟨lo, hi, e, _⟩ := linkwitz_circle hN hf
  obtain ⟨c, hc⟩ : ∃ c : Coeffs, c = ⟨[lo], [hi], []⟩ := ⟨_, rfl⟩
  have h : design (1 / 10 ^ 10) .linkwitzRiley (2 * N) 2 rate [hz] = some c := by
    unfold design
    rw [if_pos ⟨rfl, by simp⟩]
    simp only [List.mapM_cons, List.mapM_nil, e, Option.pure_def, Option.bind_eq_bind, Option.bind_some, List.map_cons,
      List.map_nil, show lowerBands (2 - 1) = [] from rfl, List.foldlM_nil]
    rw [hc]; rfl
  refine ⟨c, h, fun θ => ?_⟩
  obtain ⟨g, _, _, q⟩ := linkwitz_design hN (fun x hx => by rw [List.mem_singleton.1 hx]; exact hf) h
  obtain ⟨_, _, _, k⟩ := q 0 (by omega)
  have e0 : bandResponse c 2 0 θ = ((c.low.getD 0 []).map fun s => response s θ).prod := by
    unfold bandResponse; rw [if_pos (by omega), if_neg (by omega)]; simp
  have e1 : bandResponse c 2 1 θ = ((c.high.getD 0 []).map fun s => response s θ).prod := by
    unfold bandResponse; rw [if_neg (by omega), if_neg (by omega)]; simp
  rw [e0, e1, SameRay.norm_add (k θ).2, (k θ).1]

/-- Band `b` of `n` gets `n - 2 - b` phase correction sections, one per crossover frequency above the two that bound
it, each an allpass built at its upper crossover frequency. -/
theorem C46_corrections {N n : ℕ} (hN : 0 < N) {rate : ℝ} {freqs : List ℝ} (hf : ∀ hz ∈ freqs, Regular N rate hz)
    {c : Coeffs} (h : design (1 / 10 ^ 10) .linkwitzRiley (2 * N) n rate freqs = some c) :
    c.ap.length = n - 2 ∧ ∀ b, b < n - 2 → (c.ap.getD b []).length = n - 2 - b :=
  let g := (linkwitz_design hN hf h).1
  ⟨(design_aligned h g).1, (design_aligned h g).2.1⟩

/-! ### Initialisation -/

theorem initChain_some : ∀ (cs : List (Stage ℝ)) (old : List Slot), (∀ s ∈ cs, s.Valid) →
    ∃ r, initChain cfg true old cs = some r
  | [], old, _ => ⟨[], rfl⟩
  | s :: cs, old, h => by
    obtain ⟨r, hr⟩ := initChain_some cs old.tail fun s hs => h s (by simp [hs])
    obtain ⟨v1, v2, v3⟩ := h s (by simp)
    have : ∃ f, initFilter cfg true (old.headD none) s = some f := by
      unfold initFilter Ladder.initFromTransferFunction Ladder.makeLadder
      rw [if_pos rfl, if_neg (by
        rintro (h | h | h)
        · rw [h] at v1; simp at v1
        · rw [h] at v2; simp at v2
        · exact v3 h)]
      simp only [Option.bind_eq_bind, Option.bind_some, Ladder.init]
      rw [if_neg (by rw [v1, v2]; norm_num)]
      exact ⟨_, rfl⟩
    obtain ⟨f, hf⟩ := this
    exact ⟨f :: r, by simp only [initChain, hf, hr, Option.bind_eq_bind, Option.bind_some]⟩

theorem initChains_some : ∀ (css : List (List (Stage ℝ))) (old : List (List Slot)), (∀ cs ∈ css, ∀ s ∈ cs, s.Valid) →
    ∃ r, initChains cfg true old css = some r
  | [], old, _ => ⟨[], rfl⟩
  | cs :: css, old, h => by
    obtain ⟨f, hf⟩ := initChain_some (cfg := cfg) cs (old.headD []) (h cs (by simp))
    obtain ⟨r, hr⟩ := initChains_some css old.tail fun s hs => h s (by simp [hs])
    exact ⟨f :: r, by simp only [initChains, hf, hr, Option.bind_eq_bind, Option.bind_some]⟩

theorem init_some {type : CrossoverType} {order : ℕ} {rate : ℝ} {freqs : List ℝ} {b : Bank} {c : Coeffs}
    (h : design (1 / 10 ^ 10) type order b.n rate freqs = some c) (h1 : ∀ cs ∈ c.low, ∀ s ∈ cs, s.Valid)
    (h2 : ∀ cs ∈ c.high, ∀ s ∈ cs, s.Valid) (h3 : ∀ cs ∈ c.ap, ∀ s ∈ cs, s.Valid) :
    ∃ b', b.init cfg (1 / 10 ^ 10) type order rate freqs = some b' := by
  obtain ⟨r1, e1⟩ := initChains_some (cfg := cfg) c.low b.low h1
  obtain ⟨r2, e2⟩ := initChains_some (cfg := cfg) c.high b.high h2
  obtain ⟨r3, e3⟩ := initChains_some (cfg := cfg) c.ap b.ap h3
  have m1 := initChains_made _ _ e1
  have m2 := initChains_made _ _ e2
  have m3 := initChains_made _ _ e3
  refine ⟨{ n := b.n, low := r1, high := r2, ap := r3, out := b.out.map fun o => o.map fun _ => 0 }, ?_⟩
  unfold Bank.init Bank.applyCoeffs Bank.reset
  simp only [h, e1, e2, e3, Option.bind_eq_bind, Option.bind_some, reset_chains m1.1 m1.2, reset_chains m2.1 m2.2,
    reset_chains m3.1 m3.2]

theorem design_good {type : CrossoverType} {order n : ℕ} {rate : ℝ} {freqs : List ℝ} {c : Coeffs}
    (h : design (1 / 10 ^ 10) type order n rate freqs = some c)
    (hx : ∀ hz ∈ freqs, ∀ x, crossover (1 / 10 ^ 10) type order hz rate = some x →
      (∀ s ∈ x.1, GoodStage (1 / 10 ^ 10 : ℝ) (1 / 10 ^ 5) s) ∧ ∀ s ∈ x.2, GoodStage (1 / 10 ^ 10 : ℝ) (1 / 10 ^ 5) s) :
    (∀ cs ∈ c.low, ∀ s ∈ cs, GoodStage (1 / 10 ^ 10 : ℝ) (1 / 10 ^ 5) s) ∧
      ∀ cs ∈ c.high, ∀ s ∈ cs, GoodStage (1 / 10 ^ 10 : ℝ) (1 / 10 ^ 5) s := by
  obtain ⟨hlen, _, xs, c1, hxs, h1, h2, e1, e2⟩ := design_parts h
  obtain ⟨f1, f2, _⟩ := fold_len _ h1
  have hxg : ∀ x ∈ xs, (∀ s ∈ x.1, GoodStage (1 / 10 ^ 10 : ℝ) (1 / 10 ^ 5) s) ∧
      ∀ s ∈ x.2, GoodStage (1 / 10 ^ 10 : ℝ) (1 / 10 ^ 5) s := by
    intro x hx'
    obtain ⟨i, hi, rfl⟩ := List.mem_iff_getElem.1 hx'
    obtain ⟨l1, l2⟩ := mapM_some hxs
    exact hx _ (List.getElem_mem _) _ (l2 i (by omega) hi)
  refine ⟨fun cs hcs => ?_, fun cs hcs => ?_⟩
  · rw [e1, f1] at hcs
    obtain ⟨x, hx', rfl⟩ := List.mem_map.1 hcs
    exact (hxg x hx').1
  · rw [e2, f2] at hcs
    obtain ⟨x, hx', rfl⟩ := List.mem_map.1 hcs
    exact (hxg x hx').2

/-- Linkwitz-Riley banks: `Init` succeeds whenever all phase corrections can be designed. -/
theorem C46_init_succeeds_partial {N n : ℕ} (hN : 0 < N) {rate : ℝ} {freqs : List ℝ} (hf : ∀ hz ∈ freqs, Regular N rate hz)
    {c : Coeffs} (h : design (1 / 10 ^ 10) .linkwitzRiley (2 * N) n rate freqs = some c)
    (hc : ∀ b, b < n - 2 → ∀ s ∈ c.ap.getD b [], 1 / 10 ^ 10 < |s.a.getD 2 0|) {b0 : Bank} (h0 : make n = some b0) :
    ∃ b, b0.init cfg (1 / 10 ^ 10) .linkwitzRiley (2 * N) rate freqs = some b := by
  unfold make at h0
  split_ifs at h0 with hn
  have h0 := (Option.some.inj h0).symm
  have hbn : b0.n = n := by rw [h0]
  obtain ⟨g, _⟩ := linkwitz_design hN hf h
  obtain ⟨v1, v2⟩ := design_good h g
  obtain ⟨l, _, a⟩ := design_aligned h g
  refine init_some (by rw [hbn]; exact h) (fun cs hcs s hs => (v1 cs hcs s hs).valid)
    (fun cs hcs s hs => (v2 cs hcs s hs).valid) fun cs hcs s hs => ?_
  obtain ⟨i, hi, rfl⟩ := List.mem_iff_getElem.1 hcs
  refine ((a hc).1 i (by omega) s ?_).1
  rw [List.getD_eq_getElem _ _ hi]
  exact hs

theorem good_num {s : Stage ℝ} (h : GoodStage (1 / 10 ^ 10 : ℝ) (1 / 10 ^ 5) s) : ∃ x ∈ s.b, x ≠ 0 := by
  by_contra hx
  push Not at hx
  have h0 : ∀ k, s.b.getD k 0 = 0 := by
    intro k
    by_cases hk : k < s.b.length
    · rw [List.getD_eq_getElem _ _ hk]; exact hx _ (List.getElem_mem hk)
    · exact List.getD_eq_default _ _ (by omega)
  have := h.gb (by simp only [isZeroOrder, h0, abs_zero, decide_eq_true_eq]; norm_num)
  rw [h0 0, abs_zero] at this
  linarith

/-- Linkwitz-Riley banks of order `4 M`: every section of every band is stable. -/
theorem C46_stable_partial {N n : ℕ} (hN : 0 < N) (he : N % 2 = 0) {rate : ℝ} {freqs : List ℝ} (hf : ∀ hz ∈ freqs, Regular N rate hz)
    {c : Coeffs} (h : design (1 / 10 ^ 10) .linkwitzRiley (2 * N) n rate freqs = some c)
    (hc : ∀ b, b < n - 2 → ∀ s ∈ c.ap.getD b [], 1 / 10 ^ 10 < |s.a.getD 2 0|) :
    ∀ b, b < n → ∀ s ∈ c.bandStages n b, Stable s ∧ ∃ x ∈ s.b, x ≠ 0 := by
  intro b hb s hs
  obtain ⟨g, k1, k2, q⟩ := linkwitz_design hN hf h
  obtain ⟨v1, v2⟩ := design_good h g
  obtain ⟨_, _, a⟩ := design_aligned h g
  unfold Coeffs.bandStages at hs
  rcases List.mem_append.1 hs with hs | hs
  · rcases List.mem_append.1 hs with hs | hs
    · split_ifs at hs with hb'
      · refine ⟨((q b hb').2.2.1 he).2.1 s hs, good_num (v1 _ ?_ s hs)⟩
        rw [List.getD_eq_getElem _ _ (by omega)]; exact List.getElem_mem _
      · simp at hs
    · obtain ⟨i, hi, hs⟩ := List.mem_flatMap.1 hs
      have hi := List.mem_range.1 hi
      refine ⟨((q i (by omega)).2.2.1 he).2.2 s hs, good_num (v2 _ ?_ s hs)⟩
      rw [List.getD_eq_getElem _ _ (by omega)]; exact List.getElem_mem _
  · split_ifs at hs with hb'
    · obtain ⟨_, φ, e⟩ := (a hc).1 b hb' s hs
      have e' := e
      unfold allpassMinimum allpass at e'
      split_ifs at e' with hq
      obtain ⟨p1, p2, p3, p4, _⟩ := hq
      obtain ⟨s', e1, st, _⟩ := C58_allpass_minimum p4 p1 p2 p3
      rw [e] at e1
      rw [Option.some.inj e1] at e ⊢
      refine ⟨st, ?_⟩
      obtain ⟨hsec, _⟩ := allpassMinimum_spec e
      have e' := (Option.some.inj e').symm
      rw [← Option.some.inj e1, e']
      exact ⟨1, by simp, one_ne_zero⟩
    · simp at hs

theorem stable_exact {s : Stage ℝ} (h : Stable s) (he : cfg.eta = 0) : Exact cfg s := by
  obtain ⟨P, h1, h2⟩ := h
  unfold Ladder.isStable at h1
  obtain ⟨⟨M, k, v⟩, e, hP⟩ := Option.map_eq_some_iff.1 h1
  refine ⟨M, k, v, e, fun i hi => ?_, Or.inl he⟩
  rw [← hP] at h2
  exact not_le.1 (h2 i hi)

/-- Linkwitz-Riley banks of order `4 M`, with exact ladder filters (`η = 0`; the code clamps the scattering coefficient
of a zero reflection coefficient to `1 - η`, `C25_zero_reflection_violation`): after the constructor and `Init`, each
band of the output is the input filtered by the transfer function of the band, whatever the division into blocks. -/
theorem C46_linkwitz_transfer_partial {N n : ℕ} (hN : 0 < N) (he : N % 2 = 0) {rate : ℝ} {freqs : List ℝ}
    (hf : ∀ hz ∈ freqs, Regular N rate hz)
    {c : Coeffs} (h : design (1 / 10 ^ 10) .linkwitzRiley (2 * N) n rate freqs = some c)
    (hc : ∀ b, b < n - 2 → ∀ s ∈ c.ap.getD b [], 1 / 10 ^ 10 < |s.a.getD 2 0|) (heta : cfg.eta = 0)
    {b0 : Bank} (h0 : make n = some b0) (blocks : List (List ℝ)) :
    ∃ b b' outs, b0.init cfg (1 / 10 ^ 10) .linkwitzRiley (2 * N) rate freqs = some b ∧ b.run cfg blocks = some (b', outs) ∧
      ∀ i, i < n → ∃ p q, asPolynomialRatio (c.bandStages n i) = some (p, q) ∧
        DiffEq p q blocks.flatten (outs.map (·.getD i [])).flatten := by
  obtain ⟨b, hb⟩ := C46_init_succeeds_partial (cfg := cfg) hN hf h hc h0
  obtain ⟨_, _, _, q⟩ := linkwitz_design hN hf h
  have hst := C46_stable_partial hN he hf h hc
  obtain ⟨b', outs, e, k⟩ := C46_transfer h0 h hb (fun i hi => ⟨(q i hi).1, (q i hi).2.1⟩)
    (fun i hi s hs => ⟨stable_exact (hst i hi s hs).1 heta, (hst i hi s hs).2⟩) blocks
  exact ⟨b, b', outs, hb, e, k⟩

/-! ### A configuration that aborts -/

theorem bw_four (w y : ℝ) : bw 4 ((w * y : ℝ) * Complex.I) (y : ℝ) =
    ((y ^ 4 * ((1 - w ^ 2) ^ 2 - √2 * w ^ 2) : ℝ) : ℂ) +
      ((y ^ 4 * ((1 - w ^ 2) * w * (√(2 + √2) + √(2 - √2))) : ℝ) : ℂ) * Complex.I := by
  have h2 : √2 ≤ 2 := by rw [Real.sqrt_le_left (by norm_num)]; norm_num
  have e1 : Real.cos (Real.pi - Real.pi / 8) = -(√(2 + √2) / 2) := by
    rw [Real.cos_pi_sub, Real.cos_pi_div_eight]
  have e2 : Real.cos (Real.pi - Real.pi * 3 / 8) = -(√(2 - √2) / 2) := by
    rw [Real.cos_pi_sub, show Real.pi * 3 / 8 = Real.pi / 2 - Real.pi / 8 by ring, Real.cos_pi_div_two_sub, Real.sin_pi_div_eight]
  have e3 : √(2 + √2) * √(2 - √2) = √2 := by
    rw [← Real.sqrt_mul (by positivity)]
    congr 1
    have := Real.mul_self_sqrt (show (0 : ℝ) ≤ 2 by norm_num)
    linear_combination -this
  have f : ∀ (a x : ℝ) (u : ℂ), ((u - (⟨Real.cos a, Real.sin a⟩ : ℂ) * x) * (u - (starRingEnd ℂ) ⟨Real.cos a, Real.sin a⟩ * x))
      = u ^ 2 - 2 * (Real.cos a : ℝ) * u * x + x ^ 2 := by
    intro a x u
    have q1 : (⟨Real.cos a, Real.sin a⟩ : ℂ) + (starRingEnd ℂ) ⟨Real.cos a, Real.sin a⟩ = 2 * (Real.cos a : ℝ) := by
      rw [Complex.add_conj]; push_cast; rfl
    have q2 : (⟨Real.cos a, Real.sin a⟩ : ℂ) * (starRingEnd ℂ) ⟨Real.cos a, Real.sin a⟩ = 1 := by
      rw [Complex.mul_conj, Complex.normSq_mk]
      have := Real.cos_sq_add_sin_sq a
      exact_mod_cast (by linear_combination this)
    linear_combination -u * x * q1 + (x : ℂ) ^ 2 * q2
  rw [bw_expand, if_neg (by norm_num), one_mul, show 4 / 2 = 2 from rfl, Finset.prod_range_succ, Finset.prod_range_one]
  unfold butterworthPole
  dsimp only
  rw [f, f, if_neg (by norm_num),
    show Real.pi - Real.pi / ((4 : ℕ) : ℝ) * (((0 : ℕ) : ℝ) + 1 - 1 * (1 / 2)) = Real.pi - Real.pi / 8 by push_cast; ring,
    show Real.pi - Real.pi / ((4 : ℕ) : ℝ) * (((1 : ℕ) : ℝ) + 1 - 1 * (1 / 2)) = Real.pi - Real.pi * 3 / 8 by push_cast; ring, e1, e2]
  have e3' : ((√(2 + √2) : ℝ) : ℂ) * ((√(2 - √2) : ℝ) : ℂ) = ((√2 : ℝ) : ℂ) := by exact_mod_cast e3
  have hI := Complex.I_sq
  push_cast
  generalize ((√(2 + √2) : ℝ) : ℂ) = c1 at *
  generalize ((√(2 - √2) : ℝ) : ℂ) = c2 at *
  rw [← e3']
  linear_combination (y : ℂ) ^ 4 * ((w : ℂ) ^ 4 * (Complex.I ^ 2 - 1) + 2 * w ^ 2 + c1 * c2 * w ^ 2 + (c1 + c2) * w ^ 3 * Complex.I) * hI

/-- The frequency whose prewarped value is `t`. -/
theorem tan_freq {rate t : ℝ} (hr : 0 < rate) (ht : 0 < t) :
    Real.tan (Real.pi * (rate * Real.arctan t / Real.pi) / rate) = t ∧ 0 < rate * Real.arctan t / Real.pi ∧
      rate * Real.arctan t / Real.pi < rate / 2 := by
  have hpi := Real.pi_pos
  have h1 : Real.pi * (rate * Real.arctan t / Real.pi) / rate = Real.arctan t := by field_simp
  refine ⟨by rw [h1, Real.tan_arctan], div_pos (mul_pos hr (Real.arctan_pos.2 ht)) hpi, ?_⟩
  rw [div_lt_div_iff₀ hpi (by norm_num)]
  nlinarith [Real.arctan_lt_pi_div_two t]

theorem abort_root : ∃ w : ℝ, 1 / 2 < w ∧ w < 3 / 5 ∧ (1 - w ^ 2) ^ 2 - √2 * w ^ 2 = 0 := by
  have h2 : √2 * √2 = 2 := Real.mul_self_sqrt (by norm_num)
  have l2 : (1.4142 : ℝ) < √2 := by rw [Real.lt_sqrt (by norm_num)]; norm_num
  have u2 : √2 < 1.4143 := by rw [Real.sqrt_lt' (by norm_num)]; norm_num
  have hc : ContinuousOn (fun w : ℝ => √2 * w ^ 2 - (1 - w ^ 2) ^ 2) (Set.Icc (1 / 2) (3 / 5)) := by fun_prop
  have := intermediate_value_Ioo (by norm_num : (1 / 2 : ℝ) ≤ 3 / 5) hc
  obtain ⟨w, hw, e⟩ := this (show (0 : ℝ) ∈ _ from ⟨by norm_num; linarith, by norm_num; linarith⟩)
  exact ⟨w, hw.1, hw.2, by dsimp only at e; linarith⟩

/-- Not every increasing list of crossover frequencies can be used: at any sample rate there are two frequencies, the
lower one strictly below the higher one and both well inside the regular range, for which a Linkwitz-Riley bank of order
8 with three bands aborts in `Init`. The two lowest bands are in exact phase opposition at the lower frequency, which
needs a correction of `π`, and the allpass design refuses phases whose sine is smaller than `1e-5`. -/
theorem C46_init_abort_violation {rate : ℝ} (hr : 0 < rate) : ∃ f0 f1 : ℝ, f0 < f1 ∧ Regular 4 rate f0 ∧ Regular 4 rate f1 ∧
    ∀ (cfg : Ladder.Config) (b0 : Bank), make 3 = some b0 →
      b0.init cfg (1 / 10 ^ 10) .linkwitzRiley 8 rate [f0, f1] = none := by
  obtain ⟨w, hw1, hw2, hw⟩ := abort_root
  have hpi := Real.pi_pos
  obtain ⟨f0, hf0⟩ : ∃ f0, f0 = rate * Real.arctan w / Real.pi := ⟨_, rfl⟩
  obtain ⟨t0, p0, n0⟩ := tan_freq hr (show 0 < w by linarith)
  rw [← hf0] at t0 p0 n0
  have t1 : Real.tan (Real.pi * (rate / 4) / rate) = 1 := by
    rw [show Real.pi * (rate / 4) / rate = Real.pi / 4 by field_simp, Real.tan_pi_div_four]
  have r0 : Regular 4 rate f0 := by
    refine ⟨p0, n0, ?_, ?_, fun h => by omega, fun h => by omega⟩
    · rw [t0]
      have : 1 / 4 < w / (1 + w) := by rw [lt_div_iff₀ (by linarith)]; linarith
      calc (1 : ℝ) / 10 ^ 10 < (1 / 4) ^ 4 := by norm_num
        _ < _ := pow_lt_pow_left₀ this (by norm_num) (by norm_num)
    · rw [t0]
      have : 1 / 4 < 1 / (1 + w) := by rw [lt_div_iff₀ (by linarith)]; linarith
      calc (1 : ℝ) / 10 ^ 10 < (1 / 4) ^ 4 := by norm_num
        _ < _ := pow_lt_pow_left₀ this (by norm_num) (by norm_num)
  have r1 : Regular 4 rate (rate / 4) := by
    refine ⟨by positivity, by linarith, ?_, ?_, fun h => by omega, fun h => by omega⟩ <;> rw [t1] <;> norm_num
  have h01 : f0 < rate / 4 := by
    rw [hf0, div_lt_div_iff₀ hpi (by norm_num)]
    have : Real.arctan w < Real.pi / 4 := by
      rw [← Real.arctan_one]; exact Real.arctan_strictMono (by linarith)
    nlinarith
  refine ⟨f0, rate / 4, h01, r0, r1, fun cfg b0 h0 => ?_⟩
  obtain ⟨φ, c1, e, hφ⟩ := design_three (by norm_num) r0 r1 h01.le
  rw [t1] at hφ
  have hx : radians f0 rate / 2 = Real.pi * f0 / rate := by unfold radians; ring
  have hcos : 0 < Real.cos (Real.pi * f0 / rate) := by
    refine Real.cos_pos_of_mem_Ioo ⟨?_, ?_⟩
    · have : 0 < Real.pi * f0 / rate := by positivity
      linarith
    · rw [div_lt_iff₀ hr]; nlinarith
  have hsin : Real.sin (Real.pi * f0 / rate) = w * Real.cos (Real.pi * f0 / rate) := by
    rw [← t0, Real.tan_eq_sin_div_cos]; field_simp
  rw [hx, hsin] at hφ
  generalize Real.cos (Real.pi * f0 / rate) = y at *
  have hR : 0 < (2 * y) ^ 4 * ((1 - w ^ 2) * w * (√(2 + √2) + √(2 - √2))) := by
    have : 0 < 1 - w ^ 2 := by nlinarith
    have : 0 < w := by linarith
    positivity
  obtain ⟨R, hRd⟩ : ∃ R, R = (2 * y) ^ 4 * ((1 - w ^ 2) * w * (√(2 + √2) + √(2 - √2))) := ⟨_, rfl⟩
  have hbw := bw_four w (2 * y)
  rw [hw, mul_zero, Complex.ofReal_zero, zero_add, ← hRd] at hbw
  rw [← hRd] at hR
  rw [show 2 * (w * y) = w * (2 * y) by ring, one_mul, hbw] at hφ
  have hP : 0 < (2 * y) ^ (2 * 4) / R ^ 2 := by positivity
  have hD := hφ _ rfl
  have hval : (((2 * y) ^ (2 * 4) : ℝ) : ℂ) / ((R : ℂ) * Complex.I) ^ 2 = ((-((2 * y) ^ (2 * 4) / R ^ 2) : ℝ) : ℂ) := by
    have : (R : ℂ) ≠ 0 := by exact_mod_cast hR.ne'
    rw [mul_pow (R : ℂ), Complex.I_sq]
    push_cast
    field_simp
  rw [hval] at hD
  have hD := hD (by exact_mod_cast (neg_ne_zero.2 hP.ne'))
  rw [Complex.norm_real, Real.norm_eq_abs, abs_neg, abs_of_pos hP, ← Complex.ofReal_div, neg_div, div_self hP.ne'] at hD
  have hs : Real.sin φ = 0 := by
    have := congrArg Complex.im hD
    rwa [Complex.exp_ofReal_mul_I_im, Complex.ofReal_im] at this
  have hnone : allpassMinimum rate f0 φ = none := by
    unfold allpassMinimum allpass
    rw [if_neg]
    rintro ⟨_, _, h, _⟩
    rw [hs] at h
    norm_num at h
  rw [hnone] at e
  have h0 : b0.n = 3 := by
    rw [make, if_pos (by norm_num)] at h0
    rw [← Option.some.inj h0]
  unfold Bank.init
  rw [h0]
  exact congrArg (fun o => o.bind fun c => (b0.applyCoeffs cfg true c).bind fun b => b.reset cfg) e

/-! ### A bank with three bands -/

theorem bw_two (w y : ℝ) : bw 2 ((w * y : ℝ) * Complex.I) (y : ℝ) =
    ((y ^ 2 * (1 - w ^ 2) : ℝ) : ℂ) + ((y ^ 2 * (√2 * w) : ℝ) : ℂ) * Complex.I := by
  have e1 : Real.cos (Real.pi - Real.pi / 4) = -(√2 / 2) := by rw [Real.cos_pi_sub, Real.cos_pi_div_four]
  have q1 : ∀ a : ℝ, (⟨Real.cos a, Real.sin a⟩ : ℂ) + (starRingEnd ℂ) ⟨Real.cos a, Real.sin a⟩ = 2 * (Real.cos a : ℝ) := by
    intro a; rw [Complex.add_conj]; push_cast; rfl
  have q2 : ∀ a : ℝ, (⟨Real.cos a, Real.sin a⟩ : ℂ) * (starRingEnd ℂ) ⟨Real.cos a, Real.sin a⟩ = 1 := by
    intro a
    rw [Complex.mul_conj, Complex.normSq_mk]
    have := Real.cos_sq_add_sin_sq a
    exact_mod_cast (by linear_combination this)
  rw [bw_expand, if_neg (by norm_num), one_mul, show 2 / 2 = 1 from rfl, Finset.prod_range_one]
  unfold butterworthPole
  dsimp only
  rw [if_neg (by norm_num),
    show Real.pi - Real.pi / ((2 : ℕ) : ℝ) * (((0 : ℕ) : ℝ) + 1 - 1 * (1 / 2)) = Real.pi - Real.pi / 4 by push_cast; ring]
  have k1 := q1 (Real.pi - Real.pi / 4)
  have k2 := q2 (Real.pi - Real.pi / 4)
  rw [e1] at k1 k2 ⊢
  have hI := Complex.I_sq
  push_cast at k1 ⊢
  linear_combination (y : ℂ) ^ 2 * w ^ 2 * hI - y ^ 2 * w * Complex.I * k1 + y ^ 2 * k2

/-- Linkwitz-Riley of order 4, three bands, crossover frequencies at a sixth and a third of the sample rate: the design
succeeds and meets the hypotheses of the theorems above. -/
theorem three_band_example {rate : ℝ} (hr : 0 < rate) :
    (∀ hz ∈ [rate / 6, rate / 3], Regular 2 rate hz) ∧ ∃ c, design (1 / 10 ^ 10) .linkwitzRiley (2 * 2) 3 rate [rate / 6, rate / 3] = some c ∧
      ∀ b, b < 3 - 2 → ∀ s ∈ c.ap.getD b [], 1 / 10 ^ 10 < |s.a.getD 2 0| := by
  have h3 : √3 * √3 = 3 := Real.mul_self_sqrt (by norm_num)
  have l3 : (1.7 : ℝ) < √3 := by rw [Real.lt_sqrt (by norm_num)]; norm_num
  have u3 : √3 < 1.8 := by rw [Real.sqrt_lt' (by norm_num)]; norm_num
  have t0 : Real.tan (Real.pi * (rate / 6) / rate) = 1 / √3 := by
    rw [show Real.pi * (rate / 6) / rate = Real.pi / 6 by field_simp, Real.tan_pi_div_six]
  have t1 : Real.tan (Real.pi * (rate / 3) / rate) = √3 := by
    rw [show Real.pi * (rate / 3) / rate = Real.pi / 3 by field_simp, Real.tan_pi_div_three]
  have bound : ∀ x : ℝ, 1 / 4 < x → 1 / 10 ^ 10 < x ^ 2 := fun x hx => by nlinarith
  have r0 : Regular 2 rate (rate / 6) := by
    refine ⟨by positivity, by linarith, ?_, ?_, fun h => by omega, fun h => by omega⟩ <;> rw [t0] <;> apply bound
    · rw [lt_div_iff₀ (by positivity)]; field_simp; linarith
    · rw [lt_div_iff₀ (by positivity)]; field_simp; linarith
  have r1 : Regular 2 rate (rate / 3) := by
    refine ⟨by positivity, by linarith, ?_, ?_, fun h => by omega, fun h => by omega⟩ <;> rw [t1] <;> apply bound
    · rw [lt_div_iff₀ (by positivity)]; linarith
    · rw [lt_div_iff₀ (by positivity)]; linarith
  refine ⟨fun hz h => ?_, ?_⟩
  · rcases List.mem_cons.1 h with rfl | h
    · exact r0
    · rw [List.mem_singleton.1 h]; exact r1
  obtain ⟨φ, c1, e, hφ⟩ := design_three (by norm_num) r0 r1 (by linarith)
  have hx : radians (rate / 6) rate / 2 = Real.pi / 6 := by unfold radians; field_simp
  have hk : √3 * (2 * (√3 / 2)) = 3 := by linear_combination h3
  rw [t1, hx, Real.sin_pi_div_six, Real.cos_pi_div_six, hk, show (2 : ℝ) * (1 / 2) = 1 / 3 * 3 by norm_num, bw_two] at hφ
  have hD := hφ _ rfl
  have h2 : √2 * √2 = 2 := Real.mul_self_sqrt (by norm_num)
  have hI := Complex.I_sq
  have hz : (((3 ^ 2 * (1 - (1 / 3) ^ 2) : ℝ) : ℂ) + ((3 ^ 2 * (√2 * (1 / 3)) : ℝ) : ℂ) * Complex.I) ^ 2
      = 46 + (48 * √2 : ℝ) * Complex.I := by
    have h2' : ((√2 : ℝ) : ℂ) * ((√2 : ℝ) : ℂ) = 2 := by exact_mod_cast h2
    push_cast
    linear_combination 9 * (√2 : ℂ) ^ 2 * hI - 9 * h2'
  have hn : ‖(46 + (48 * √2 : ℝ) * Complex.I : ℂ)‖ = 82 := by
    have : Complex.normSq (46 + (48 * √2 : ℝ) * Complex.I) = 82 ^ 2 := by
      have := Complex.normSq_add_mul_I 46 (48 * √2)
      rw [Complex.ofReal_ofNat] at this
      rw [this]
      linear_combination 48 ^ 2 * h2
    rw [Complex.norm_def, this, Real.sqrt_sq (by norm_num)]
  have hne : (46 + (48 * √2 : ℝ) * Complex.I : ℂ) ≠ 0 := by rw [← norm_pos_iff, hn]; norm_num
  rw [hz] at hD
  have hD := hD (by
    apply div_ne_zero _ hne
    norm_num)
  rw [norm_div, hn] at hD
  have hval : Complex.exp (φ * Complex.I) = ((23 / 41 : ℝ) : ℂ) + ((-(24 * √2 / 41) : ℝ) : ℂ) * Complex.I := by
    have h2' : ((√2 : ℝ) : ℂ) * ((√2 : ℝ) : ℂ) = 2 := by exact_mod_cast h2
    rw [hD, Complex.norm_real, Real.norm_eq_abs, abs_of_pos (by norm_num)]
    push_cast at hne ⊢
    rw [div_div_eq_mul_div, div_mul_eq_mul_div, div_eq_iff (by norm_num), div_eq_iff hne]
    linear_combination (24 * 48 / 41 * 81 * ((√2 : ℝ) : ℂ) ^ 2) * hI - 24 * 48 / 41 * 81 * h2'
  have hsin : Real.sin φ = -(24 * √2 / 41) := by
    have := congrArg Complex.im hval
    rw [Complex.exp_ofReal_mul_I_im] at this
    simpa using this
  have hcos : Real.cos φ = 23 / 41 := by
    have := congrArg Complex.re hval
    rw [Complex.exp_ofReal_mul_I_re] at this
    simpa using this
  have l2 : (1.41 : ℝ) < √2 := by rw [Real.lt_sqrt (by norm_num)]; norm_num
  have u2 : √2 < 1.42 := by rw [Real.sqrt_lt' (by norm_num)]; norm_num
  have hs1 : |Real.sin φ| = 24 * √2 / 41 := by rw [hsin, abs_neg, abs_of_pos (by positivity)]
  have hphi : |φ| > 1 / 10 ^ 5 := by
    have : |Real.sin φ| ≤ |φ| := Real.abs_sin_le_abs
    rw [hs1] at this
    linarith
  obtain ⟨s, hs, _⟩ := C58_allpass_minimum (rate := rate) (hz := rate / 6) (phase := φ) (by positivity) (by linarith) hphi
    (by rw [hs1]; linarith)
  have hs' := hs
  unfold allpassMinimum allpass at hs'
  split_ifs at hs' with hc
  have hs' := (Option.some.inj hs').symm
  have hS : Real.sin (2 * Real.pi * (rate / 6) / rate) ≠ 0 := by
    rw [show 2 * Real.pi * (rate / 6) / rate = Real.pi / 3 by field_simp; norm_num, Real.sin_pi_div_three]; positivity
  have hK : allpassK rate (rate / 6) φ (minimumGroupDelay rate (rate / 6) φ) = -1.001 := by
    unfold allpassK minimumGroupDelay infimalGroupDelay
    rw [hs1, hsin]
    generalize Real.sin (2 * Real.pi * (rate / 6) / rate) = S at hS ⊢
    field_simp
  have hW : prewarp (rate / 6) rate = 2 * rate * (1 / √3) := by unfold prewarp; rw [t0]
  obtain ⟨r, hrd⟩ : ∃ r, r = √((-1.001 - 1) / (-1.001 + 1) : ℝ) := ⟨_, rfl⟩
  have hr2 : r * r = 2001 := by rw [hrd, Real.mul_self_sqrt (by norm_num)]; norm_num
  have hr0 : 0 < r := by rw [hrd]; exact Real.sqrt_pos.2 (by norm_num)
  have hO : allpassOmega0 rate (rate / 6) φ (minimumGroupDelay rate (rate / 6) φ) = 2 * rate * (1 / √3) * r := by
    unfold allpassOmega0; rw [hK, hW, hrd]
  have hQ : allpassQ rate (rate / 6) φ (minimumGroupDelay rate (rate / 6) φ) = 8 / (3 * √2) * r / 2000 := by
    unfold allpassQ
    rw [hO, hW, hsin, hcos]
    have : 2 * rate * (1 / √3) * (2 * rate * (1 / √3)) - 2 * rate * (1 / √3) * r * (2 * rate * (1 / √3) * r)
        = (2 * rate * (1 / √3)) ^ 2 * (-2000) := by linear_combination -(2 * rate * (1 / √3)) ^ 2 * hr2
    rw [this]
    field_simp
    norm_num
  have hb : s.a.getD 2 0 = (5344 / (6000 * √2) - 1 / √3) / (5344 / (6000 * √2) + 1 / √3) := by
    rw [hs']
    simp only [List.getD_cons_succ, List.getD_cons_zero]
    unfold allpassDenominator
    dsimp only
    rw [hQ, hO]
    have hp : 2 * rate * (1 / √3) * r / rate / 2 = r * (1 / √3) := by field_simp
    rw [hp]
    have hpp : r * (1 / √3) * (r * (1 / √3)) + 1 = 668 := by
      have : r * (1 / √3) * (r * (1 / √3)) = (r * r) / (√3 * √3) := by field_simp
      rw [this, hr2, h3]; norm_num
    rw [hpp, show 8 / (3 * √2) * r / 2000 * 668 - r * (1 / √3) = r * (5344 / (6000 * √2) - 1 / √3) by field_simp; ring,
      show 8 / (3 * √2) * r / 2000 * 668 + r * (1 / √3) = r * (5344 / (6000 * √2) + 1 / √3) by field_simp; ring,
      mul_div_mul_left _ _ hr0.ne']
  have hA1 : (0.62 : ℝ) < 5344 / (6000 * √2) := by rw [lt_div_iff₀ (by positivity)]; linarith
  have hA2 : 5344 / (6000 * √2) < 1 := by rw [div_lt_iff₀ (by positivity)]; linarith
  have hB1 : 1 / √3 < 0.6 := by rw [div_lt_iff₀ (by positivity)]; linarith
  have hB0 : 0 < 1 / √3 := by positivity
  have hbig : 1 / 10 ^ 10 < |s.a.getD 2 0| := by
    rw [hb, abs_of_pos (div_pos (by linarith) (by linarith)), lt_div_iff₀ (by linarith)]
    linarith
  obtain ⟨sb, sv, _⟩ := allpassMinimum_spec hs
  have hsimp : simplify (1 / 10 ^ 10) [s] = some [s] := by
    have := append_second (ε := 1 / 10 ^ 10) (acc := []) (s := s) (by simp) (Second.not_zero sb)
    exact this
  refine ⟨{ c1 with ap := [[s]] }, ?_, fun b hb t ht => ?_⟩
  · rw [e, hs]
    dsimp only
    rw [hsimp]
    rfl
  · have : b = 0 := by omega
    subst this
    rw [List.getD_cons_zero, List.mem_singleton] at ht
    rw [ht]
    exact hbig

/-- Hence such a bank can be constructed and initialised, and its three bands are in phase at both crossover
frequencies, with amplitudes that add up to one everywhere. -/
example {rate : ℝ} (hr : 0 < rate) : ∃ b0 b c, make 3 = some b0 ∧
    b0.init cfg (1 / 10 ^ 10) .linkwitzRiley (2 * 2) rate [rate / 6, rate / 3] = some b ∧ Reachable cfg 2 3 rate b ∧
    SameRay ℝ (bandResponse c 3 0 (radians (rate / 6) rate)) (bandResponse c 3 1 (radians (rate / 6) rate)) ∧
    SameRay ℝ (bandResponse c 3 1 (radians (rate / 3) rate)) (bandResponse c 3 2 (radians (rate / 3) rate)) ∧
    ∀ θ, ∑ b ∈ Finset.range 3, ‖bandResponse c 3 b θ‖ = 1 := by
  obtain ⟨h1, c, h2, h3⟩ := three_band_example hr
  obtain ⟨b0, hb0⟩ : ∃ b0, make 3 = some b0 := ⟨_, by rw [make, if_pos (by norm_num)]⟩
  obtain ⟨b, hb⟩ := C46_init_succeeds_partial (cfg := cfg) (by norm_num) h1 h2 h3 hb0
  have hp := C46_in_phase_partial (by norm_num) h1 h2 h3
  exact ⟨b0, b, c, hb0, hb, .init hb0 h1 hb, hp 0 (by norm_num), hp 1 (by norm_num),
    C46_amplitudes_sum_partial (by norm_num) (by norm_num) h1 h2 h3⟩

example {rate : ℝ} (hr : 0 < rate) (heta : cfg.eta = 0) (blocks : List (List ℝ)) : ∃ b0 b b' outs c, make 3 = some b0 ∧
    b0.init cfg (1 / 10 ^ 10) .linkwitzRiley (2 * 2) rate [rate / 6, rate / 3] = some b ∧
    b.run cfg blocks = some (b', outs) ∧ ∀ i, i < 3 → ∃ p q, asPolynomialRatio (Coeffs.bandStages c 3 i) = some (p, q) ∧
      DiffEq p q blocks.flatten (outs.map (·.getD i [])).flatten := by
  obtain ⟨h1, c, h2, h3⟩ := three_band_example hr
  obtain ⟨b0, hb0⟩ : ∃ b0, make 3 = some b0 := ⟨_, by rw [make, if_pos (by norm_num)]⟩
  obtain ⟨b, b', outs, e1, e2, e3⟩ := C46_linkwitz_transfer_partial (by norm_num) (by norm_num) h1 h2 h3 heta hb0 blocks
  exact ⟨b0, b, b', outs, c, hb0, e1, e2, e3⟩

end Verif.MultiCrossover
