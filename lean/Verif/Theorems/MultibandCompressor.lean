import Verif.Proof.MultibandCompressor

/-!
# C71: the multi-band compressor

Sample rates are at least 1200 Hz (see C32). `junk` is the content of uninitialised memory.
-/

namespace Verif.MultibandCompressor
open Verif.FilterDesign Verif.PoleZero Verif.Drc Verif.MultiCrossover.Spec Verif.LinearFilter Spec

variable {C : ℕ} {cfg : Ladder.Config}

/-- **C71.** For all valid parameters, any number of channels and every way to cut the signal into blocks of at most the
maximal size: all calls succeed, each output block is as long as its input block, and the output is the sum over the
bands of the documented dynamic range control of the band (with its own parameters, its own look-ahead and all the
channels of the band as the side chain), applied to the input filtered by the filters of the band (see C46). -/
theorem C71_output {p : Params} (hn : p.drc.length = p.numBands) (hv : ∀ q ∈ p.drc, q.Valid ∧ 0 ≤ q.lookahead) (hC : 0 < C)
    {m : ℕ} (hm : 0 < m) {rate : ℝ} (hrate : 1200 ≤ rate) {b0 b : MultiCrossover.Bank}
    (h0 : MultiCrossover.make p.numBands = some b0) (hb : b0.init cfg (1 / 10 ^ 10) p.type p.order rate p.freqs = some b)
    {L H A : ℕ → List Ladder.Filter} (hh : Holds b p.numBands L H A) (junk : ℕ → Fin C → ℝ)
    (blocks : List (List (Fin C → ℝ))) (hbl : ∀ x ∈ blocks, x.length ≤ m) :
    ∃ s0 s s' outs, Compressor.make C p = .ok s0 ∧ s0.init cfg m rate = .ok s ∧ s.run cfg junk blocks = .ok (s', outs) ∧
      outs.map List.length = blocks.map List.length ∧
      outs.flatten = mix p.numBands blocks.flatten.length fun i =>
        Drc.Spec.output (p.drc.getD i {}) rate ⌊(p.drc.getD i {}).lookahead * rate + 1 / 2⌋₊
          (filtered cfg (path p.numBands L H A i) blocks.flatten) (filtered cfg (path p.numBands L H A i) blocks.flatten) := by
  obtain ⟨s0, s, d, e0, e1, e2, -, hd⟩ := start (cfg := cfg) hn hv hC hm hrate h0 hb
  have hP : ∀ i, (p.drc.getD i {}).Valid := fun i => by
    by_cases hi : i < p.drc.length
    · rw [List.getD_eq_getElem _ _ hi]; exact (hv _ (List.getElem_mem _)).1
    · rw [List.getD_eq_default _ _ (by omega)]; exact default_valid
  obtain ⟨s', outs, -, -, -, -, -, r1, r2, r3, -⟩ := run_spec (cfg := cfg)
    (fun i => steady (hP i) rate ⌊(p.drc.getD i {}).lookahead * rate + 1 / 2⌋₊ m junk) blocks (s := s) (d := d)
    (past := fun _ => []) (L := fun _ => L) (H := fun _ => H) (A := fun _ => A) (fun c => by rw [e2]; exact hh) (by rw [e2])
    hd hbl
  refine ⟨s0, s, s', outs, e0, e1, r1, r2, ?_⟩
  rw [r3]
  unfold mix
  refine List.map_congr_left fun t _ => Finset.sum_congr rfl fun i _ => ?_
  exact congrArg (fun y => List.getD y t 0) (tailOut_output _ _ _ _ _)

/-- What `Init` of a Linkwitz-Riley bank leaves behind. -/
theorem bank_rep {N n : ℕ} (hN : 0 < N) {rate : ℝ} {freqs : List ℝ} (hf : ∀ hz ∈ freqs, Regular N rate hz)
    {b0 b : MultiCrossover.Bank} (h0 : MultiCrossover.make n = some b0)
    (hb : b0.init cfg (1 / 10 ^ 10) .linkwitzRiley (2 * N) rate freqs = some b) :
    ∃ c L H A, MultiCrossover.design (1 / 10 ^ 10) .linkwitzRiley (2 * N) n rate freqs = some c ∧ Holds b n L H A ∧
      (∀ i, i < n - 1 → MultiCrossover.Made cfg (c.low.getD i []) (L i) ∧ MultiCrossover.Made cfg (c.high.getD i []) (H i)) ∧
        ∀ i, i < n - 2 → MultiCrossover.Made cfg (c.ap.getD i []) (A i) := by
  unfold MultiCrossover.make at h0
  split_ifs at h0 with hn
  have h0 := (Option.some.inj h0).symm
  have hbn : b0.n = n := by rw [h0]
  obtain ⟨c, hd, hr⟩ := MultiCrossover.init_rep (by rw [hbn]; omega) (by rw [hbn, h0]; simp) hb
  rw [hbn] at hd hr
  obtain ⟨-, -, -, q⟩ := MultiCrossover.linkwitz_design hN hf hd
  obtain ⟨L, H, A, hh, m1, m2⟩ := hr fun i hi => ⟨(q i hi).1, (q i hi).2.1⟩
  exact ⟨c, L, H, A, hd, hh, m1, m2⟩

/-- **C71.** Linkwitz-Riley crossovers of order `2 N` at regular frequencies: whenever the crossover filterbank can be
initialised, so can the compressor, and the output does not depend on the division of the signal into blocks, on the
maximal block size or on uninitialised memory. -/
theorem C71_block_invariance {p : Params} (hn : p.drc.length = p.numBands) (hv : ∀ q ∈ p.drc, q.Valid ∧ 0 ≤ q.lookahead)
    (hC : 0 < C) {m m' : ℕ} (hm : 0 < m) (hm' : 0 < m') {rate : ℝ} (hrate : 1200 ≤ rate) {N : ℕ} (hN : 0 < N)
    (hf : ∀ hz ∈ p.freqs, Regular N rate hz) (ht : p.type = .linkwitzRiley) (ho : p.order = 2 * N)
    {b0 b : MultiCrossover.Bank} (h0 : MultiCrossover.make p.numBands = some b0)
    (hb : b0.init cfg (1 / 10 ^ 10) p.type p.order rate p.freqs = some b) (junk junk' : ℕ → Fin C → ℝ)
    (cut cut' : List (List (Fin C → ℝ))) (hcut : ∀ x ∈ cut, x.length ≤ m) (hcut' : ∀ x ∈ cut', x.length ≤ m')
    (same : cut.flatten = cut'.flatten) :
    ∃ s0 s t s' t' outs outs', Compressor.make C p = .ok s0 ∧ s0.init cfg m rate = .ok s ∧ s0.init cfg m' rate = .ok t ∧
      s.run cfg junk cut = .ok (s', outs) ∧ t.run cfg junk' cut' = .ok (t', outs') ∧ outs.flatten = outs'.flatten := by
  have hb' := hb
  rw [ht, ho] at hb'
  obtain ⟨c, L, H, A, -, hh, -⟩ := bank_rep hN hf h0 hb'
  obtain ⟨s0, s, s', outs, h1, h2, h3, -, h4⟩ := C71_output hn hv hC hm hrate h0 hb hh junk cut hcut
  obtain ⟨s0', t, t', outs', k1, k2, k3, -, k4⟩ := C71_output hn hv hC hm' hrate h0 hb hh junk' cut' hcut'
  rw [h1] at k1
  obtain rfl := Except.ok.inj k1
  exact ⟨s0, s, t, s', t', outs, outs', h1, h2, k2, h3, k3, by rw [h4, k4, same]⟩

/-- **C71 (partial: exact ladder filters, `η = 0`, as in `C46_linkwitz_transfer_partial`).** Linkwitz-Riley crossovers of
order `4 M`: the output is the sum of the documented dynamic range controls of the signals `band i`, each of which is,
in every channel, the input filtered by the transfer function designed for the band. -/
theorem C71_transfer_partial {p : Params} (hn : p.drc.length = p.numBands) (hv : ∀ q ∈ p.drc, q.Valid ∧ 0 ≤ q.lookahead)
    (hC : 0 < C) {m : ℕ} (hm : 0 < m) {rate : ℝ} (hrate : 1200 ≤ rate) {N : ℕ} (hN : 0 < N) (he : N % 2 = 0)
    (hf : ∀ hz ∈ p.freqs, Regular N rate hz) (ht : p.type = .linkwitzRiley) (ho : p.order = 2 * N) (h2 : 2 ≤ p.numBands)
    {c : MultiCrossover.Coeffs} (h : MultiCrossover.design (1 / 10 ^ 10) .linkwitzRiley (2 * N) p.numBands rate p.freqs = some c)
    (hc : ∀ b, b < p.numBands - 2 → ∀ s ∈ c.ap.getD b [], 1 / 10 ^ 10 < |s.a.getD 2 0|) (heta : cfg.eta = 0)
    (junk : ℕ → Fin C → ℝ) (blocks : List (List (Fin C → ℝ))) (hbl : ∀ x ∈ blocks, x.length ≤ m) :
    ∃ s0 s s' outs, ∃ band : ℕ → List (Fin C → ℝ),
      Compressor.make C p = .ok s0 ∧ s0.init cfg m rate = .ok s ∧ s.run cfg junk blocks = .ok (s', outs) ∧
      (∀ i, i < p.numBands → ∃ num den, BiquadCascade.asPolynomialRatio (c.bandStages p.numBands i) = some (num, den) ∧
        ∀ ch, DiffEq num den (blocks.flatten.map fun f => f ch) ((band i).map fun f => f ch)) ∧
      outs.flatten = mix p.numBands blocks.flatten.length fun i =>
        Drc.Spec.output (p.drc.getD i {}) rate ⌊(p.drc.getD i {}).lookahead * rate + 1 / 2⌋₊ (band i) (band i) := by
  obtain ⟨b0, h0⟩ : ∃ b0, MultiCrossover.make p.numBands = some b0 := by
    unfold MultiCrossover.make; rw [if_pos (by omega)]; exact ⟨_, rfl⟩
  obtain ⟨b, hb⟩ := MultiCrossover.C46_init_succeeds_partial (cfg := cfg) hN hf h hc h0
  obtain ⟨c', L, H, A, hd, hh, m1, m2⟩ := bank_rep hN hf h0 hb
  rw [h] at hd
  obtain rfl := Option.some.inj hd
  have hst := MultiCrossover.C46_stable_partial hN he hf h hc
  rw [← ht, ← ho] at hb
  obtain ⟨s0, s, s', outs, r1, r2, r3, -, r4⟩ := C71_output hn hv hC hm hrate h0 hb hh junk blocks hbl
  refine ⟨s0, s, s', outs, fun i => filtered cfg (path p.numBands L H A i) blocks.flatten, r1, r2, r3, fun i hi => ?_, r4⟩
  obtain ⟨num, den, e1, e2⟩ := MultiCrossover.made_diffEq (MultiCrossover.path_made m1 m2 hi)
    (MultiCrossover.pathStages_perm c p.numBands i) (fun s hs => MultiCrossover.stable_exact (hst i hi s hs).1 heta)
    (fun s hs => (hst i hi s hs).2)
  refine ⟨num, den, e1, fun ch => ?_⟩
  have e := e2 (blocks.flatten.map fun f => f ch)
  have : (filtered cfg (path p.numBands L H A i) blocks.flatten).map (fun f => f ch) =
      (cascade cfg (path p.numBands L H A i) (blocks.flatten.map fun f => f ch)).2 := by
    unfold filtered
    rw [List.map_map]
    have hl := MultiCrossover.cascade_length (cfg := cfg) (path p.numBands L H A i) (blocks.flatten.map fun f => f ch)
    rw [List.length_map] at hl
    refine List.ext_getElem (by rw [List.length_map, List.length_range, hl]) fun t t1 t2 => ?_
    rw [List.getElem_map, List.getElem_range]
    simp only [Function.comp]
    rw [List.getD_eq_getElem _ _ t2]
  rw [this]
  exact e

/-- **C71 (violation).** `Reset` switches the compressor off. After any run of blocks, `Reset` leaves a compressor
without look-ahead, whatever its parameters, with the plain sum of the bands as its output: the controls of all bands
have gone to the default parameters (see `C30_reset_loses_parameters_violation`). -/
theorem C71_reset_violation {p : Params} (hn : p.drc.length = p.numBands) (hv : ∀ q ∈ p.drc, q.Valid ∧ q.lookahead = 0)
    (hC : 0 < C) {m : ℕ} (hm : 0 < m) {rate : ℝ} (hrate : 1200 ≤ rate) {N : ℕ} (hN : 0 < N)
    (hf : ∀ hz ∈ p.freqs, Regular N rate hz) {b0 b : MultiCrossover.Bank}
    (ht : p.type = .linkwitzRiley) (ho : p.order = 2 * N)
    (h0 : MultiCrossover.make p.numBands = some b0) (hb : b0.init cfg (1 / 10 ^ 10) p.type p.order rate p.freqs = some b) :
    ∃ L H A, Holds b p.numBands L H A ∧ ∀ (junk : ℕ → Fin C → ℝ)
      (before blocks : List (List (Fin C → ℝ))), (∀ x ∈ before, x.length ≤ m) → (∀ x ∈ blocks, x.length ≤ m) →
    ∃ s0 s s1 s2 s' outs1 outs, Compressor.make C p = .ok s0 ∧ s0.init cfg m rate = .ok s ∧
      s.run cfg junk before = .ok (s1, outs1) ∧ s1.reset cfg = .ok s2 ∧ s2.run cfg junk blocks = .ok (s', outs) ∧
      outs.flatten = mix p.numBands blocks.flatten.length fun i =>
        filtered cfg (path p.numBands L H A i) blocks.flatten := by
  have hb' := hb
  rw [ht, ho] at hb'
  obtain ⟨c, L, H, A, -, hh, m1, m2⟩ := bank_rep hN hf h0 hb'
  refine ⟨L, H, A, hh, fun junk before blocks hbe hbl => ?_⟩
  obtain ⟨s0, s, d, e0, e1, e2, -, hd⟩ := start (cfg := cfg) hn (fun q hq => ⟨(hv q hq).1, (hv q hq).2.ge⟩) hC hm hrate h0 hb
  have hP : ∀ i, (p.drc.getD i {}).Valid ∧ (p.drc.getD i {}).lookahead = 0 := fun i => by
    by_cases hi : i < p.drc.length
    · rw [List.getD_eq_getElem _ _ hi]; exact hv _ (List.getElem_mem _)
    · rw [List.getD_eq_default _ _ (by omega)]; exact ⟨default_valid, rfl⟩
  have hK : ∀ i, ⌊(p.drc.getD i {}).lookahead * rate + 1 / 2⌋₊ = 0 := fun i => by rw [(hP i).2]; norm_num
  obtain ⟨s1, outs1, d1, past1, L1, H1, A1, r1, -, -, hh1, hd1, w, hi1⟩ := run_spec (cfg := cfg)
    (fun i => steady (hP i).1 rate ⌊(p.drc.getD i {}).lookahead * rate + 1 / 2⌋₊ m junk) before (s := s) (d := d)
    (past := fun _ => []) (L := fun _ => L) (H := fun _ => H) (A := fun _ => A) (fun c => by rw [e2]; exact hh) (by rw [e2])
    hd hbe
  have hres := fun ch => MultiCrossover.reset_rep (cfg := cfg) (hh1 ch)
  choose bs hbs hh2 using hres
  have hdr : ∀ i, ∃ d2, i < p.numBands → (d1 i).reset = .ok d2 ∧ (pass rate m junk).inv d2 (past1 i) := fun i => by
    by_cases hi : i < p.numBands
    · obtain ⟨⟨x, y, hs⟩, hnext⟩ := hi1 i hi
      obtain ⟨e, he, hg, hr, -⟩ := hs.env
      have hl := hs.lookahead
      rw [hK i] at hl
      refine ⟨{ d1 i with
        envelope := some e.reset
        params := (d1 i).nextParams
        changeNeeded := false }, fun _ => ⟨by unfold Control.reset; rw [he], ⟨x, y, ⟨_, rfl, hg.apply (o := .reset) trivial, hr⟩, hs.delay, hl, hs.block, hs.rate⟩,
        hnext, rfl⟩⟩
    · exact ⟨d1 i, fun h => absurd h hi⟩
  choose d2 hd2 using hdr
  have e3 : s1.reset cfg = .ok { s1 with splitter := bs, drcs := (List.range p.numBands).map d2 } := by
    unfold Compressor.reset
    rw [perChannel_some hbs]
    dsimp only
    rw [hd1, List.mapM_map]
    rw [mapM_ok' (f := Control.reset ∘ d1) (g := d2) fun i hi => (hd2 i (List.mem_range.1 hi)).1]
  obtain ⟨s', outs, -, -, -, -, -, r2, -, r3, -⟩ := run_spec (cfg := cfg) (n := p.numBands)
    (fun _ => pass rate m junk) blocks (s := { s1 with splitter := bs, drcs := (List.range p.numBands).map d2 }) (d := d2)
    (past := past1) (L := fun c i => (L1 c i).map (Ladder.reset cfg)) (H := fun c i => (H1 c i).map (Ladder.reset cfg))
    (A := fun c i => (A1 c i).map (Ladder.reset cfg)) hh2 rfl (fun i hi => (hd2 i hi).2) hbl
  refine ⟨s0, s, s1, _, s', outs1, outs, e0, e1, r1, e3, r2, ?_⟩
  rw [r3]
  have hpath : ∀ ch i, i < p.numBands → path p.numBands (fun i => (L1 ch i).map (Ladder.reset cfg))
      (fun i => (H1 ch i).map (Ladder.reset cfg)) (fun i => (A1 ch i).map (Ladder.reset cfg)) i = path p.numBands L H A i := by
    intro ch i hi
    have hL : ∀ j, j < p.numBands - 1 → (L1 ch j).map (Ladder.reset cfg) = L j := fun j hj => by
      obtain ⟨x1, _, _, q1, _, _⟩ := w ch j
      rw [q1, MultiCrossover.cascade_reset (m1 j hj).1]
    have hH : ∀ j, j < p.numBands - 1 → (H1 ch j).map (Ladder.reset cfg) = H j := fun j hj => by
      obtain ⟨_, x2, _, _, q2, _⟩ := w ch j
      rw [q2, MultiCrossover.cascade_reset (m1 j hj).2]
    have hA : ∀ j, j < p.numBands - 2 → (A1 ch j).map (Ladder.reset cfg) = A j := fun j hj => by
      obtain ⟨_, _, x3, _, _, q3⟩ := w ch j
      rw [q3, MultiCrossover.cascade_reset (m2 j hj)]
    unfold path
    congr 1
    · congr 1
      · exact List.flatMap_congr fun j hj => hH j (by have := List.mem_range.1 hj; omega)
      · split_ifs with hc
        · exact hL i hc
        · rfl
    · split_ifs with hc
      · exact hA i hc
      · rfl
  unfold mix
  refine List.map_congr_left fun t _ => Finset.sum_congr rfl fun i hi => ?_
  have hi := Finset.mem_range.1 hi
  unfold filtered
  show (filteredC cfg _ _).getD t 0 = _
  unfold filteredC
  congr 1
  refine List.map_congr_left fun t _ => funext fun ch => ?_
  dsimp only
  rw [hpath ch i hi]

theorem initFilter_true (slot slot' : MultiCrossover.Slot) (s : BiquadCascade.Stage ℝ) :
    MultiCrossover.initFilter cfg true slot s = MultiCrossover.initFilter cfg true slot' s := rfl

theorem initChain_true : ∀ (cs : List (BiquadCascade.Stage ℝ)) (old old' : List MultiCrossover.Slot),
    MultiCrossover.initChain cfg true old cs = MultiCrossover.initChain cfg true old' cs
  | [], _, _ => rfl
  | s :: cs, old, old' => by
    simp only [MultiCrossover.initChain]
    rw [initFilter_true (old.headD none) (old'.headD none), initChain_true cs old.tail old'.tail]

theorem initChains_true : ∀ (css : List (List (BiquadCascade.Stage ℝ))) (old old' : List (List MultiCrossover.Slot)),
    MultiCrossover.initChains cfg true old css = MultiCrossover.initChains cfg true old' css
  | [], _, _ => rfl
  | cs :: css, old, old' => by
    simp only [MultiCrossover.initChains]
    rw [initChain_true cs (old.headD []) (old'.headD []), initChains_true css old.tail old'.tail]

theorem init_congr {b b' : MultiCrossover.Bank} (h1 : b'.n = b.n) (h2 : b'.out = b.out) {ε : ℝ} (type : CrossoverType)
    (order : ℕ) (rate : ℝ) (freqs : List ℝ) : b'.init cfg ε type order rate freqs = b.init cfg ε type order rate freqs := by
  unfold MultiCrossover.Bank.init
  rw [h1]
  congr 1
  funext c
  unfold MultiCrossover.Bank.applyCoeffs
  rw [initChains_true c.low b'.low b.low, initChains_true c.high b'.high b.high, initChains_true c.ap b'.ap b.ap, h1, h2]

theorem setFrequencies_keeps {b b' : MultiCrossover.Bank} {ε : ℝ} {type : CrossoverType} {order : ℕ} {rate : ℝ}
    {freqs : List ℝ} (h : b.setFrequencies cfg ε type order rate freqs = some b') : b'.n = b.n ∧ b'.out = b.out := by
  unfold MultiCrossover.Bank.setFrequencies at h
  simp only [Option.bind_eq_bind] at h
  obtain ⟨c, -, h⟩ := Option.bind_eq_some_iff.1 h
  unfold MultiCrossover.Bank.applyCoeffs at h
  simp only [Option.bind_eq_bind] at h
  obtain ⟨_, -, h⟩ := Option.bind_eq_some_iff.1 h
  obtain ⟨_, -, h⟩ := Option.bind_eq_some_iff.1 h
  obtain ⟨_, -, h⟩ := Option.bind_eq_some_iff.1 h
  rw [← Option.some.inj h]
  exact ⟨rfl, rfl⟩

/-- **C71 (violation).** Frequencies set with `SetCrossoverFrequencies` do not survive an `Init` (for instance for
another sample rate): the object goes back to the frequencies given to its constructor. -/
theorem C71_init_forgets_frequencies_violation {s s1 : Compressor C} {freqs : List ℝ}
    (h : s.setFrequencies cfg freqs = .ok s1) (m : ℕ) (rate : ℝ) : s1.init cfg m rate = s.init cfg m rate := by
  unfold Compressor.setFrequencies at h
  cases hb : perChannel fun c => (s.splitter c).setFrequencies cfg (1 / 10 ^ 10) s.type s.order s.rate freqs with
  | none => rw [hb] at h; simp at h
  | some bs =>
    rw [hb] at h
    obtain rfl := Except.ok.inj h
    have hk := fun c => setFrequencies_keeps (perChannel_eq hb c)
    unfold Compressor.init
    dsimp only
    have : (fun c => (bs c).init cfg (1 / 10 ^ 10) s.type s.order rate s.freqs) =
        fun c => (s.splitter c).init cfg (1 / 10 ^ 10) s.type s.order rate s.freqs :=
      funext fun c => init_congr (hk c).1 (hk c).2 _ _ _ _
    rw [this]

/-- **C71.** `SetDynamicRangeControlParams(stage, ...)` changes the control of that band only, and aborts for stages
outside the range. -/
theorem C71_set_drc {s : Compressor C} (stage : ℤ) (q : Drc.Params) :
    (stage < 0 ∨ (s.drcs.length : ℤ) ≤ stage → s.setDrc stage q = .error .check) ∧
    ∀ s', s.setDrc stage q = .ok s' → s'.splitter = s.splitter ∧ s'.drcs.length = s.drcs.length ∧
      ∀ i : ℕ, (i : ℤ) ≠ stage → s'.drcs[i]? = s.drcs[i]? := by
  refine ⟨fun h => ?_, fun s' h => ?_⟩
  · unfold Compressor.setDrc
    rw [if_neg (by omega)]
  · unfold Compressor.setDrc at h
    split_ifs at h with hr
    cases hd : s.drcs[stage.toNat]? with
    | none => rw [hd] at h; simp at h
    | some d =>
      rw [hd] at h
      dsimp only at h
      cases hs : d.setParams q with
      | error e => rw [hs] at h; simp at h
      | ok d' =>
        rw [hs] at h
        obtain rfl := Except.ok.inj h
        refine ⟨rfl, by simp, fun i hi => ?_⟩
        dsimp only
        rw [List.getElem?_set_ne (by omega)]

/-- Three Linkwitz-Riley bands of order 4 and a stereo signal: parameters that meet the hypotheses. -/
theorem three_band_params {rate : ℝ} (hr : 1200 ≤ rate) (cfg : Ladder.Config) (q : Drc.Params) (hq : q.Valid ∧ q.lookahead = 0) :
    ∃ p b0 b, Params.make 3 [rate / 6, rate / 3] 4 .linkwitzRiley = some p ∧
      p.setDrc 1 q = some { p with drc := [{}, q, {}] } ∧ (∀ q' ∈ [({} : Drc.Params), q, {}], q'.Valid ∧ q'.lookahead = 0) ∧
      p.type = .linkwitzRiley ∧ p.order = 2 * 2 ∧ p.numBands = 3 ∧ (∀ hz ∈ p.freqs, Regular 2 rate hz) ∧
      MultiCrossover.make p.numBands = some b0 ∧ b0.init cfg (1 / 10 ^ 10) p.type p.order rate p.freqs = some b := by
  obtain ⟨h1, c, h2, h3⟩ := MultiCrossover.three_band_example (rate := rate) (by linarith)
  obtain ⟨b0, h0⟩ : ∃ b0, MultiCrossover.make 3 = some b0 := ⟨_, rfl⟩
  obtain ⟨b, hb⟩ := MultiCrossover.C46_init_succeeds_partial (cfg := cfg) (by norm_num) h1 h2 h3 h0
  refine ⟨⟨3, 4, .linkwitzRiley, [rate / 6, rate / 3], List.replicate 3 {}⟩, b0, b, ?_, ?_, ?_, rfl, rfl, rfl, h1, h0, hb⟩
  · unfold Params.make; rw [if_pos (by simp)]
  · unfold Params.setDrc; rw [if_pos (by norm_num)]; rfl
  · intro q' h'
    simp only [List.mem_cons, List.not_mem_nil, or_false] at h'
    rcases h' with rfl | rfl | rfl
    · exact ⟨default_valid, rfl⟩
    · exact hq
    · exact ⟨default_valid, rfl⟩

/-- The middle band gets a limiter: the hypotheses of the theorems above are met. -/
example (cfg : Ladder.Config) (junk : ℕ → Fin 2 → ℝ) (blocks : List (List (Fin 2 → ℝ))) (hbl : ∀ x ∈ blocks, x.length ≤ 512) :
    ∃ p s0 s s' outs, Compressor.make 2 p = .ok s0 ∧ s0.init cfg 512 48000 = .ok s ∧
      s.run cfg junk blocks = .ok (s', outs) ∧ outs.map List.length = blocks.map List.length := by
  obtain ⟨p, b0, b, -, -, h3, h4, h5, h6, h7, h8, h9⟩ := three_band_params (rate := 48000) (by norm_num) cfg
    { kind := .limiter, threshold := -6 } ⟨⟨le_rfl, one_pos, by norm_num, by norm_num⟩, rfl⟩
  have h9' := h9
  rw [h4, h5] at h9'
  obtain ⟨c, L, H, A, -, hh, -⟩ := bank_rep (by norm_num) h7 h8 h9'
  obtain ⟨s0, s, s', outs, r1, r2, r3, r4, -⟩ := C71_output (C := 2)
    (p := { p with drc := [{}, { kind := .limiter, threshold := -6 }, {}] }) (by simp [h6])
    (fun q hq => ⟨(h3 q hq).1, (h3 q hq).2.ge⟩) (by norm_num) (m := 512) (by norm_num) (rate := 48000) (by norm_num) h8 h9 hh junk
    blocks hbl
  exact ⟨_, s0, s, s', outs, r1, r2, r3, r4⟩

end Verif.MultibandCompressor
