import Verif.Proof.Drc

/-!
# C30, C31: `DynamicRangeControl`

Sample rates are at least 1200 Hz (see C32). `junk` is the content of uninitialised memory the delay
line may allocate: nothing depends on it.
-/

namespace Verif.Drc
open Verif.Envelope

variable {C : ℕ}

/-- **C31.** For all valid parameters, every number of channels, every sample rate from 1200 Hz and
every way to cut the signal and its sidechain into blocks of at most the maximal size: all calls
succeed, each output block is as long as its input block, and the concatenated output is the
documented one, a function of the whole signal only: the input delayed by the look-ahead times the
static-curve gain of the envelope. -/
theorem C31_output {P : Params} (hk : 0 ≤ P.knee) (hr : 0 < P.ratio) (ha : 0 < P.attack)
    (hl : 0 < P.release) (h0 : 0 ≤ P.lookahead) (hC : 0 < C) {m : ℕ} (hm : 0 < m) {rate : ℝ}
    (hrate : 1200 ≤ rate) (junk : ℕ → Fin C → ℝ)
    (blocks : List (List (Fin C → ℝ) × List (Fin C → ℝ)))
    (hb : ∀ b ∈ blocks, b.1.length = b.2.length ∧ b.1.length ≤ m) :
    ∃ s0 s s' outs, Control.make C P = .ok s0 ∧ s0.init m rate = .ok s ∧
      s.run junk blocks = .ok (s', outs) ∧
      outs.map List.length = blocks.map (fun b => b.1.length) ∧
      outs.flatten = Spec.output P rate ⌊P.lookahead * rate + 1 / 2⌋₊
        (blocks.map Prod.fst).flatten (blocks.map Prod.snd).flatten := by
  have hx : 0 ≤ P.lookahead * rate := mul_nonneg h0 (by linarith)
  have hL : roundAway (P.lookahead * rate) = ⌊P.lookahead * rate + 1 / 2⌋ := by
    unfold roundAway; rw [if_neg (by linarith)]
  have hL0 : 0 ≤ roundAway (P.lookahead * rate) := by
    rw [hL]; exact Int.floor_nonneg.2 (by linarith)
  obtain ⟨s0, s, p, q, h1, h2, h3, -⟩ := init_steady (C := C) ⟨hk, hr, ha, hl⟩ hC hm hrate hL0
  obtain ⟨s', outs, h4, -, h5, h6⟩ := h3.run ⟨hk, hr, ha, hl⟩ junk blocks hb
  refine ⟨s0, s, s', outs, h1, h2, h4, h5, ?_⟩
  rw [h6, tailOut_output, hL]
  rfl

/-- **C31.** Block-split invariance, stated directly: two ways to cut the same signal. -/
theorem C31_block_invariance {P : Params} (hk : 0 ≤ P.knee) (hr : 0 < P.ratio) (ha : 0 < P.attack)
    (hl : 0 < P.release) (h0 : 0 ≤ P.lookahead) (hC : 0 < C) {m m' : ℕ} (hm : 0 < m) (hm' : 0 < m')
    {rate : ℝ} (hrate : 1200 ≤ rate) (junk junk' : ℕ → Fin C → ℝ)
    (cut cut' : List (List (Fin C → ℝ))) (hb : ∀ b ∈ cut, b.length ≤ m)
    (hb' : ∀ b ∈ cut', b.length ≤ m') (same : cut.flatten = cut'.flatten) :
    ∃ s0 s t s' t' outs outs', Control.make C P = .ok s0 ∧ s0.init m rate = .ok s ∧
      s0.init m' rate = .ok t ∧
      s.run junk (cut.map fun b => (b, b)) = .ok (s', outs) ∧
      t.run junk' (cut'.map fun b => (b, b)) = .ok (t', outs') ∧
      outs.flatten = outs'.flatten := by
  obtain ⟨s0, s, s', outs, h1, h2, h3, -, h4⟩ := C31_output hk hr ha hl h0 hC hm hrate junk
    (cut.map fun b => (b, b)) (by simpa using hb)
  obtain ⟨s0', t, t', outs', k1, k2, k3, -, k4⟩ := C31_output hk hr ha hl h0 hC hm' hrate junk'
    (cut'.map fun b => (b, b)) (by simpa using hb')
  rw [h1] at k1
  obtain rfl := Except.ok.inj k1
  refine ⟨s0, s, t, s', t', outs, outs', h1, h2, k2, h3, k3, ?_⟩
  rw [h4, k4]
  simp only [List.map_map]
  have e : ∀ l : List (List (Fin C → ℝ)), l.map (Prod.fst ∘ fun b => (b, b)) = l := by
    intro l; simp [Function.comp_def]
  have e' : ∀ l : List (List (Fin C → ℝ)), l.map (Prod.snd ∘ fun b => (b, b)) = l := by
    intro l; simp [Function.comp_def]
  rw [e, e', e, e', same]

/-- A stereo limiter with a look-ahead of 48 samples meets the hypotheses. -/
example (cut : List (List (Fin 2 → ℝ))) (hb : ∀ b ∈ cut, b.length ≤ 512) :
    ∃ s0 s s' outs, Control.make 2 { kind := .limiter, threshold := -6, lookahead := 1 / 1000 }
        = .ok s0 ∧ s0.init 512 48000 = .ok s ∧
      s.run (fun _ _ => 0) (cut.map fun b => (b, b)) = .ok (s', outs) ∧
      outs.map List.length = cut.map List.length := by
  obtain ⟨s0, s, s', outs, h1, h2, h3, h4, -⟩ := C31_output (C := 2) (m := 512) (rate := 48000)
    (P := { kind := .limiter, threshold := -6, lookahead := 1 / 1000 }) le_rfl one_pos (by norm_num)
    (by norm_num) (by norm_num) (by norm_num) (by norm_num) (by norm_num) (fun _ _ => 0)
    (cut.map fun b => (b, b)) (by simpa using hb)
  exact ⟨s0, s, s', outs, h1, h2, h3, by simpa [Function.comp_def] using h4⟩

/-- **C30 (partial).** `Reset`, when preceded by `SetDynamicRangeControlParams(P)`, after every
history of blocks, parameter changes and resets: the gains are those of a processor newly
initialised with `P`, but the input still in the look-ahead delay (the last `L` frames of the
history) comes out first. Missing from the full property: see the three violations below. -/
theorem C30_reset_partial {P0 : Params} (hP : P0.Valid) (h0 : 0 ≤ P0.lookahead) (hC : 0 < C)
    {m : ℕ} (hm : 0 < m) {rate : ℝ} (hrate : 1200 ≤ rate) :
    ∃ s0 s : Control C, Control.make C P0 = .ok s0 ∧ s0.init m rate = .ok s ∧
      ∀ (history : List (Op C)) (P : Params) (s1 s2 s3 : Control C), s.exec history = .ok s1 →
        s1.setParams P = .ok s2 → s2.reset = .ok s3 →
        ∀ (junk : ℕ → Fin C → ℝ) (blocks : List (List (Fin C → ℝ) × List (Fin C → ℝ))),
          (∀ b ∈ blocks, b.1.length = b.2.length ∧ b.1.length ≤ m) →
          ∃ s' outs, s3.run junk blocks = .ok (s', outs) ∧
            outs.flatten = (List.range (blocks.map Prod.fst).flatten.length).map fun n c =>
              (List.replicate ⌊P0.lookahead * rate + 1 / 2⌋₊ (0 : Fin C → ℝ) ++
                (inputs history ++ (blocks.map Prod.fst).flatten)).getD
                  ((inputs history).length + n) 0 c *
                Spec.gain P rate ((blocks.map Prod.snd).flatten.take (n + 1)) := by
  have hx : 0 ≤ P0.lookahead * rate := mul_nonneg h0 (by linarith)
  have hL : roundAway (P0.lookahead * rate) = ⌊P0.lookahead * rate + 1 / 2⌋ := by
    unfold roundAway; rw [if_neg (by linarith)]
  have hL0 : 0 ≤ roundAway (P0.lookahead * rate) := by
    rw [hL]; exact Int.floor_nonneg.2 (by linarith)
  obtain ⟨s0, s, p, q, h1, h2, h3, -⟩ := init_steady (C := C) hP hC hm hrate hL0
  refine ⟨s0, s, h1, h2, fun history P s1 s2 s3 e1 e2 e3 junk blocks hb => ?_⟩
  have hlive := h3.live.exec history e1
  obtain ⟨h4, hv⟩ := hlive.set_reset e2 e3
  obtain ⟨s', outs, h5, -, -, h6⟩ := h4.run hv junk blocks hb
  refine ⟨s', outs, h5, ?_⟩
  rw [h6, hL]
  rfl

/-- **C30.** Without look-ahead, `Reset` after `SetDynamicRangeControlParams(P)` gives exactly the
output of a newly constructed and initialised processor with parameters `P`. -/
theorem C30_reset_no_lookahead {P0 : Params} (hP : P0.Valid) (h0 : P0.lookahead = 0) (hC : 0 < C)
    {m : ℕ} (hm : 0 < m) {rate : ℝ} (hrate : 1200 ≤ rate) :
    ∃ s0 s : Control C, Control.make C P0 = .ok s0 ∧ s0.init m rate = .ok s ∧
      ∀ (history : List (Op C)) (P : Params) (s1 s2 s3 : Control C), s.exec history = .ok s1 →
        s1.setParams P = .ok s2 → s2.reset = .ok s3 →
        ∀ (junk : ℕ → Fin C → ℝ) (blocks : List (List (Fin C → ℝ) × List (Fin C → ℝ))),
          (∀ b ∈ blocks, b.1.length = b.2.length ∧ b.1.length ≤ m) →
          ∃ s' outs, s3.run junk blocks = .ok (s', outs) ∧
            outs.flatten = Spec.output P rate 0 (blocks.map Prod.fst).flatten
              (blocks.map Prod.snd).flatten := by
  obtain ⟨s0, s, h1, h2, h3⟩ := C30_reset_partial hP h0.ge hC hm hrate
  refine ⟨s0, s, h1, h2, fun history P s1 s2 s3 e1 e2 e3 junk blocks hb => ?_⟩
  obtain ⟨s', outs, h4, h5⟩ := h3 history P s1 s2 s3 e1 e2 e3 junk blocks hb
  refine ⟨s', outs, h4, ?_⟩
  rw [h5]
  unfold Spec.output
  apply List.map_congr_left
  intro n hn
  have e : ⌊P0.lookahead * rate + 1 / 2⌋₊ = 0 := by rw [h0]; norm_num
  funext c
  rw [e, List.replicate_zero, List.nil_append, List.getD_append_right _ _ _ _ (by omega)]
  simp

/-- The gains of the next block after `SetDynamicRangeControlParams`: the level of each frame (as
detected with the old envelope type) and the documented crossfade in dB over the block of `n` frames,
which reaches the new gain at the last frame. -/
noncomputable def Spec.crossfade (old new : Params) (n i : ℕ) (level : ℝ) : ℝ :=
  Spec.amplitude (Spec.gainDb old level +
    (i + 1 : ℝ) / n * (Spec.gainDb new level - Spec.gainDb old level))

/-- The gains of the block after a parameter change. -/
theorem gain_after_change {p q rate : ℝ} {L m : ℕ} {s s1 : Control C}
    {past : List (Fin C → ℝ)} (h : Live p q rate L m s past) {P : Params}
    (h1 : s.setParams P = .ok s1) (sc : List (Fin C → ℝ)) (hl : sc.length ≤ m) :
    ∃ (s2 : Control C) (env : List ℝ), s1.gainSignal sc = .ok (s2, env.map fun v =>
        Spec.amplitude (Spec.gainDb P (Spec.level s.params.rms v))) ∧
      env.length = sc.length ∧ (∀ v ∈ env, 1 / 10 ^ 12 ≤ v) ∧ s2.params = P ∧
      s2.changeNeeded = false := by
  obtain ⟨⟨e, he, hg, hr⟩, k2, k3, k4, k5⟩ := h
  unfold Control.setParams at h1
  simp only [he] at h1
  split_ifs at h1 with hv hlook
  obtain rfl := Except.ok.inj h1
  refine ⟨{ s with
      envelope := some (envelopeLoop ((e.setAttack P.attack).setRelease P.release)
        (sc.map (detect s.params.rms))).1
      params := P, nextParams := P, changeNeeded := false },
    (envelopeLoop ((e.setAttack P.attack).setRelease P.release) (sc.map (detect s.params.rms))).2,
    ?_, ?_, ?_, rfl, rfl⟩
  · unfold Control.gainSignal Control.gainFromDetected
    simp only [k4, if_neg (show ¬ m < sc.length by omega)]
    rw [if_pos trivial]
    rw [interpLoop_eq _ _ _ _ _ (by simp [envelopeLoop])]
    congr 2
    rw [List.map_map, List.map_map]
    apply List.map_congr_left
    intro v _
    simp only [Function.comp]
    rw [level_eq, specificGain_eq hv, dbToAmplitude_eq]
  · simp [envelopeLoop]
  · have key : ∀ (data : List ℝ) (e : AttackRelease), ∀ v ∈ (envelopeLoop e data).2,
        (1 : ℝ) / 10 ^ 12 ≤ v := by
      intro data
      induction data with
      | nil => intro e v hv; simp [envelopeLoop, Stream.runSamples] at hv
      | cons x xs ih =>
        intro e v hv
        rcases List.mem_cons.1 hv with rfl | h
        · exact le_max_left _ _
        · exact ih _ v h
    exact key _ _

/-- **C30 (violation).** There is no crossfade. After every history, once the parameters are changed
all the gains of the next block, from its first frame on, are those of the new parameters (at the
levels detected with the old envelope type): the buffer of the old gains has been overwritten. -/
theorem C30_no_crossfade_violation {P0 : Params} (hP : P0.Valid) (h0 : 0 ≤ P0.lookahead)
    (hC : 0 < C) {m : ℕ} (hm : 0 < m) {rate : ℝ} (hrate : 1200 ≤ rate) :
    ∃ s0 s : Control C, Control.make C P0 = .ok s0 ∧ s0.init m rate = .ok s ∧
      ∀ (history : List (Op C)) (P : Params) (s1 s2 : Control C), s.exec history = .ok s1 →
        s1.setParams P = .ok s2 → ∀ sidechain : List (Fin C → ℝ), sidechain.length ≤ m →
        ∃ (s3 : Control C) (env : List ℝ), s2.gainSignal sidechain = .ok (s3, env.map fun v =>
            Spec.amplitude (Spec.gainDb P (Spec.level s1.params.rms v))) ∧
          env.length = sidechain.length := by
  have hx : 0 ≤ P0.lookahead * rate := mul_nonneg h0 (by linarith)
  have hL0 : 0 ≤ roundAway (P0.lookahead * rate) := by
    unfold roundAway; rw [if_neg (by linarith)]; exact Int.floor_nonneg.2 (by linarith)
  obtain ⟨s0, s, p, q, h1, h2, h3, -⟩ := init_steady (C := C) hP hC hm hrate hL0
  refine ⟨s0, s, h1, h2, fun history P s1 s2 e1 e2 sc hl => ?_⟩
  obtain ⟨s3, env, e3, e4, -⟩ := gain_after_change (h3.live.exec history e1) e2 sc hl
  exact ⟨s3, env, e3, e4⟩

theorem default_valid : ({} : Params).Valid := ⟨le_rfl, one_pos, by norm_num, by norm_num⟩

theorem gainDb_default (g v : ℝ) : Spec.gainDb { outputGain := g } v = g := by
  unfold Spec.gainDb Spec.curve Spec.compressor
  simp

/-- **C30 (violation).** A concrete case: changing the output gain from 0 dB to 20 dB. The documented
crossfade over a block of two frames has the gains `10 dB = √10` and `20 dB = 10`; the processor
applies 10 to both. -/
theorem C30_crossfade_example_violation :
    ∃ s0 s s1 : Control 1, Control.make 1 {} = .ok s0 ∧ s0.init 2 48000 = .ok s ∧
      s.setParams { outputGain := 20 } = .ok s1 ∧
      (∀ x y, ∃ s2, s1.gainSignal [x, y] = .ok (s2, [10, 10])) ∧
      ∀ level, Spec.crossfade {} { outputGain := 20 } 2 0 level = √10 ∧
        Spec.crossfade {} { outputGain := 20 } 2 0 level ≠ 10 := by
  have hL0 : 0 ≤ roundAway (({} : Params).lookahead * 48000) := by
    unfold roundAway; norm_num
  obtain ⟨s0, s, p, q, h1, h2, h3, -⟩ := init_steady (C := 1) (m := 2) (rate := 48000) default_valid
    (by norm_num) (by norm_num) (by norm_num) hL0
  obtain ⟨e, he, -⟩ := h3.env
  have hset : s.setParams { outputGain := 20 } = .ok { s with
      nextParams := { outputGain := 20 }, changeNeeded := true
      envelope := some ((e.setAttack (1 / 1000)).setRelease (5 / 100)) } := by
    unfold Control.setParams
    rw [if_pos ⟨le_rfl, one_pos, by norm_num, by norm_num⟩, he]
    dsimp only
    rw [if_pos (by rw [h3.params])]
  refine ⟨s0, s, _, h1, h2, hset, fun x y => ?_, fun v => ?_⟩
  · obtain ⟨s3, env, e3, e4, -⟩ := gain_after_change h3.live hset [x, y] (by simp)
    refine ⟨s3, ?_⟩
    rw [e3]
    match env, e4 with
    | [a, b], _ =>
      simp only [List.map_cons, List.map_nil, gainDb_default]
      norm_num [Spec.amplitude]
  · have e : Spec.crossfade {} { outputGain := 20 } 2 0 v = √10 := by
      unfold Spec.crossfade
      have := gainDb_default 0 v
      rw [gainDb_default 20 v, show Spec.gainDb {} v = 0 from this, Real.sqrt_eq_rpow]
      norm_num [Spec.amplitude]
    refine ⟨e, ?_⟩
    rw [e]
    intro h
    have := Real.sq_sqrt (show (0 : ℝ) ≤ 10 by norm_num)
    rw [h] at this
    norm_num at this

/-- **C30 (violation).** `Reset` without an earlier `SetDynamicRangeControlParams` throws the
configuration away: it installs default parameters. A processor configured with an output gain of
20 dB multiplies by 10; after `Init` and `Reset` it returns its input unchanged. -/
theorem C30_reset_loses_parameters_violation (junk : ℕ → Fin 1 → ℝ) :
    ∃ s0 s s1 : Control 1, Control.make 1 { outputGain := 20 } = .ok s0 ∧
      s0.init 1 48000 = .ok s ∧ s.reset = .ok s1 ∧
      ∀ x : Fin 1 → ℝ, (∃ s', s.process junk [x] = .ok (s', [fun c => x c * 10])) ∧
        ∃ s', s1.process junk [x] = .ok (s', [x]) := by
  have hL0 : 0 ≤ roundAway (({ outputGain := 20 } : Params).lookahead * 48000) := by
    unfold roundAway; norm_num
  have hL : (roundAway (({ outputGain := 20 } : Params).lookahead * 48000)).toNat = 0 := by
    unfold roundAway; norm_num
  have hv : ({ outputGain := 20 } : Params).Valid := ⟨le_rfl, one_pos, by norm_num, by norm_num⟩
  obtain ⟨s0, s, p, q, h1, h2, h3, h4⟩ := init_steady (C := 1) (m := 1) (rate := 48000)
    (P := { outputGain := 20 }) hv (by norm_num) (by norm_num) (by norm_num) hL0
  rw [hL] at h3
  obtain ⟨e, he, hg, hr, hs, ha, hre, hz⟩ := h3.env
  have hreset : s.reset = .ok { s with
      envelope := some e.reset, params := {}, changeNeeded := false } := by
    unfold Control.reset; rw [he, h4]
  refine ⟨s0, s, _, h1, h2, hreset, fun x => ⟨?_, ?_⟩⟩
  · obtain ⟨s', k, -⟩ := h3.process hv junk [x] [x] le_rfl
    refine ⟨s', ?_⟩
    unfold Control.process
    rw [k]
    simp only [blockOut, Spec.gain, gainDb_default]
    norm_num [Spec.amplitude]
  · have hst : Steady p q {} 48000 0 1 { s with
        envelope := some e.reset, params := {}, changeNeeded := false } [] [] :=
      ⟨⟨e.reset, rfl, hg.apply (o := .reset) trivial, hr, reset_settled e, ha, hre, rfl⟩, h3.delay,
        h3.lookahead, h3.block, h3.rate, rfl, rfl⟩
    obtain ⟨s', k, -⟩ := hst.process default_valid junk [x] [x] le_rfl
    refine ⟨s', ?_⟩
    unfold Control.process
    rw [k]
    have := gainDb_default 0
    simp only [blockOut, Spec.gain, this]
    norm_num [Spec.amplitude]

/-- **C30 (violation).** After such a `Reset` a processor with look-ahead cannot be configured again:
setting any parameters with the look-ahead it was initialised with fails a `CHECK`. -/
theorem C30_reset_then_set_violation {P0 : Params} (hP : P0.Valid) (h0 : 0 < P0.lookahead)
    (hC : 0 < C) {m : ℕ} (hm : 0 < m) {rate : ℝ} (hrate : 1200 ≤ rate) :
    ∃ s0 s s1 : Control C, Control.make C P0 = .ok s0 ∧ s0.init m rate = .ok s ∧
      s.reset = .ok s1 ∧
      ∀ P : Params, P.lookahead = P0.lookahead → s1.setParams P = .error .check := by
  have hx : 0 ≤ P0.lookahead * rate := mul_nonneg h0.le (by linarith)
  have hL0 : 0 ≤ roundAway (P0.lookahead * rate) := by
    unfold roundAway; rw [if_neg (by linarith)]; exact Int.floor_nonneg.2 (by linarith)
  obtain ⟨s0, s, p, q, h1, h2, h3, h4⟩ := init_steady (C := C) hP hC hm hrate hL0
  obtain ⟨e, he, -⟩ := h3.env
  refine ⟨s0, s, _, h1, h2, by unfold Control.reset; rw [he, h4], fun P hP' => ?_⟩
  unfold Control.setParams
  by_cases hv : P.Valid
  · rw [if_pos hv]
    dsimp only
    rw [if_neg (by rw [hP']; exact h0.ne')]
  · rw [if_neg hv]

/-- **C30 (violation).** `Reset` does not clear the look-ahead delay. A processor with a look-ahead of
one sample gets the sample 1, is reset (with its own parameters set, to avoid the problem above), and
then gets silence: it returns a positive sample, where a new one returns silence. -/
theorem C30_reset_keeps_lookahead_violation (junk : ℕ → Fin 1 → ℝ) :
    ∃ s0 s s1 s2 s3 : Control 1, Control.make 1 { lookahead := 1 / 2000 } = .ok s0 ∧
      s0.init 1 2000 = .ok s ∧ s.exec [.process junk [1] [1]] = .ok s1 ∧
      s1.setParams { lookahead := 1 / 2000 } = .ok s2 ∧ s2.reset = .ok s3 ∧
      (∃ s' y, s3.process junk [0] = .ok (s', [y]) ∧ 0 < y 0) ∧
      ∃ s', s.process junk [0] = .ok (s', [0]) := by
  have hL0 : 0 ≤ roundAway (({ lookahead := 1 / 2000 } : Params).lookahead * 2000) := by
    unfold roundAway; norm_num
  have hL : (roundAway (({ lookahead := 1 / 2000 } : Params).lookahead * 2000)).toNat = 1 := by
    unfold roundAway; norm_num
  have hv : ({ lookahead := 1 / 2000 } : Params).Valid :=
    ⟨le_rfl, one_pos, by norm_num, by norm_num⟩
  obtain ⟨s0, s, p, q, h1, h2, h3, -⟩ := init_steady (C := 1) (m := 1) (rate := 2000)
    (P := { lookahead := 1 / 2000 }) hv (by norm_num) (by norm_num) (by norm_num) hL0
  rw [hL] at h3
  obtain ⟨s1, k1, k2⟩ := h3.process hv junk [1] [1] le_rfl
  obtain ⟨e, he, -⟩ := k2.env
  have hset : s1.setParams { lookahead := 1 / 2000 } = .ok { s1 with
      nextParams := { lookahead := 1 / 2000 }, changeNeeded := true
      envelope := some ((e.setAttack (1 / 1000)).setRelease (5 / 100)) } := by
    unfold Control.setParams
    rw [if_pos hv, he]
    dsimp only
    rw [if_pos (by rw [k2.params])]
  obtain ⟨s3, hres⟩ : ∃ s3, Control.reset { s1 with
      nextParams := { lookahead := 1 / 2000 }, changeNeeded := true
      envelope := some ((e.setAttack (1 / 1000)).setRelease (5 / 100)) } = .ok s3 := ⟨_, rfl⟩
  obtain ⟨k3, -⟩ := k2.live.set_reset hset hres
  refine ⟨s0, s, s1, _, s3, h1, h2, ?_, hset, hres, ?_, ?_⟩
  · simp [Control.exec, Control.apply, k1, Except.map, bind, Except.bind]
  · obtain ⟨s', k4, -⟩ := k3.process hv junk [0] [0] le_rfl
    refine ⟨s', _, by unfold Control.process; rw [k4]; rfl, ?_⟩
    simp
    unfold Spec.gain Spec.amplitude
    positivity
  · obtain ⟨s', k4, -⟩ := h3.process hv junk [0] [0] le_rfl
    refine ⟨s', ?_⟩
    unfold Control.process
    rw [k4]
    simp [blockOut]
    rfl

/-- **C30 (violation).** Setting parameters before `Init` dereferences a null pointer. -/
theorem C30_set_before_init_violation {P0 P : Params} (h0 : P0.Valid) (h : P.Valid) :
    ∃ s0 : Control C, Control.make C P0 = .ok s0 ∧ s0.setParams P = .error .nullDereference := by
  unfold Control.make
  rw [if_pos h0]
  refine ⟨_, rfl, ?_⟩
  unfold Control.setParams
  rw [if_pos h]

/-- A history that meets the hypotheses of `C30_reset_partial`, with a parameter change in it. -/
example : ∃ s0 s s1 s2 s3 : Control 1, Control.make 1 {} = .ok s0 ∧ s0.init 4 48000 = .ok s ∧
    s.exec [.process (fun _ _ => 0) [1, 2] [1, 2], .setParams { kind := .limiter }] = .ok s1 ∧
    s1.setParams { kind := .expander, ratio := 2 } = .ok s2 ∧ s2.reset = .ok s3 := by
  have hL0 : 0 ≤ roundAway (({} : Params).lookahead * 48000) := by
    unfold roundAway; norm_num
  obtain ⟨s0, s, p, q, h1, h2, h3, -⟩ := init_steady (C := 1) (m := 4) (rate := 48000) default_valid
    (by norm_num) (by norm_num) (by norm_num) hL0
  obtain ⟨s', k1, k2⟩ := h3.process default_valid (fun _ _ => 0) [1, 2] [1, 2] (by simp)
  obtain ⟨e, he, -⟩ := k2.env
  have hset : s'.setParams { kind := .limiter } = .ok { s' with
      nextParams := { kind := .limiter }, changeNeeded := true
      envelope := some ((e.setAttack (1 / 1000)).setRelease (5 / 100)) } := by
    unfold Control.setParams
    rw [if_pos ⟨le_rfl, one_pos, by norm_num, by norm_num⟩, he]
    dsimp only
    rw [if_pos (by rw [k2.params])]
  have hset2 : Control.setParams { s' with
      nextParams := { kind := .limiter }, changeNeeded := true
      envelope := some ((e.setAttack (1 / 1000)).setRelease (5 / 100)) }
      { kind := .expander, ratio := 2 } = .ok { s' with
        nextParams := { kind := .expander, ratio := 2 }, changeNeeded := true
        envelope := some ((((e.setAttack (1 / 1000)).setRelease (5 / 100)).setAttack
          (1 / 1000)).setRelease (5 / 100)) } := by
    unfold Control.setParams
    rw [if_pos ⟨le_rfl, by norm_num, by norm_num, by norm_num⟩]
    dsimp only
    rw [if_pos (by rw [k2.params])]
  refine ⟨s0, s, _, _, _, h1, h2, ?_, hset2, rfl⟩
  simp only [Control.exec, Control.apply, k1, Except.map, bind, Except.bind, hset]

end Verif.Drc
