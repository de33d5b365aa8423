import Verif.Proof.LoudnessCompressor

/-!
# C77: the two-way compressor driven by the loudness meter
-/

namespace Verif.LoudnessCompressor
open Verif.Stream Verif.Loudness Verif.Envelope Verif.BiquadCascade

variable {C : ℕ}

/-- Parameters as documented: positive time constants, a non-negative look-ahead, an accepted two-way curve (ascending
thresholds, documented ratios), one non-negative weight per channel and the first-order averaging filter of the helpers
for some time constant and some sampling rate. -/
structure Params.Documented (p : Params) (C : ℕ) : Prop where
  attack : 0 < p.attack
  release : 0 < p.release
  lookahead : 0 ≤ p.lookahead
  thresholds : p.twoWay.expander.threshold ≤ p.twoWay.upwards.threshold ∧
    p.twoWay.upwards.threshold ≤ p.twoWay.soft.threshold ∧ p.twoWay.soft.threshold ≤ p.twoWay.hard.threshold
  ratios : 1 ≤ p.twoWay.expander.ratio ∧ 1 ≤ p.twoWay.upwards.ratio ∧ p.twoWay.soft.ratio ≤ p.twoWay.hard.ratio
  weights : p.loudness.weights.length = C ∧ ∀ w ∈ p.loudness.weights, 0 ≤ w
  averaging : ∃ τ rate, 0 < τ ∧ 0 < rate ∧ p.loudness.averaging = firstOrderLowPass τ rate

theorem Params.Documented.verify {p : Params} (h : p.Documented C) : Drc.verifyParams p.twoWay = .none :=
  Drc.verify_iff.2 ⟨h.thresholds.1, h.thresholds.2.1, h.thresholds.2.2, h.ratios.1, h.ratios.2.1, h.ratios.2.2⟩

theorem Params.Documented.a0 {p : Params} (h : p.Documented C) : p.loudness.averaging.a0 ≠ 0 := by
  obtain ⟨τ, r, -, -, e⟩ := h.averaging
  rw [e]
  simp [firstOrderLowPass]

theorem Params.Documented.nonneg {p : Params} (h : p.Documented C) {cs : List (Stage ℝ)} {f : Filters C}
    (hf : Fresh cs p.loudness.averaging f) (x : List (Fin C → ℝ)) : ∀ v ∈ f.out p.loudness.weights x, 0 ≤ v := by
  obtain ⟨τ, r, h1, h2, e⟩ := h.averaging
  have h3 := hf.out p.loudness.weights x
  rw [e] at h3
  have h4 := (C76_nonneg h1 h2 (fun c => ?_) h3).1
  · intro v hv
    have := h4 _ (List.mem_map_of_mem hv)
    unfold powerDb at this
    by_contra hn
    rw [if_neg (by linarith), if_neg (by linarith)] at this
    exact this rfl
  · rw [List.getD_eq_getElem _ _ (by rw [h.weights.1]; exact c.2)]
    exact h.weights.2 _ (List.getElem_mem _)

/-- **C77.** What the compressor computes. With documented parameters, from any previous state of the object, at any
sampling rate of at least 1200 Hz, `Init` returns true, and then any sequence of blocks (of 1 to `max_block_size_samples`
frames) is processed; every output frame is the input delayed by the look-ahead, rounded to samples, times the gain in
decibels `curve (level + input gain) - level + output gain`, where the level is that of the attack/release envelope of
the averaged power (C76) of the undelayed signal. The result does not depend on the division into blocks. -/
theorem C77_output {p : Params} (hp : p.Documented C) (hC : 0 < C) {m : ℤ} (hm : 0 < m) {rate : ℝ} (hr : 1200 ≤ rate)
    (s0 : Compressor C) :
    ∃ (s : Compressor C) (cs : List (Stage ℝ)), s0.init p m rate = .ok (s, true) ∧
      PerceptualFilter.coefficients (1 / 10 ^ 10) .k rate = some cs ∧
      ∀ (junk : ℕ → Fin C → ℝ) (blocks : List (List (Fin C → ℝ))), (∀ x ∈ blocks, 1 ≤ x.length ∧ (x.length : ℤ) ≤ m) →
        ∃ s' outs P, s.run junk blocks = .ok (s', outs) ∧ outs.map List.length = blocks.map List.length ∧
          Loudness.Spec.Power cs
            [p.loudness.averaging.b0, p.loudness.averaging.b1, p.loudness.averaging.b2]
            [p.loudness.averaging.a0, p.loudness.averaging.a1, p.loudness.averaging.a2]
            (fun c => p.loudness.weights.getD c 0) blocks.flatten P ∧
          Spec.Compressed p rate ⌊p.lookahead * rate + 1 / 2⌋₊ blocks.flatten P outs.flatten := by
  obtain ⟨s, cs, f, a, b, h1, h2, h3, h4, h5⟩ := init_running hC hm hr hp.attack hp.release hp.lookahead hp.weights.1
    hp.a0 s0
  refine ⟨s, cs, h1, h2, fun junk blocks hb => ?_⟩
  obtain ⟨s', outs, e1, e2, e3, -⟩ := h5.run hp.verify junk blocks hb (by
    rw [after_nil]; exact hp.nonneg h4 _)
  refine ⟨s', outs, _, e1, e2, h4.out _ _, ?_⟩
  rw [e3, after_nil]
  have : f.out p.loudness.weights [] = [] := by simp [Filters.out, sums, runSamples]
  rw [this]
  exact tailOut_spec hp.verify _ _ _ _

/-- **C77, partial.** `Reset` after any sequence of blocks restarts the level measurement and the envelope; without
look-ahead the output is that of a freshly initialised compressor. Missing: look-ahead (see `C77_reset_violation`). -/
theorem C77_reset_partial {p : Params} (hp : p.Documented C) (hC : 0 < C) {m : ℤ} (hm : 0 < m) {rate : ℝ}
    (hr : 1200 ≤ rate) (hL : p.lookahead = 0) (s0 : Compressor C) :
    ∃ s : Compressor C, s0.init p m rate = .ok (s, true) ∧
      ∀ (junk : ℕ → Fin C → ℝ) (before blocks : List (List (Fin C → ℝ))),
        (∀ x ∈ before, 1 ≤ x.length ∧ (x.length : ℤ) ≤ m) → (∀ x ∈ blocks, 1 ≤ x.length ∧ (x.length : ℤ) ≤ m) →
        ∃ s1 outs s2 s3 s4 outs', s.run junk before = .ok (s1, outs) ∧ s1.reset = .ok s2 ∧
          s2.run junk blocks = .ok (s3, outs') ∧ s.run junk blocks = .ok (s4, outs') := by
  obtain ⟨s, cs, f, a, b, h1, h2, h3, h4, h5⟩ := init_running hC hm hr hp.attack hp.release hp.lookahead hp.weights.1
    hp.a0 s0
  have hL0 : ⌊p.lookahead * rate + 1 / 2⌋₊ = 0 := by
    rw [hL, Nat.floor_eq_zero]; norm_num
  rw [hL0] at h5
  refine ⟨s, h1, fun junk before blocks hb hb' => ?_⟩
  have hn : ∀ x, ∀ v ∈ (f.after p.loudness.weights []).out p.loudness.weights x, 0 ≤ v := fun x => by
    rw [after_nil]; exact hp.nonneg h4 _
  obtain ⟨s1, outs, e1, -, -, k1⟩ := h5.run hp.verify junk before hb (hn _)
  obtain ⟨s2, e2, k2⟩ := k1.reset h4
  obtain ⟨s3, outs', e3, l3, o3, -⟩ := k2.run hp.verify junk blocks hb' (hn _)
  obtain ⟨s4, outs4, e4, l4, o4, -⟩ := h5.run hp.verify junk blocks hb' (hn _)
  have : outs4 = outs' := by
    refine List.eq_iff_flatten_eq.2 ⟨?_, l4.trans l3.symm⟩
    rw [o3, o4]
    unfold tailOut
    apply List.map_congr_left
    intro n hn
    funext c
    simp only [List.replicate_zero, List.nil_append, List.length_nil, zero_add]
    rw [List.getD_append_right _ _ _ _ (by omega), Nat.add_sub_cancel_left]
  rw [this] at e4
  exact ⟨s1, outs, s2, s3, s4, outs', e1, e2, e3, e4⟩

/-- **C77.** `Init` returns false exactly when a time constant, the number of channels, the block size or the sampling rate
is not positive or the number of weights is not the number of channels (it never aborts then). -/
theorem C77_init_false (p : Params) (m : ℤ) (rate : ℝ) (s0 : Compressor C) :
    (∃ s, s0.init p m rate = .ok (s, false)) ↔
      (p.attack ≤ 0 ∨ p.release ≤ 0 ∨ C = 0 ∨ m ≤ 0 ∨ rate ≤ 0 ∨ p.loudness.weights.length ≠ C) := by
  unfold Compressor.init
  by_cases h : p.Ok C m rate
  · rw [if_pos h]
    obtain ⟨h1, h2, h3, h4, h5⟩ := h
    by_cases hw : p.loudness.weights.length = C
    · have := (C76_init_false p.loudness rate s0.meter).2 hw
      constructor
      · rintro ⟨s, hs⟩
        cases hi : s0.meter.init p.loudness rate with
        | none => rw [hi] at hs; simp at hs
        | some r =>
          obtain ⟨m', b⟩ := r
          cases b with
          | false => exact absurd hi (this m')
          | true =>
            rw [hi] at hs
            dsimp only at hs
            cases hk : AttackRelease.make p.attack p.release 200 rate with
            | none => rw [hk] at hs; simp at hs
            | some e =>
              rw [hk] at hs
              dsimp only at hs
              split_ifs at hs
              simp at hs
      · intro h
        rcases h with h | h | h | h | h | h
        · exact absurd h h1
        · exact absurd h h2
        · omega
        · exact absurd h h4
        · exact absurd h h5
        · exact absurd hw h
    · obtain ⟨m', hm'⟩ := (C76_init_false p.loudness rate s0.meter).1 hw
      rw [hm']
      simp [hw]
  · rw [if_neg h]
    simp only [Except.ok.injEq, Prod.mk.injEq, and_true, exists_eq', true_iff]
    unfold Params.Ok at h
    by_contra hc
    push Not at hc
    exact h ⟨by linarith [hc.1], by linarith [hc.2.1], by have := hc.2.2.1; omega, by have := hc.2.2.2.1; omega,
      by linarith [hc.2.2.2.2.1]⟩

/-- The documented parameters are reachable: the defaults for a stereo signal. -/
theorem default_documented : Params.default.Documented 2 :=
  ⟨by norm_num [Params.default], by norm_num [Params.default], by norm_num [Params.default],
    by norm_num [Params.default], by norm_num [Params.default],
    ⟨by simp [Params.default, stereo], by norm_num [Params.default, stereo]⟩,
    ⟨0.4, 48000, by norm_num, by norm_num, rfl⟩⟩

example (s0 : Compressor 2) : ∃ s, s0.init Params.default 64 48000 = .ok (s, true) := by
  obtain ⟨s, cs, h, -⟩ := C77_output default_documented (by norm_num) (show (0 : ℤ) < 64 by norm_num)
    (show (1200 : ℝ) ≤ 48000 by norm_num) s0
  exact ⟨s, h⟩

/-! ### Failures -/

/-- Default parameters with a look-ahead of one sample at 48 kHz. -/
noncomputable def lookaheadParams : Params := { Params.default with lookahead := 1 / 48000 }

theorem lookahead_documented : lookaheadParams.Documented 2 :=
  ⟨default_documented.attack, default_documented.release, by norm_num [lookaheadParams], default_documented.thresholds,
    default_documented.ratios, default_documented.weights, default_documented.averaging⟩

/-- **C77, violation.** `Reset` does not reset the look-ahead delay: after a frame `x`, `Reset` and a silent frame, the
output contains the frame `x` from before the reset (times a positive gain), where a freshly initialised compressor outputs
silence. -/
theorem C77_reset_violation (s0 : Compressor 2) :
    ∃ s : Compressor 2, s0.init lookaheadParams 1 48000 = .ok (s, true) ∧
      ∀ (junk : ℕ → Fin 2 → ℝ) (x : Fin 2 → ℝ), ∃ s1 y1 s2 s3 g s4, s.process junk [x] = .ok (s1, y1) ∧
        s1.reset = .ok s2 ∧ s2.process junk [0] = .ok (s3, [fun c => x c * g]) ∧ 0 < g ∧
        s.process junk [0] = .ok (s4, [0]) := by
  have hp := lookahead_documented
  obtain ⟨s, cs, f, a, b, h1, h2, h3, h4, h5⟩ := init_running (m := 1) (rate := 48000) (by norm_num) (by norm_num)
    (by norm_num) hp.attack hp.release hp.lookahead hp.weights.1 hp.a0 s0
  have hL0 : ⌊lookaheadParams.lookahead * 48000 + 1 / 2⌋₊ = 1 := by
    rw [Nat.floor_eq_iff (by norm_num [lookaheadParams])]
    norm_num [lookaheadParams]
  rw [hL0] at h5
  refine ⟨s, h1, fun junk x => ?_⟩
  have hn : ∀ x, ∀ v ∈ (f.after lookaheadParams.loudness.weights []).out lookaheadParams.loudness.weights x, 0 ≤ v :=
    fun x => by rw [after_nil]; exact hp.nonneg h4 _
  obtain ⟨s1, e1, k1⟩ := h5.process hp.verify junk [x] (by simp) (by simp) (hn _)
  obtain ⟨s2, e2, k2⟩ := k1.reset h4
  obtain ⟨s3, e3, -⟩ := k2.process hp.verify junk [0] (by simp) (by simp) (hn _)
  obtain ⟨s4, e4, -⟩ := h5.process hp.verify junk [0] (by simp) (by simp) (hn _)
  refine ⟨s1, _, s2, s3, gainAfter lookaheadParams 48000 (f.out lookaheadParams.loudness.weights [] ++
      ((f.after lookaheadParams.loudness.weights []).out lookaheadParams.loudness.weights [0]).take 1), s4, e1, e2, ?_, ?_,
      ?_⟩
  · rw [e3]
    simp [tailOut]
  · unfold gainAfter Drc.Spec.amplitude
    positivity
  · rw [e4]
    simp only [tailOut, List.length_singleton, List.range_one, List.map_cons, List.map_nil, List.nil_append,
      List.length_nil, zero_add]
    congr 3
    funext c
    simp

/-- **C77, violation.** `Init` does not check the two-way parameters: with a threshold order that
`OutputLevelTwoWayCompressor` rejects it returns true, and then every non-empty block aborts. -/
theorem C77_unchecked_curve_violation (s0 : Compressor 2) :
    ∃ (p : Params) (s : Compressor 2), s0.init p 64 48000 = .ok (s, true) ∧
      ∀ (junk : ℕ → Fin 2 → ℝ) (x : List (Fin 2 → ℝ)), x ≠ [] → s.process junk x = .error .check := by
  have hp := default_documented
  obtain ⟨p, hpd⟩ : ∃ p : Params, p = { Params.default with twoWay := ⟨{}, {}, { threshold := 1 }, {}⟩ } := ⟨_, rfl⟩
  obtain ⟨s, cs, f, a, b, h1, h2, h3, h4, h5⟩ := init_running (C := 2) (p := p) (m := 64) (rate := 48000) (by norm_num)
    (by norm_num) (by norm_num) (by rw [hpd]; exact hp.attack) (by rw [hpd]; exact hp.release)
    (by rw [hpd]; exact hp.lookahead) (by rw [hpd]; exact hp.weights.1) (by rw [hpd]; exact hp.a0) s0
  refine ⟨p, s, h1, fun junk x hx => ?_⟩
  unfold Compressor.process
  split
  · obtain ⟨e, h6, -⟩ := h5.env
    have hready : Ready s.meter (f.after p.loudness.weights []) := by rw [h5.meter]; exact ⟨rfl, h5.weights⟩
    have hg : s.gains x = .error .check := by
      unfold Compressor.gains
      have : s.meter.processBlock x = some (⟨s.meter.weights, some ((f.after p.loudness.weights []).after s.meter.weights x)⟩,
          ((f.after p.loudness.weights []).out s.meter.weights x).map powerDb) := by
        unfold Meter.processBlock
        rw [hready.power]
      rw [this, h6]
      dsimp only
      have hl : (runSamples Follower.step ⟨e, false⟩
          ((((f.after p.loudness.weights []).out s.meter.weights x).map powerDb).map dbPower)).2.length = x.length := by
        rw [runSamples_length, List.length_map, List.length_map, out_length]
      generalize (runSamples Follower.step ⟨e, false⟩
          ((((f.after p.loudness.weights []).out s.meter.weights x).map powerDb).map dbPower)).2 = r at hl
      cases r with
      | nil => exact absurd (List.length_eq_zero_iff.1 hl.symm) hx
      | cons v r =>
        rw [List.mapM_cons]
        have : gainOf s.params v = none := by
          unfold gainOf
          rw [h5.params]
          have : ∀ x, Drc.twoWay x p.twoWay = none := by
            intro x
            unfold Drc.twoWay
            rw [if_neg]
            rw [hpd]
            norm_num [Drc.verifyParams]
            exact fun h => Drc.ParamError.noConfusion h
          rw [this]
        rw [this]
        rfl
    rw [hg]
  · rfl

theorem gainOf_louder (p : Params) (power : ℝ) :
    gainOf { p with attack := 0, outputGain := p.outputGain + 20 } power = (gainOf p power).map (· * 10) := by
  unfold gainOf
  dsimp only
  cases Drc.twoWay (Drc.powerToDb power + p.inputGain) p.twoWay with
  | none => rfl
  | some y =>
    simp only [Option.map_some, Option.some.injEq]
    unfold Drc.dbToAmplitude
    have : (10 : ℝ) = Real.exp (Real.log 10) := (Real.exp_log (by norm_num)).symm
    have e : Real.log 10 / 20 * (y - Drc.powerToDb power + (p.outputGain + 20)) =
        Real.log 10 / 20 * (y - Drc.powerToDb power + p.outputGain) + Real.log 10 := by ring
    rw [e, Real.exp_add, ← this]

theorem mapM_louder (p : Params) (l : List ℝ) :
    l.mapM (gainOf { p with attack := 0, outputGain := p.outputGain + 20 }) = (l.mapM (gainOf p)).map (List.map (· * 10)) := by
  induction l with
  | nil => rfl
  | cons a l ih =>
    rw [List.mapM_cons, List.mapM_cons, ih, gainOf_louder]
    cases gainOf p a with
    | none => rfl
    | some g => cases l.mapM (gainOf p) <;> rfl

/-- **C77, violation.** An `Init` that returns false changes the compressor: after a successful `Init`, one with an invalid
attack time and 20 dB more output gain is rejected, but the blocks that follow are ten times as loud. -/
theorem C77_failed_init_violation {p : Params} (hp : p.Documented C) (hC : 0 < C) {m : ℤ} (hm : 0 < m) {rate : ℝ}
    (hr : 1200 ≤ rate) (s0 : Compressor C) :
    ∃ s s' : Compressor C, s0.init p m rate = .ok (s, true) ∧
      s.init { p with attack := 0, outputGain := p.outputGain + 20 } m rate = .ok (s', false) ∧
      ∀ (junk : ℕ → Fin C → ℝ) (x : List (Fin C → ℝ)), 1 ≤ x.length → (x.length : ℤ) ≤ m → ∃ t t' y,
        s.process junk x = .ok (t, y) ∧ s'.process junk x = .ok (t', y.map fun f c => f c * 10) := by
  obtain ⟨s, cs, h1, -, h3⟩ := C77_output hp hC hm hr s0
  have hpar : s.params = p := by
    unfold Compressor.init at h1
    split at h1
    · split at h1
      · simp at h1
      · simp at h1
      · split at h1
        · simp at h1
        · split at h1
          · simp only [Except.ok.injEq, Prod.mk.injEq, and_true] at h1
            rw [← h1]
          · simp at h1
    · simp at h1
  refine ⟨s, { s with params := { p with attack := 0, outputGain := p.outputGain + 20 } }, h1, ?_, fun junk x x1 x2 => ?_⟩
  · unfold Compressor.init
    rw [if_neg]
    intro h
    exact h.1 le_rfl
  obtain ⟨t, outs, P, e1, -⟩ := h3 junk [x] (by simpa using ⟨x1, x2⟩)
  unfold Compressor.run at e1
  cases hs : s.process junk x with
  | error e => rw [hs] at e1; simp at e1
  | ok r =>
    obtain ⟨t1, y⟩ := r
    refine ⟨t1, ?_⟩
    unfold Compressor.process at hs ⊢
    dsimp only
    split at hs
    · rename_i hc
      rw [if_pos hc]
      unfold Compressor.gains at hs ⊢
      dsimp only
      cases hb : s.meter.processBlock x with
      | none => rw [hb] at hs; simp at hs
      | some r =>
        rw [hb] at hs
        dsimp only at hs ⊢
        cases hv : s.envelope with
        | none => rw [hv] at hs; simp at hs
        | some f =>
          rw [hv] at hs
          dsimp only at hs ⊢
          rw [hpar] at hs
          rw [mapM_louder]
          cases hg : (runSamples Follower.step f (r.2.map dbPower)).2.mapM (gainOf p) with
          | none => rw [hg] at hs; simp at hs
          | some g =>
            rw [hg] at hs
            simp only [Option.map_some] at hs ⊢
            unfold Compressor.applyGain at hs ⊢
            dsimp only at hs ⊢
            cases hd : FixedDelayLine.processBlock junk s.delay x with
            | error e => rw [hd] at hs; simp at hs
            | ok q =>
              rw [hd] at hs
              simp only [Except.ok.injEq, Prod.mk.injEq] at hs ⊢
              refine ⟨_, y, ⟨trivial, rfl⟩, rfl, ?_⟩
              rw [← hs.2, List.map_zipWith, List.zipWith_map_right]
              congr 1
              funext a b c
              ring
    · simp at hs

/-- **C77, violation.** Sampling rates up to 400 Hz pass `VerifyParams` (which returns false for invalid rates) but abort in
the constructor of the envelope. -/
theorem C77_low_rate_violation (s0 : Compressor 2) {rate : ℝ} (h1 : 121 ≤ rate) (h2 : rate ≤ 400) :
    Params.default.Ok 2 64 rate ∧ s0.init Params.default 64 rate = .error .check := by
  have hok : Params.default.Ok 2 64 rate := by
    refine ⟨?_, ?_, by norm_num, by norm_num, by linarith⟩ <;> norm_num [Params.default]
  refine ⟨hok, ?_⟩
  have hp := default_documented
  obtain ⟨cs, f, -, -, -, h4, -⟩ := init_ready (C := 2) (rate := rate) h1 hp.weights.1 hp.a0 s0.meter
  unfold Compressor.init
  rw [if_pos hok, h4]
  dsimp only
  have : AttackRelease.make Params.default.attack Params.default.release 200 rate = none := by
    unfold AttackRelease.make lowpassFilter
    have : FilterDesign.lowpass rate 200 (49 / 100) = none := by
      unfold FilterDesign.lowpass
      rw [if_neg]
      rintro ⟨h, -⟩
      linarith
    rw [this]
    rfl
  rw [this]

/-- The compressor after a NaN: the envelope is NaN and the meter and the delay line work. -/
structure Stuck (p : Params) (m : ℤ) (s : Compressor C) (past : List (Fin C → ℝ)) : Prop where
  params : s.params = p
  maxBlock : s.maxBlock = m
  meter : ∃ f, Ready s.meter f
  env : ∃ e, s.envelope = some ⟨e, true⟩
  delay : FixedDelayLine.Inv 0 s.delay past
  lookahead : s.delay.delay = 0

theorem stuck_loop (e : AttackRelease) : ∀ l : List (Option ℝ),
    runSamples Follower.step ⟨e, true⟩ l = (⟨e, true⟩, l.map fun _ => 1 / 10 ^ 12)
  | [] => rfl
  | v :: l => by
    have h : Follower.step ⟨e, true⟩ v = (⟨e, true⟩, 1 / 10 ^ 12) := by simp [Follower.step]
    simp only [runSamples, h, stuck_loop e l, List.map_cons]

theorem runSamples_getLast_nan {l : List (Option ℝ)} (h : none ∈ l) (f : Follower) :
    ∃ e, (runSamples Follower.step f l).1 = ⟨e, true⟩ := by
  induction l generalizing f with
  | nil => simp at h
  | cons v l ih =>
    obtain ⟨e, b⟩ := f
    cases b with
    | true => exact ⟨e, by rw [stuck_loop]⟩
    | false =>
      cases v with
      | none =>
        have : Follower.step ⟨e, false⟩ none = (⟨e, true⟩, 1 / 10 ^ 12) := by simp [Follower.step]
        exact ⟨e, by simp only [runSamples, this, stuck_loop]⟩
      | some v =>
        have hl : none ∈ l := by simpa using h
        simp only [runSamples]
        exact ih hl _

/-- The gain of a stuck compressor: that of a signal at -120 dB. -/
noncomputable def stuckGain (p : Params) : ℝ :=
  Drc.Spec.amplitude (curve p (-120 + p.inputGain) - -120 + p.outputGain)

theorem Stuck.process {p : Params} {m : ℤ} {s : Compressor C} {past : List (Fin C → ℝ)} (h : Stuck p m s past)
    (hv : Drc.verifyParams p.twoWay = .none) (junk : ℕ → Fin C → ℝ) (x : List (Fin C → ℝ)) (h1 : 1 ≤ x.length)
    (h2 : (x.length : ℤ) ≤ m) :
    ∃ s', s.process junk x = .ok (s', x.map fun f c => f c * stuckGain p) ∧ Stuck p m s' (past ++ x) := by
  obtain ⟨k1, k2, ⟨f, hf⟩, ⟨e, k4⟩, k5, k6⟩ := h
  obtain ⟨d, d1, d2, d3⟩ := FixedDelayLine.processBlock_spec 0 junk k5 x
  have hlog : Drc.powerToDb (1 / 10 ^ 12) = -120 := by
    rw [powerToDb_eq, show (1 : ℝ) / 10 ^ 12 = 10 ^ (-12 : ℝ) by
      rw [Real.rpow_neg (by norm_num), one_div]; norm_num, Real.logb_rpow (by norm_num) (by norm_num)]
    norm_num
  have hg : s.gains x = .ok ({ s with
      meter := ⟨s.meter.weights, some (f.after s.meter.weights x)⟩
      envelope := some ⟨e, true⟩ }, x.map fun _ => stuckGain p) := by
    unfold Compressor.gains Meter.processBlock
    rw [hf.power, k4]
    dsimp only
    rw [stuck_loop]
    dsimp only
    rw [mapM_some (g := fun _ => stuckGain p)]
    · dsimp only
      congr 2
      apply List.ext_getElem
      · simp [out_length]
      · intros; simp
    · intro v hv'
      obtain ⟨-, -, rfl⟩ := List.mem_map.1 hv'
      unfold gainOf
      rw [k1, hlog, twoWay_some hv]
      dsimp only
      rw [Drc.dbToAmplitude_eq]
      rfl
  refine ⟨{ s with
      meter := ⟨s.meter.weights, some (f.after s.meter.weights x)⟩
      envelope := some ⟨e, true⟩
      delay := d }, ?_, ⟨k1, k2, ⟨_, rfl, hf.weights⟩, ⟨e, rfl⟩, d2, by rw [← k6, ← d3]⟩⟩
  unfold Compressor.process
  rw [if_pos ⟨h1, by rw [k2]; exact h2⟩, hg]
  dsimp only
  unfold Compressor.applyGain
  rw [d1]
  dsimp only
  congr 2
  apply List.ext_getElem
  · simp [k6]
  · intro n g1 g2
    simp [k6]

theorem Stuck.run {p : Params} {m : ℤ} (hv : Drc.verifyParams p.twoWay = .none) (junk : ℕ → Fin C → ℝ) :
    ∀ (blocks : List (List (Fin C → ℝ))) {s : Compressor C} {past : List (Fin C → ℝ)}, Stuck p m s past →
    (∀ x ∈ blocks, 1 ≤ x.length ∧ (x.length : ℤ) ≤ m) →
    ∃ s', s.run junk blocks = .ok (s', blocks.map fun x => x.map fun f c => f c * stuckGain p)
  | [], s, _, _, _ => ⟨s, rfl⟩
  | x :: xs, s, past, h, hb => by
    obtain ⟨s1, e1, h1⟩ := h.process hv junk x (hb x (by simp)).1 (hb x (by simp)).2
    obtain ⟨s', e2⟩ := Stuck.run hv junk xs h1 fun y hy => hb y (by simp [hy])
    refine ⟨s', ?_⟩
    unfold Compressor.run
    rw [e1]
    dsimp only
    rw [e2]
    rfl

/-- Default parameters for one channel with the second-order averaging filter of `C76_second_order_violation`. -/
noncomputable def secondOrderParams : Params := { Params.default with loudness := ⟨[1], secondOrder⟩ }

/-- **C77, violation.** With a second-order averaging filter, which the header permits, one block of six frames can stop
the compression for good: afterwards, until `Reset`, whatever is processed is multiplied by one constant, the gain for
-120 dB. -/
theorem C77_nan_violation (s0 : Compressor 1) :
    ∃ (s : Compressor 1) (x : List (Fin 1 → ℝ)), s0.init secondOrderParams 64 48000 = .ok (s, true) ∧ x.length = 6 ∧
      ∀ junk : ℕ → Fin 1 → ℝ, ∃ s1 y, s.process junk x = .ok (s1, y) ∧
        ∀ blocks : List (List (Fin 1 → ℝ)), (∀ b ∈ blocks, 1 ≤ b.length ∧ (b.length : ℤ) ≤ 64) →
          ∃ s2, s1.run junk blocks = .ok (s2, blocks.map fun b => b.map fun f c => f c * stuckGain secondOrderParams) := by
  have hp := default_documented
  obtain ⟨s, cs, f, a, b, h1, h2, h3, h4, h5⟩ := init_running (C := 1) (p := secondOrderParams) (m := 64) (rate := 48000)
    (by norm_num) (by norm_num) (by norm_num) hp.attack hp.release hp.lookahead rfl
    (by norm_num [secondOrderParams, secondOrder]) s0
  have hL0 : ⌊secondOrderParams.lookahead * 48000 + 1 / 2⌋₊ = 0 := by
    rw [Nat.floor_eq_zero]; norm_num [secondOrderParams, Params.default]
  rw [hL0] at h5
  obtain ⟨x, hl, hx⟩ := second_order_negative h2
  refine ⟨s, x, h1, hl, fun junk => ?_⟩
  have hv : Drc.verifyParams secondOrderParams.twoWay = .none := hp.verify
  have hout : f.out [1] x = [1 / 8, 3 / 8, 7 / 16, 1 / 4, 1 / 32, -3 / 32] :=
    C76_unique (by norm_num) h2 (by norm_num [secondOrderParams, secondOrder]) (h4.out [1] x) hx
  obtain ⟨k1, k2, k3, k4, ⟨e, k5, -⟩, k6, k7⟩ := h5
  rw [after_nil] at k3
  have hready : Ready s.meter f := by rw [k3]; exact ⟨rfl, k4⟩
  obtain ⟨d, d1, d2, d3⟩ := FixedDelayLine.processBlock_spec 0 junk k6 x
  have hw : s.meter.weights = [1] := by rw [k3]; rfl
  obtain ⟨e', he'⟩ := runSamples_getLast_nan (l := ((f.out [1] x).map powerDb).map dbPower)
    (by rw [hout]; norm_num [powerDb, dbPower]) ⟨e, false⟩
  obtain ⟨g, hg⟩ : ∃ g, s.gains x = .ok ({ s with
      meter := ⟨s.meter.weights, some (f.after s.meter.weights x)⟩
      envelope := some ⟨e', true⟩ }, g) := by
    unfold Compressor.gains Meter.processBlock
    rw [hready.power, k5]
    dsimp only
    rw [hw, he', mapM_some (g := fun v => Drc.dbToAmplitude (curve secondOrderParams (Drc.powerToDb v +
      secondOrderParams.inputGain) - Drc.powerToDb v + secondOrderParams.outputGain))
      (fun v _ => by unfold gainOf; rw [k1, twoWay_some hv])]
    exact ⟨_, rfl⟩
  have hproc : ∃ y, s.process junk x = .ok ({ s with
      meter := ⟨s.meter.weights, some (f.after s.meter.weights x)⟩
      envelope := some ⟨e', true⟩
      delay := d }, y) := by
    unfold Compressor.process
    rw [if_pos ⟨by omega, by rw [k2, hl]; norm_num⟩, hg]
    dsimp only
    unfold Compressor.applyGain
    rw [d1]
    exact ⟨_, rfl⟩
  obtain ⟨y, hy⟩ := hproc
  refine ⟨_, y, hy, fun blocks hb => Stuck.run hv junk blocks (past := [] ++ x)
    ⟨k1, k2, ⟨_, rfl, hready.weights⟩, ⟨e', rfl⟩, d2, by rw [← k7, ← d3]⟩ hb⟩

/-- **C77, violation.** The default parameters contain an averaging filter designed for 48 kHz, whatever the rate given to
`Init`: at half that rate the averaging time constant doubles, from 0.4 to 0.8 seconds (and likewise at any other rate). -/
theorem C77_default_rate_violation {rate : ℝ} (hr : 0 < rate) :
    Params.default.loudness.averaging = firstOrderLowPass (0.4 * 48000 / rate) rate := by
  show firstOrderLowPass 0.4 48000 = _
  unfold firstOrderLowPass firstOrderCoefficient
  rw [div_mul_cancel₀ _ hr.ne']

end Verif.LoudnessCompressor
