import Verif.Theorems.Drc

/-!
# C120: `DynamicRangeControl::Init` in the middle of use

`Init` may be called at any time; the message of the check in `SetDynamicRangeControlParams` (dynamic_range_control.cc:72-74) asks
for it. The number of channels stays the same here.
-/

namespace Verif.Drc
open Verif.Envelope

variable {C : ℕ}

/-- What a client can do with a constructed object. -/
inductive Call (C : ℕ) where
  | init (maxBlock : ℕ) (rate : ℝ)
  | op (o : Op C)

/-- The effect of one call. -/
noncomputable def Control.call (s : Control C) : Call C → Except Err (Control C)
  | .init m rate => s.init m rate
  | .op o => s.apply o

/-- A history of calls. -/
noncomputable def Control.calls (s : Control C) : List (Call C) → Except Err (Control C)
  | [] => .ok s
  | o :: os => do (← s.call o).calls os

/-- The parameters that were set last: those of the constructor, or of the last `SetDynamicRangeControlParams`. -/
def lastSet (P : Params) : List (Call C) → Params
  | [] => P
  | .op (.setParams Q) :: os => lastSet Q os
  | _ :: os => lastSet P os

/-- Is the last change of the parameters followed by neither a block nor a `Reset`? -/
def pending (b : Bool) : List (Call C) → Bool
  | [] => b
  | .op (.setParams _) :: os => pending true os
  | .op (.process _ _ _) :: os => pending false os
  | .op .reset :: os => pending false os
  | .init _ _ :: os => pending b os

/-- Is there a change of the parameters before each `Reset`? (See `C30_reset_loses_parameters_violation`.) -/
def setBeforeReset (b : Bool) : List (Call C) → Prop
  | [] => True
  | .op (.setParams _) :: os => setBeforeReset true os
  | .op .reset :: os => b = true ∧ setBeforeReset b os
  | _ :: os => setBeforeReset b os

/-- What a history preserves: `l` is the look-ahead, `P` the last parameters, `set` whether they were set after construction. -/
structure Track (l : ℝ) (P : Params) (set pend : Bool) (s : Control C) : Prop where
  valid : s.params.Valid
  lookahead : s.params.lookahead = l
  change : s.changeNeeded = pend
  next : set = true → s.nextParams = P ∧ P.Valid ∧ P.lookahead = l
  pendSet : pend = true → set = true
  current : pend = false → s.params = P

theorem Track.gain {l : ℝ} {P : Params} {set pend : Bool} {s s' : Control C} (h : Track l P set pend s)
    {sc : List (Fin C → ℝ)} {g : List ℝ} (hs : s.gainSignal sc = .ok (s', g)) : Track l P set false s' := by
  unfold Control.gainSignal at hs
  split_ifs at hs
  unfold Control.gainFromDetected at hs
  cases he : s.envelope with
  | none => simp only [he] at hs; cases hs
  | some e =>
    simp only [he] at hs
    obtain ⟨h1, h2, h3, h4, h5, h6⟩ := h
    by_cases c : s.changeNeeded = true
    · rw [if_pos c] at hs
      obtain ⟨rfl, rfl⟩ := Prod.mk.inj (Except.ok.inj hs)
      obtain ⟨k1, k2, k3⟩ := h4 (h5 (h3.symm.trans c))
      exact ⟨by rw [← k1] at k2; exact k2, by rw [← k1] at k3; exact k3, rfl, h4, by simp, fun _ => k1⟩
    · rw [if_neg c] at hs
      obtain ⟨rfl, rfl⟩ := Prod.mk.inj (Except.ok.inj hs)
      have c' : s.changeNeeded = false := by simpa using c
      exact ⟨h1, h2, c', h4, by simp, fun _ => h6 (h3.symm.trans c')⟩

theorem Track.step {l : ℝ} {P : Params} {set pend : Bool} {s s' : Control C} (h : Track l P set pend s) {o : Call C}
    (hs : s.call o = .ok s') (hr : setBeforeReset set [o]) :
    ∃ set', (∀ os, setBeforeReset set (o :: os) → setBeforeReset set' os) ∧
      Track l (lastSet P [o]) set' (pending pend [o]) s' := by
  cases o with
  | init m rate =>
    unfold Control.call Control.init at hs
    dsimp only at hs
    cases he : AttackRelease.make s.params.attack s.params.release 200 rate with
    | none => simp only [he, ite_self] at hs; cases hs
    | some e =>
      simp only [he] at hs
      split_ifs at hs
      obtain rfl := Except.ok.inj hs
      exact ⟨set, fun os h => h, ⟨h.valid, h.lookahead, h.change, h.next, h.pendSet, h.current⟩⟩
  | op o =>
    cases o with
    | process junk x sc =>
      simp only [Control.call, Control.apply, Control.processWithSidechain, bind, Except.bind] at hs
      cases hgs : s.gainSignal sc with
      | error e => rw [hgs] at hs; simp [Except.map] at hs
      | ok r =>
        obtain ⟨s1, g⟩ := r
        rw [hgs] at hs
        have h1 := h.gain hgs
        unfold Control.applyGain at hs
        cases hd : FixedDelayLine.processBlock junk s1.delay x with
        | error e => simp only [hd, Except.map] at hs; cases hs
        | ok d =>
          simp only [hd, Except.map] at hs
          obtain rfl := Except.ok.inj hs
          exact ⟨set, fun os h => h, ⟨h1.valid, h1.lookahead, h1.change, h1.next, h1.pendSet, h1.current⟩⟩
    | setParams Q =>
      simp only [Control.call, Control.apply, Control.setParams] at hs
      cases he : s.envelope with
      | none => simp only [he] at hs; split_ifs at hs
      | some e =>
        simp only [he] at hs
        split_ifs at hs with hv hl
        obtain rfl := Except.ok.inj hs
        exact ⟨true, fun os h => h, ⟨h.valid, h.lookahead, rfl, fun _ => ⟨rfl, hv, hl.trans h.lookahead⟩, fun _ => rfl,
          by simp [pending]⟩⟩
    | reset =>
      simp only [Control.call, Control.apply, Control.reset] at hs
      cases he : s.envelope with
      | none => simp only [he] at hs; cases hs
      | some e =>
        simp only [he] at hs
        obtain rfl := Except.ok.inj hs
        obtain ⟨k1, k2, k3⟩ := h.next hr.1
        refine ⟨set, fun os h => h.2, ⟨?_, ?_, rfl, h.next, by simp [pending], fun _ => k1⟩⟩
        · rw [← k1] at k2; exact k2
        · rw [← k1] at k3; exact k3

theorem Track.calls {l : ℝ} : ∀ (os : List (Call C)) {P : Params} {set pend : Bool} {s s' : Control C},
    Track l P set pend s → s.calls os = .ok s' → setBeforeReset set os →
    ∃ set', Track l (lastSet P os) set' (pending pend os) s'
  | [], P, set, pend, s, s', h, hs, _ => by
    obtain rfl := Except.ok.inj hs
    exact ⟨set, h⟩
  | o :: os, P, set, pend, s, s', h, hs, hr => by
    unfold Control.calls at hs
    cases h1 : s.call o with
    | error e => rw [h1] at hs; simp [bind, Except.bind] at hs
    | ok s1 =>
      rw [h1] at hs
      have hr1 : setBeforeReset set [o] := by
        rcases o with _ | (_ | _ | _)
        · trivial
        · trivial
        · trivial
        · exact ⟨hr.1, trivial⟩
      obtain ⟨set1, k1, k2⟩ := h.step h1 hr1
      obtain ⟨set2, k3⟩ := Track.calls os k2 hs (k1 os hr)
      refine ⟨set2, ?_⟩
      rcases o with _ | (_ | _ | _) <;> exact k3

/-- `Init` in a state without pending change. -/
theorem init_again {s : Control C} (hP : s.params.Valid) (hc : s.changeNeeded = false) (hC : 0 < C) {m : ℕ} (hm : 0 < m)
    {rate : ℝ} (hr : 1200 ≤ rate) (hL : 0 ≤ roundAway (s.params.lookahead * rate)) :
    ∃ s' p q, s.init m rate = .ok s' ∧
      Steady p q s.params rate (roundAway (s.params.lookahead * rate)).toNat m s' [] [] := by
  obtain ⟨e, p, q, h1, h2, h3, h4, h5, h6⟩ := make_good (hz := 200) hP.2.2.1 hP.2.2.2 (by norm_num)
    (show 6 * (200 : ℝ) ≤ rate by linarith)
  refine ⟨{ s with rate := rate, maxBlock := m, envelope := some e,
                   delay := FixedDelayLine.init 0 (roundAway (s.params.lookahead * rate)).toNat m }, p, q, ?_, ?_⟩
  · unfold Control.init
    rw [if_pos ⟨hC, hm, by linarith⟩]
    simp only [h1, if_pos hL]
  · refine ⟨⟨e, rfl, h2, h6, by rw [h3]; exact reset_settled e, h4, h5, ?_⟩, init_delay _ _, rfl, rfl, rfl, rfl, hc⟩
    rw [h3]; rfl

/-- **C120 (the full statement would omit the conditions `hr` and `hp` on the history).** After any history of `Init`, parameter
changes, blocks and `Reset` in which the last change of the parameters took effect (in a block or a `Reset`) before: `Init`
succeeds, and from then on the output is that of an object newly made with the parameters that were set last. -/
theorem C120_reinit_partial {P0 : Params} (hP : P0.Valid) (h0 : 0 ≤ P0.lookahead) (hC : 0 < C) :
    ∃ s0 : Control C, Control.make C P0 = .ok s0 ∧
      ∀ (history : List (Call C)) (s1 : Control C), s0.calls history = .ok s1 → setBeforeReset false history →
        pending false history = false →
        ∀ (m : ℕ) (rate : ℝ), 0 < m → 1200 ≤ rate →
        ∀ (junk : ℕ → Fin C → ℝ) (blocks : List (List (Fin C → ℝ) × List (Fin C → ℝ))),
          (∀ b ∈ blocks, b.1.length = b.2.length ∧ b.1.length ≤ m) →
          ∃ s2 s' outs, s1.init m rate = .ok s2 ∧ s2.run junk blocks = .ok (s', outs) ∧
            outs.flatten = Spec.output (lastSet P0 history) rate ⌊P0.lookahead * rate + 1 / 2⌋₊
              (blocks.map Prod.fst).flatten (blocks.map Prod.snd).flatten := by
  refine ⟨_, by unfold Control.make; rw [if_pos hP], fun history s1 e1 hr hp m rate hm hrate junk blocks hb => ?_⟩
  obtain ⟨set, h⟩ := Track.calls (l := P0.lookahead) (P := P0) (set := false) (pend := false) history
    ⟨hP, rfl, rfl, by simp, by simp, fun _ => rfl⟩ e1 hr
  rw [hp] at h
  have hx : 0 ≤ P0.lookahead * rate := mul_nonneg h0 (by linarith)
  have hL : roundAway (P0.lookahead * rate) = ⌊P0.lookahead * rate + 1 / 2⌋ := by
    unfold roundAway; rw [if_neg (by linarith)]
  obtain ⟨s2, p, q, h2, h3⟩ := init_again h.valid h.change hC hm hrate
    (by rw [h.lookahead, hL]; exact Int.floor_nonneg.2 (by linarith))
  obtain ⟨s', outs, h4, -, -, h6⟩ := h3.run h.valid junk blocks hb
  refine ⟨s2, s', outs, h2, h4, ?_⟩
  rw [h6, tailOut_output, h.lookahead, hL, h.current rfl]
  rfl

/-- A history that meets the hypotheses, with a change of the parameters and of the sample rate. -/
example : ∃ s0 s1 : Control 1, Control.make 1 {} = .ok s0 ∧
    s0.calls [.init 4 48000, .op (.setParams { kind := .limiter }), .op .reset, .init 8 44100] = .ok s1 ∧
    setBeforeReset false ([.init 4 48000, .op (.setParams { kind := .limiter }), .op .reset, .init 8 44100] : List (Call 1)) ∧
    pending false ([.init 4 48000, .op (.setParams { kind := .limiter }), .op .reset, .init 8 44100] : List (Call 1)) = false := by
  have hL0 : 0 ≤ roundAway (({} : Params).lookahead * 48000) := by unfold roundAway; norm_num
  obtain ⟨s0, s, p, q, h1, h2, h3, -⟩ := init_steady (C := 1) (m := 4) (rate := 48000) default_valid
    (by norm_num) (by norm_num) (by norm_num) hL0
  obtain ⟨e, he, -⟩ := h3.env
  have hv : ({ kind := .limiter } : Params).Valid := ⟨le_rfl, one_pos, by norm_num, by norm_num⟩
  have hs : ∃ s1, s.setParams { kind := .limiter } = .ok s1 := by
    unfold Control.setParams
    rw [if_pos hv, he]
    simp only
    rw [if_pos (by rw [h3.params])]
    exact ⟨_, rfl⟩
  obtain ⟨s1, hs1⟩ := hs
  have hs' : ∃ s2, s1.reset = .ok s2 := by
    unfold Control.setParams at hs1
    rw [if_pos hv, he] at hs1
    simp only at hs1
    rw [if_pos (by rw [h3.params])] at hs1
    obtain rfl := Except.ok.inj hs1
    exact ⟨_, rfl⟩
  obtain ⟨s2, hs2⟩ := hs'
  obtain ⟨k1, k2⟩ := h3.live.set_reset hs1 hs2
  obtain ⟨s3, p', q', k3, -⟩ := init_again (s := s2) (m := 8) (rate := 44100) (by rw [k1.params]; exact hv) k1.change
    (by norm_num) (by norm_num) (by norm_num) (by rw [k1.params]; unfold roundAway; norm_num)
  refine ⟨s0, s3, h1, ?_, ⟨rfl, trivial⟩, rfl⟩
  simp only [Control.calls, Control.call, Control.apply, h2, hs1, hs2, k3, bind, Except.bind]

/-- `s` will use the curve of `P`, now or from the next block on; `t` uses it already; the rest of their states agrees. -/
structure Alike (P Q : Params) (s t : Control C) : Prop where
  delay : s.delay = t.delay
  envelope : s.envelope = t.envelope
  block : s.maxBlock = t.maxBlock
  params : t.params = Q
  change : t.changeNeeded = false
  next : s.nextParams = P
  rms : s.params.rms = P.rms
  now : s.changeNeeded = true ∨ s.changeNeeded = false ∧ s.params = P

theorem Alike.gain {P Q : Params} {s t t' : Control C} (h : Alike P Q s t) (a b : ℝ)
    (hQ : Q = { P with attack := a, release := b }) {sc : List (Fin C → ℝ)} {g : List ℝ}
    (ht : t.gainSignal sc = .ok (t', g)) : ∃ s', s.gainSignal sc = .ok (s', g) ∧ Alike P Q s' t' := by
  have sg : ∀ v, specificGain Q v + Q.outputGain = specificGain P v + P.outputGain := fun v => by rw [hQ]; rfl
  have hr : Q.rms = P.rms := by rw [hQ]
  unfold Control.gainSignal at ht ⊢
  rw [h.block]
  split_ifs at ht ⊢ with hl
  rw [h.params, hr] at ht
  rw [h.rms]
  unfold Control.gainFromDetected at ht ⊢
  rw [h.envelope]
  cases he : t.envelope with
  | none => simp only [he] at ht; cases ht
  | some e =>
    simp only [he, h.params, h.change, sg, hr, Bool.false_eq_true, if_false] at ht
    obtain ⟨rfl, rfl⟩ := Prod.mk.inj (Except.ok.inj ht)
    simp only [h.rms, h.next]
    rcases h.now with c | ⟨c, c'⟩
    · simp only [c, if_true]
      rw [interpLoop_eq _ _ _ _ _ (by simp [envelopeLoop])]
      exact ⟨_, rfl, ⟨h.delay, rfl, h.block, rfl, rfl, by first | rfl | exact h.next, rfl, Or.inr ⟨rfl, rfl⟩⟩⟩
    · simp only [c, c', Bool.false_eq_true, if_false]
      exact ⟨_, rfl, ⟨h.delay, rfl, h.block, rfl, rfl, by first | rfl | exact h.next, rfl, Or.inr ⟨rfl, rfl⟩⟩⟩

theorem Alike.run {P Q : Params} (a b : ℝ) (hQ : Q = { P with attack := a, release := b }) (junk : ℕ → Fin C → ℝ) :
    ∀ (blocks : List (List (Fin C → ℝ) × List (Fin C → ℝ))) {s t t' : Control C} {outs : List (List (Fin C → ℝ))},
    Alike P Q s t → t.run junk blocks = .ok (t', outs) → ∃ s', s.run junk blocks = .ok (s', outs)
  | [], s, t, t', outs, h, ht => by
    obtain ⟨rfl, rfl⟩ := Prod.mk.inj (Except.ok.inj ht)
    exact ⟨s, rfl⟩
  | x :: xs, s, t, t', outs, h, ht => by
    unfold Control.run Control.processWithSidechain at ht
    unfold Control.run Control.processWithSidechain
    simp only [bind, Except.bind] at ht ⊢
    cases hg : t.gainSignal x.2 with
    | error er => rw [hg] at ht; cases ht
    | ok r =>
      obtain ⟨t1, g⟩ := r
      rw [hg] at ht
      obtain ⟨s1, k1, k2⟩ := h.gain a b hQ hg
      rw [k1]
      unfold Control.applyGain at ht ⊢
      simp only [k2.delay]
      simp only at ht
      cases hd : FixedDelayLine.processBlock junk t1.delay x.1 with
      | error er => rw [hd] at ht; cases ht
      | ok r =>
        rw [hd] at ht
        simp only at ht ⊢
        cases hr : Control.run junk { t1 with delay := r.1 } xs with
        | error er => rw [hr] at ht; cases ht
        | ok q =>
          rw [hr] at ht
          obtain ⟨t2, ys⟩ := q
          obtain ⟨s2, k3⟩ := Alike.run a b hQ junk xs (s := { s1 with delay := r.1 })
            (t := { t1 with delay := r.1 })
            ⟨rfl, k2.envelope, k2.block, k2.params, k2.change, k2.next, k2.rms, k2.now⟩ hr
          rw [k3]
          obtain ⟨-, rfl⟩ := Prod.mk.inj (Except.ok.inj ht)
          exact ⟨_, rfl⟩

/-- **Violation of the full C120.** `SetDynamicRangeControlParams(P)` directly followed by `Init`: from then on the output
has the static curve of `P`, but the attack and release times of the old parameters `P0`. (The documented crossfade is lost too, as in
`C30_no_crossfade_violation`.) -/
theorem C120_pending_violation {P0 P : Params} (hP0 : P0.Valid) (hP : P.Valid) (h0 : 0 ≤ P0.lookahead)
    (hl : P.lookahead = P0.lookahead) (hrms : P.rms = P0.rms) (hC : 0 < C) {m : ℕ} (hm : 0 < m) {rate : ℝ}
    (hrate : 1200 ≤ rate) :
    ∃ s0 s s1 s2 : Control C, Control.make C P0 = .ok s0 ∧ s0.init m rate = .ok s ∧ s.setParams P = .ok s1 ∧
      s1.init m rate = .ok s2 ∧
      ∀ (junk : ℕ → Fin C → ℝ) (blocks : List (List (Fin C → ℝ) × List (Fin C → ℝ))),
        (∀ b ∈ blocks, b.1.length = b.2.length ∧ b.1.length ≤ m) →
        ∃ s' outs, s2.run junk blocks = .ok (s', outs) ∧
          outs.flatten = Spec.output { P with attack := P0.attack, release := P0.release } rate
            ⌊P0.lookahead * rate + 1 / 2⌋₊ (blocks.map Prod.fst).flatten (blocks.map Prod.snd).flatten := by
  have hx : 0 ≤ P0.lookahead * rate := mul_nonneg h0 (by linarith)
  have hL : roundAway (P0.lookahead * rate) = ⌊P0.lookahead * rate + 1 / 2⌋ := by
    unfold roundAway; rw [if_neg (by linarith)]
  have hL0 : 0 ≤ roundAway (P0.lookahead * rate) := by
    rw [hL]; exact Int.floor_nonneg.2 (by linarith)
  obtain ⟨s0, s, p, q, h1, h2, h3, -⟩ := init_steady (C := C) hP0 hC hm hrate hL0
  obtain ⟨e, he, -⟩ := h3.env
  have hs : s.setParams P = .ok { s with
      nextParams := P, changeNeeded := true, envelope := some ((e.setAttack P.attack).setRelease P.release) } := by
    unfold Control.setParams
    rw [if_pos hP, he]
    simp only
    rw [if_pos (by rw [h3.params, hl])]
  -- the state after `Init`, and the same without pending change
  obtain ⟨e', p', q', g1, g2, g3, g4, g5, g6⟩ := make_good (hz := 200) hP0.2.2.1 hP0.2.2.2 (by norm_num)
    (show 6 * (200 : ℝ) ≤ rate by linarith)
  let Q : Params := { P with attack := P0.attack, release := P0.release }
  have hQ : Q.Valid := ⟨hP.1, hP.2.1, hP0.2.2.1, hP0.2.2.2⟩
  let L := (roundAway (P0.lookahead * rate)).toNat
  let d : FixedDelayLine.State (Fin C → ℝ) := FixedDelayLine.init 0 L m
  let s2 : Control C := { rate := rate, maxBlock := m, params := P0, changeNeeded := true, nextParams := P, delay := d,
                          envelope := some e' }
  let t : Control C := { rate := rate, maxBlock := m, params := Q, changeNeeded := false, nextParams := P, delay := d,
                         envelope := some e' }
  refine ⟨s0, s, _, s2, h1, h2, hs, ?_, fun junk blocks hb => ?_⟩
  · unfold Control.init
    rw [if_pos ⟨hC, hm, by linarith⟩]
    simp only [h3.params, g1, if_pos hL0]
    rfl
  · have ht : Steady p' q' Q rate L m t [] [] :=
      ⟨⟨e', rfl, g2, g6, by rw [g3]; exact reset_settled e', g4, g5, by rw [g3]; rfl⟩, init_delay _ _, rfl, rfl, rfl, rfl, rfl⟩
    obtain ⟨t', outs, k1, -, -, k2⟩ := ht.run hQ junk blocks hb
    obtain ⟨s', k3⟩ := Alike.run (P := P) (Q := Q) P0.attack P0.release rfl junk blocks (s := s2) (t := t)
      ⟨rfl, rfl, rfl, rfl, rfl, rfl, hrms.symm, Or.inl rfl⟩ k1
    refine ⟨s', outs, k3, ?_⟩
    rw [k2, tailOut_output]
    simp only [L, hL]
    rfl

/-- An object made with an attack time of 1 ms, changed to a limiter with an attack time of 10 ms and initialised again: the first
sample is limited as with 1 ms, which is not the output of a limiter with 10 ms. -/
theorem C120_attack_violation (junk : ℕ → Fin 1 → ℝ) :
    ∃ s0 s s1 s2 s' : Control 1, Control.make 1 {} = .ok s0 ∧ s0.init 1 48000 = .ok s ∧
      s.setParams { kind := .limiter, attack := 1 / 100 } = .ok s1 ∧ s1.init 1 48000 = .ok s2 ∧
      ∃ y, s2.process junk [fun _ => 1000] = .ok (s', y) ∧
        y ≠ Spec.output { kind := .limiter, attack := 1 / 100 } 48000 0 [fun _ => 1000] [fun _ => 1000] := by
  obtain ⟨s0, s, s1, s2, h1, h2, h3, h4, h5⟩ := C120_pending_violation (C := 1) (P0 := {})
    (P := { kind := .limiter, attack := 1 / 100 }) default_valid ⟨le_rfl, one_pos, by norm_num, by norm_num⟩ le_rfl rfl rfl
    (by norm_num) (m := 1) (by norm_num) (rate := 48000) (by norm_num)
  obtain ⟨s', outs, h6, h7⟩ := h5 junk [([fun _ => 1000], [fun _ => 1000])] (by simp)
  unfold Control.run at h6
  simp only [bind, Except.bind] at h6
  cases hp : s2.processWithSidechain junk [fun _ => 1000] [fun _ => 1000] with
  | error er => rw [hp] at h6; cases h6
  | ok r =>
  rw [hp] at h6
  obtain ⟨s3, y⟩ := r
  obtain ⟨-, rfl⟩ := Prod.mk.inj (Except.ok.inj h6)
  simp only [List.flatten_cons, List.flatten_nil, List.append_nil, List.map_cons, List.map_nil] at h7
  refine ⟨s0, s, s1, s2, s3, h1, h2, h3, h4, y, hp, ?_⟩
  rw [h7]
  have key : ∀ a : ℝ, 0 < a → a ≤ 1 / 100 →
      1 < (1 - Real.exp (-1 / (a * 48000))) * 1000000 ∧
      Spec.output { kind := .limiter, attack := a } 48000 0 [fun _ : Fin 1 => (1000 : ℝ)] [fun _ => 1000] =
        [fun _ => 1000 * (10 : ℝ) ^ (-(10 * Real.logb 10 ((1 - Real.exp (-1 / (a * 48000))) * 1000000)) / 20)] := by
    intro a ha ha'
    have hb : 1 < (1 - Real.exp (-1 / (a * 48000))) * 1000000 := by
      have e1 : Real.exp (-1 / (a * 48000)) ≤ Real.exp (-1 / 480) := by
        apply Real.exp_le_exp.mpr
        rw [neg_div, neg_div, neg_le_neg_iff]
        exact one_div_le_one_div_of_le (by positivity) (by linarith)
      have e2 : Real.exp (-1 / 480) ≤ 480 / 481 := by
        rw [neg_div, Real.exp_neg, show (480 : ℝ) / 481 = (481 / 480)⁻¹ by norm_num]
        apply inv_anti₀ (by norm_num)
        have := Real.add_one_le_exp (1 / 480 : ℝ)
        linarith
      linarith
    refine ⟨hb, ?_⟩
    have env : Spec.envelope ({ kind := .limiter, attack := a } : Params) 48000 [fun _ : Fin 1 => (1000 : ℝ)] =
        (1 - Real.exp (-1 / (a * 48000))) * 1000000 := by
      simp only [Spec.envelope, List.map_cons, List.map_nil, List.foldl_cons, List.foldl_nil, Spec.follow, Spec.detected]
      norm_num
    have hm : max (1 / 10 ^ 12) ((1 - Real.exp (-1 / (a * 48000))) * 1000000) =
        (1 - Real.exp (-1 / (a * 48000))) * 1000000 := max_eq_right (by linarith [show (1 : ℝ) / 10 ^ 12 ≤ 1 by norm_num])
    have hpos : 0 < Real.logb 10 ((1 - Real.exp (-1 / (a * 48000))) * 1000000) := Real.logb_pos (by norm_num) hb
    simp only [Spec.output, List.length_cons, List.length_nil, List.range_succ, List.range_zero, List.nil_append,
      List.map_cons, List.map_nil, Nat.not_lt_zero, if_false, List.take_succ_cons, List.take_zero, Spec.gain, env, hm,
      Spec.level, if_true, Spec.gainDb, Spec.curve, Spec.limiter, Spec.amplitude]
    rw [if_neg (by linarith), if_pos (by linarith)]
    simp
  obtain ⟨a1, a2⟩ := key (1 / 1000) (by norm_num) (by norm_num)
  obtain ⟨b1, b2⟩ := key (1 / 100) (by norm_num) le_rfl
  intro h
  have h : Spec.output { kind := .limiter, attack := 1 / 1000 } 48000 0 [fun _ : Fin 1 => (1000 : ℝ)] [fun _ => 1000] =
      Spec.output { kind := .limiter, attack := 1 / 100 } 48000 0 [fun _ : Fin 1 => (1000 : ℝ)] [fun _ => 1000] := by
    have h0 : ⌊({} : Params).lookahead * 48000 + 1 / 2⌋₊ = 0 := Nat.floor_eq_zero.mpr (by norm_num)
    rw [h0] at h
    exact h
  rw [a2, b2] at h
  have h := congrFun (List.cons.inj h).1 0
  have h := mul_left_cancel₀ (by norm_num) h
  have h := (Real.strictMono_rpow_of_base_gt_one (by norm_num : (1 : ℝ) < 10)).injective h
  have h : Real.logb 10 ((1 - Real.exp (-1 / (1 / 1000 * 48000))) * 1000000) =
      Real.logb 10 ((1 - Real.exp (-1 / (1 / 100 * 48000))) * 1000000) := by linarith
  have h := Real.logb_injOn_pos (by norm_num) (Set.mem_Ioi.mpr (by linarith)) (Set.mem_Ioi.mpr (by linarith)) h
  have h : Real.exp (-1 / (1 / 1000 * 48000)) = Real.exp (-1 / (1 / 100 * 48000)) := by linarith
  have h := Real.exp_injective h
  norm_num at h

end Verif.Drc
