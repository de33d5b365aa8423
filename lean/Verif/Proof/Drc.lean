import Verif.Spec.Drc
import Verif.Theorems.DrcCurves
import Verif.Theorems.Envelope
import Verif.Theorems.FixedDelayLine

namespace Verif.Drc
open Verif.Envelope Verif.Stream

variable {C : ℕ}

theorem log10_pos : 0 < Real.log 10 := Real.log_pos (by norm_num)

theorem dbToAmplitude_eq (v : ℝ) : dbToAmplitude v = Spec.amplitude v := by
  unfold dbToAmplitude Spec.amplitude
  rw [Real.rpow_def_of_pos (by norm_num)]
  congr 1; ring

theorem level_eq (rms : Bool) (v : ℝ) :
    (if rms then powerToDb else amplitudeToDb) v = Spec.level rms v := by
  unfold Spec.level powerToDb amplitudeToDb Real.logb
  cases rms <;> simp <;> ring

theorem specificGain_eq {p : Params} (hp : p.Valid) (v : ℝ) :
    specificGain p v + p.outputGain = Spec.gainDb p v := by
  obtain ⟨hk, hr, -⟩ := hp
  unfold specificGain Spec.gainDb Spec.curve
  cases p.kind with
  | compressor => simp only [compressor_eq hk]
  | limiter => simp only [limiter_eq hk]
  | expander => simp only [expander_eq hk]
  | noiseGate => simp only [expander_eq hk]

theorem interpLoop_eq (inv : ℝ) : ∀ (m i : ℕ) (k : ℝ) (ws : List ℝ), i + m ≤ ws.length →
    interpLoop inv m i k ws = ws
  | 0, _, _, _, _ => rfl
  | m + 1, i, k, ws, h => by
    have e : ws.set i (ws.getD i 0 + (k + inv) * (ws.getD i 0 - ws.getD i 0)) = ws := by
      apply List.ext_getElem?
      intro j
      rw [List.getElem?_set]
      split_ifs with h1 h2
      · subst h1
        rw [List.getD_eq_getElem?_getD, List.getElem?_eq_getElem h2]; simp
      · subst h1; omega
      · rfl
    unfold interpLoop
    simp only [e]
    exact interpLoop_eq inv m (i + 1) _ ws (by omega)

theorem detect_eq (rms : Bool) (x : Fin C → ℝ) : detect rms x = Spec.detected rms x := rfl

theorem detected_nonneg (rms : Bool) (x : Fin C → ℝ) : 0 ≤ Spec.detected rms x := by
  unfold Spec.detected
  refine div_nonneg (Finset.sum_nonneg fun c _ => ?_) (Nat.cast_nonneg _)
  cases rms
  · simp
  · simp; positivity

/-- The envelope loop on a settled follower. -/
theorem envelopeLoop_settled {p q : ℝ} : ∀ (data : List ℝ) {e : AttackRelease}, Good p q e →
    Settled e → (∀ v ∈ data, 0 ≤ v) →
    envelopeLoop e data =
      ({ e with envelope := data.foldl (fun u v => u + (if u < v then e.attack else e.release) *
          (v - u)) e.envelope },
        (List.range data.length).map fun n => max (1 / 10 ^ 12)
          ((data.take (n + 1)).foldl (fun u v => u + (if u < v then e.attack else e.release) *
            (v - u)) e.envelope))
  | [], e, _, _, _ => rfl
  | v :: vs, e, hg, hs, hv => by
    simp only [List.mem_cons, forall_eq_or_imp] at hv
    have h0 := settled_output hg hs v
    rw [abs_of_nonneg hv.1] at h0
    have hg' : Good p q (e.output v).1 := hg.apply (o := .output v) trivial
    have hs' : Settled (e.output v).1 := by
      rw [h0]; exact ⟨hs.attackState, hs.releaseState⟩
    have ih := envelopeLoop_settled vs hg' hs' hv.2
    unfold envelopeLoop at ih ⊢
    unfold runSamples
    dsimp only
    rw [ih, h0]
    dsimp only
    simp only [List.length_cons, List.range_succ_eq_map, List.map_cons, List.map_map,
      List.foldl_cons, List.take_succ_cons, List.foldl_nil, List.take_zero, gt_iff_lt,
      Prod.mk.injEq, List.cons.injEq, true_and]
    rfl

/-- The envelope loop never changes anything but the follower's state; it stays good. -/
theorem envelopeLoop_good {p q : ℝ} : ∀ (data : List ℝ) {e : AttackRelease}, Good p q e →
    Good p q (envelopeLoop e data).1 ∧ (envelopeLoop e data).1.rate = e.rate ∧
      (envelopeLoop e data).1.attack = e.attack ∧ (envelopeLoop e data).1.release = e.release
  | [], e, hg => ⟨hg, rfl, rfl, rfl⟩
  | v :: vs, e, hg => by
    obtain ⟨h1, h2, h3, h4⟩ := envelopeLoop_good vs (e := (e.output v).1)
      (hg.apply (o := .output v) trivial)
    exact ⟨h1, h2, h3, h4⟩

/-- Between calls: what every history after `Init` preserves. `past` is the input so far. -/
structure Live (p q : ℝ) (rate : ℝ) (L maxBlock : ℕ) (s : Control C) (past : List (Fin C → ℝ)) :
    Prop where
  env : ∃ e, s.envelope = some e ∧ Good p q e ∧ e.rate = rate
  delay : FixedDelayLine.Inv 0 s.delay past
  lookahead : s.delay.delay = L
  block : s.maxBlock = maxBlock
  rate : s.rate = rate

/-- Additionally, the parameters are `P`, no change is pending, and the follower started from zero and
has processed exactly `side`. -/
structure Steady (p q : ℝ) (P : Params) (rate : ℝ) (L maxBlock : ℕ) (s : Control C)
    (past side : List (Fin C → ℝ)) : Prop where
  env : ∃ e, s.envelope = some e ∧ Good p q e ∧ e.rate = rate ∧ Settled e ∧
    e.attack = firstOrderCoefficient P.attack rate ∧
    e.release = firstOrderCoefficient P.release rate ∧ e.envelope = Spec.envelope P rate side
  delay : FixedDelayLine.Inv 0 s.delay past
  lookahead : s.delay.delay = L
  block : s.maxBlock = maxBlock
  rate : s.rate = rate
  params : s.params = P
  change : s.changeNeeded = false

theorem Steady.live {p q : ℝ} {P : Params} {rate : ℝ} {L m : ℕ} {s : Control C}
    {past side : List (Fin C → ℝ)} (h : Steady p q P rate L m s past side) :
    Live p q rate L m s past :=
  ⟨by obtain ⟨e, h1, h2, h3, -⟩ := h.env; exact ⟨e, h1, h2, h3⟩, h.delay, h.lookahead, h.block,
    h.rate⟩

/-- The delayed input and the gains of one block. -/
noncomputable def blockOut (L : ℕ) (past x : List (Fin C → ℝ)) (g : List ℝ) : List (Fin C → ℝ) :=
  List.zipWith (fun f g => fun c => f c * g)
    (((List.replicate L 0 ++ (past ++ x)).drop past.length).take x.length) g

theorem applyGain_spec {p q rate : ℝ} {L m : ℕ} {s : Control C} {past : List (Fin C → ℝ)}
    (junk : ℕ → Fin C → ℝ) (hd : FixedDelayLine.Inv 0 s.delay past) (hL : s.delay.delay = L)
    (x : List (Fin C → ℝ)) (g : List ℝ) :
    ∃ d, s.applyGain junk x g = .ok ({ s with delay := d }, blockOut L past x g) ∧
      FixedDelayLine.Inv 0 d (past ++ x) ∧ d.delay = L := by
  obtain ⟨d, h1, h2, h3⟩ := FixedDelayLine.processBlock_spec 0 junk hd x
  refine ⟨d, ?_, h2, by rw [h3, hL]⟩
  unfold Control.applyGain
  rw [h1]
  simp only [hL]
  rfl

theorem follow_eq {P : Params} {rate : ℝ} :
    (fun u v => u + (if u < v then firstOrderCoefficient P.attack rate
      else firstOrderCoefficient P.release rate) * (v - u)) =
      Spec.follow P.attack P.release rate := rfl

theorem Steady.gain {p q : ℝ} {P : Params} {rate : ℝ} {L m : ℕ} {s : Control C}
    {past side : List (Fin C → ℝ)} (h : Steady p q P rate L m s past side) (hP : P.Valid)
    (sc : List (Fin C → ℝ)) (hl : sc.length ≤ m) :
    ∃ e, s.gainSignal sc = .ok ({ s with envelope := some e },
        (List.range sc.length).map fun n => Spec.gain P rate (side ++ sc.take (n + 1))) ∧
      Steady p q P rate L m { s with envelope := some e } past (side ++ sc) := by
  obtain ⟨⟨e, he, hg, hr, hs, ha, hre, hv⟩, h2, h3, h4, h5, h6, h7⟩ := h
  have hnn : ∀ v ∈ sc.map (detect s.params.rms), 0 ≤ v := by
    intro v hv
    simp only [List.mem_map] at hv
    obtain ⟨u, -, rfl⟩ := hv
    exact detected_nonneg _ u
  have hloop := envelopeLoop_settled (sc.map (detect s.params.rms)) hg hs hnn
  rw [ha, hre, follow_eq, hv, h6] at hloop
  have henv : ∀ l : List (Fin C → ℝ), (l.map (detect P.rms)).foldl
      (Spec.follow P.attack P.release rate) (Spec.envelope P rate side) =
        Spec.envelope P rate (side ++ l) := by
    intro l
    unfold Spec.envelope
    rw [List.map_append, List.foldl_append]
    rfl
  refine ⟨{ e with envelope := Spec.envelope P rate (side ++ sc) }, ?_, ?_⟩
  · unfold Control.gainSignal Control.gainFromDetected
    rw [if_neg (by omega), he]
    simp only [h6, hloop, h7, henv, Bool.false_eq_true, if_false]
    congr 2
    · rw [ha, hre]
    rw [List.map_map, List.map_map, List.map_map, List.length_map]
    apply List.map_congr_left
    intro n _
    simp only [Function.comp]
    rw [level_eq, specificGain_eq hP, dbToAmplitude_eq, ← List.map_take, henv]
    rfl
  · refine ⟨⟨_, rfl, ⟨hg.rate, hg.smoother, hg.attack, hg.release, hg.attackState,
      hg.releaseState⟩, hr, ⟨hs.attackState, hs.releaseState⟩, ha, hre, rfl⟩, h2, h3, h4, h5, h6,
      h7⟩

theorem Steady.process {p q : ℝ} {P : Params} {rate : ℝ} {L m : ℕ} {s : Control C}
    {past side : List (Fin C → ℝ)} (h : Steady p q P rate L m s past side) (hP : P.Valid)
    (junk : ℕ → Fin C → ℝ) (x sc : List (Fin C → ℝ)) (hl : sc.length ≤ m) :
    ∃ s', s.processWithSidechain junk x sc = .ok (s', blockOut L past x
        ((List.range sc.length).map fun n => Spec.gain P rate (side ++ sc.take (n + 1)))) ∧
      Steady p q P rate L m s' (past ++ x) (side ++ sc) := by
  obtain ⟨e, h1, h2⟩ := h.gain hP sc hl
  obtain ⟨d, h3, h4, h5⟩ := applyGain_spec (p := 0) (q := 0) (rate := 0) (m := 0) junk h2.delay
    h2.lookahead x ((List.range sc.length).map fun n => Spec.gain P rate (side ++ sc.take (n + 1)))
  refine ⟨{ s with envelope := some e, delay := d }, ?_, ?_⟩
  · unfold Control.processWithSidechain
    rw [h1]
    simp only [bind, Except.bind]
    rw [h3]
  · exact ⟨h2.env, h4, h5, h2.block, h2.rate, h2.params, h2.change⟩

end Verif.Drc

namespace Verif.Drc
open Verif.Envelope Verif.Stream

variable {C : ℕ}

/-- Delayed input from time `past.length` on times the gains. -/
noncomputable def tailOut (P : Params) (rate : ℝ) (L : ℕ) (past side x sc : List (Fin C → ℝ)) :
    List (Fin C → ℝ) :=
  (List.range x.length).map fun n c =>
    (List.replicate L (0 : Fin C → ℝ) ++ (past ++ x)).getD (past.length + n) 0 c *
      Spec.gain P rate (side ++ sc.take (n + 1))

theorem blockOut_eq (P : Params) (rate : ℝ) (L : ℕ) (past side x sc : List (Fin C → ℝ))
    (h : x.length = sc.length) :
    blockOut L past x ((List.range sc.length).map fun n =>
      Spec.gain P rate (side ++ sc.take (n + 1))) = tailOut P rate L past side x sc := by
  unfold blockOut tailOut
  apply List.ext_getElem?
  intro n
  rw [List.getElem?_zipWith, List.getElem?_take, List.getElem?_drop, List.getElem?_map,
    List.getElem?_map, h]
  by_cases hn : n < sc.length
  · rw [if_pos hn, List.getElem?_range hn,
      List.getElem?_eq_getElem (by simp only [List.length_append, List.length_replicate]; omega)]
    simp only [Option.map_some, Option.some.injEq, List.getD_eq_getElem?_getD]
    rw [List.getElem?_eq_getElem (by
      simp only [List.length_append, List.length_replicate]; omega)]
    rfl
  · rw [if_neg hn, List.getElem?_eq_none (l := List.range sc.length) (by simp; omega)]
    rfl

theorem tailOut_append (P : Params) (rate : ℝ) (L : ℕ) (past side x sc x' sc' : List (Fin C → ℝ))
    (h : x.length = sc.length) :
    tailOut P rate L past side (x ++ x') (sc ++ sc') =
      tailOut P rate L past side x sc ++ tailOut P rate L (past ++ x) (side ++ sc) x' sc' := by
  unfold tailOut
  rw [List.length_append, List.range_add, List.map_append, List.map_map]
  congr 1
  · apply List.map_congr_left
    intro n hn
    rw [List.mem_range] at hn
    rw [List.take_append_of_le_length (by omega)]
    funext c
    rw [← List.append_assoc past, ← List.append_assoc,
      List.getD_append _ _ _ _ (by simp only [List.length_append, List.length_replicate]; omega)]
  · apply List.map_congr_left
    intro n hn
    funext c
    simp only [Function.comp, List.append_assoc, List.length_append]
    rw [show past.length + (x.length + n) = past.length + x.length + n by omega, h,
      show sc.length + n + 1 = sc.length + (n + 1) by omega, List.take_length_add_append]

theorem tailOut_output (P : Params) (rate : ℝ) (L : ℕ) (x sc : List (Fin C → ℝ)) :
    tailOut P rate L [] [] x sc = Spec.output P rate L x sc := by
  unfold tailOut Spec.output
  apply List.map_congr_left
  intro n hn
  funext c
  simp only [List.nil_append, List.length_nil, zero_add]
  congr 1
  split_ifs with h
  · rw [List.getD_append _ _ _ _ (by simpa using h)]
    simp [List.getD_eq_getElem?_getD, h]
  · rw [List.getD_append_right _ _ _ _ (by simpa using h), List.length_replicate]

theorem Steady.run {p q : ℝ} {P : Params} {rate : ℝ} {L m : ℕ} (hP : P.Valid)
    (junk : ℕ → Fin C → ℝ) : ∀ (blocks : List (List (Fin C → ℝ) × List (Fin C → ℝ)))
    {s : Control C} {past side : List (Fin C → ℝ)}, Steady p q P rate L m s past side →
    (∀ b ∈ blocks, b.1.length = b.2.length ∧ b.1.length ≤ m) →
    ∃ s' outs, s.run junk blocks = .ok (s', outs) ∧
      Steady p q P rate L m s' (past ++ (blocks.map Prod.fst).flatten)
        (side ++ (blocks.map Prod.snd).flatten) ∧
      outs.map List.length = blocks.map (fun b => b.1.length) ∧
      outs.flatten = tailOut P rate L past side (blocks.map Prod.fst).flatten
        (blocks.map Prod.snd).flatten
  | [], s, past, side, h, _ => ⟨s, [], rfl, by simpa using h, rfl, by simp [tailOut]⟩
  | b :: bs, s, past, side, h, hb => by
    simp only [List.mem_cons, forall_eq_or_imp] at hb
    obtain ⟨s1, h1, h2⟩ := h.process hP junk b.1 b.2 (by omega)
    obtain ⟨s2, outs, h3, h4, h5, h6⟩ := Steady.run hP junk bs h2 hb.2
    rw [blockOut_eq P rate L past side b.1 b.2 hb.1.1] at h1
    refine ⟨s2, tailOut P rate L past side b.1 b.2 :: outs, ?_, ?_, ?_, ?_⟩
    · unfold Control.run
      rw [h1]
      simp only [bind, Except.bind]
      rw [h3]
      rfl
    · simpa [List.append_assoc] using h4
    · simp [h5, tailOut]
    · simp only [List.map_cons, List.flatten_cons, h6]
      rw [tailOut_append P rate L past side _ _ _ _ hb.1.1]

/-! ### Arbitrary histories -/

/-- What a client can do after `Init`. -/
inductive Op (C : ℕ) where
  | process (junk : ℕ → Fin C → ℝ) (x sidechain : List (Fin C → ℝ))
  | setParams (p : Params)
  | reset

/-- The effect of one call. -/
noncomputable def Control.apply (s : Control C) : Op C → Except Err (Control C)
  | .process junk x sc => (s.processWithSidechain junk x sc).map Prod.fst
  | .setParams p => s.setParams p
  | .reset => s.reset

/-- A history of calls. -/
noncomputable def Control.exec (s : Control C) : List (Op C) → Except Err (Control C)
  | [] => .ok s
  | o :: os => do (← s.apply o).exec os

/-- The input processed in a history. -/
def inputs : List (Op C) → List (Fin C → ℝ)
  | [] => []
  | .process _ x _ :: os => x ++ inputs os
  | _ :: os => inputs os

theorem gainSignal_live {p q rate : ℝ} {L m : ℕ} {s s' : Control C} {past : List (Fin C → ℝ)}
    (h : Live p q rate L m s past) {sc : List (Fin C → ℝ)} {g : List ℝ}
    (hs : s.gainSignal sc = .ok (s', g)) : Live p q rate L m s' past := by
  obtain ⟨⟨e, he, hg, hr⟩, h2, h3, h4, h5⟩ := h
  unfold Control.gainSignal at hs
  split_ifs at hs
  unfold Control.gainFromDetected at hs
  simp only [he] at hs
  obtain ⟨k1, k2, -⟩ := envelopeLoop_good (List.map (detect s.params.rms) sc) hg
  have henv : ∃ e', some (envelopeLoop e (List.map (detect s.params.rms) sc)).1 = some e' ∧
      Good p q e' ∧ e'.rate = rate := ⟨_, rfl, k1, by rw [k2, hr]⟩
  split_ifs at hs <;>
    (obtain ⟨rfl, rfl⟩ := Prod.mk.inj (Except.ok.inj hs)
     exact ⟨henv, h2, h3, h4, h5⟩)

theorem Live.apply {p q rate : ℝ} {L m : ℕ} {s s' : Control C} {past : List (Fin C → ℝ)}
    (h : Live p q rate L m s past) {o : Op C} (hs : s.apply o = .ok s') :
    Live p q rate L m s' (past ++ inputs [o]) := by
  cases o with
  | process junk x sc =>
    simp only [Control.apply, Control.processWithSidechain, bind, Except.bind] at hs
    cases hgs : s.gainSignal sc with
    | error e => rw [hgs] at hs; simp [Except.map] at hs
    | ok r =>
      obtain ⟨s1, g⟩ := r
      rw [hgs] at hs
      have h1 := gainSignal_live h hgs
      obtain ⟨d, k1, k2, k3⟩ := applyGain_spec (p := 0) (q := 0) (rate := 0) (m := 0) junk
        h1.delay h1.lookahead x g
      simp only [k1, Except.map] at hs
      obtain rfl := Except.ok.inj hs
      refine ⟨h1.env, ?_, k3, h1.block, h1.rate⟩
      simpa [inputs] using k2
  | setParams P =>
    obtain ⟨⟨e, he, hg, hr⟩, h2, h3, h4, h5⟩ := h
    simp only [Control.apply, Control.setParams, he] at hs
    split_ifs at hs with hv hl
    obtain rfl := Except.ok.inj hs
    refine ⟨⟨_, rfl, ?_, hr⟩, by simpa [inputs] using h2, h3, h4, h5⟩
    exact (hg.apply (o := .setAttack P.attack) hv.2.2.1).apply (o := .setRelease P.release) hv.2.2.2
  | reset =>
    obtain ⟨⟨e, he, hg, hr⟩, h2, h3, h4, h5⟩ := h
    simp only [Control.apply, Control.reset, he] at hs
    obtain rfl := Except.ok.inj hs
    exact ⟨⟨_, rfl, hg.apply (o := .reset) trivial, hr⟩, by simpa [inputs] using h2, h3, h4, h5⟩

theorem Live.exec {p q rate : ℝ} {L m : ℕ} : ∀ (os : List (Op C)) {s s' : Control C}
    {past : List (Fin C → ℝ)}, Live p q rate L m s past → s.exec os = .ok s' →
    Live p q rate L m s' (past ++ inputs os)
  | [], s, s', past, h, hs => by
    obtain rfl := Except.ok.inj hs
    simpa [inputs] using h
  | o :: os, s, s', past, h, hs => by
    unfold Control.exec at hs
    cases h1 : s.apply o with
    | error e => rw [h1] at hs; simp [bind, Except.bind] at hs
    | ok s1 =>
      rw [h1] at hs
      have := Live.exec os (h.apply h1) hs
      rw [List.append_assoc] at this
      cases o <;> simpa [inputs] using this

theorem init_delay (L m : ℕ) :
    FixedDelayLine.Inv (0 : Fin C → ℝ) (FixedDelayLine.init 0 L m) [] := by
  refine ⟨rfl, by simp [FixedDelayLine.init], Nat.le_refl _, ?_⟩
  intro j hj
  simp [FixedDelayLine.init] at hj ⊢
  simp [List.getElem?_replicate, hj]
  omega

theorem init_steady {P : Params} (hP : P.Valid) (hC : 0 < C) {m : ℕ} (hm : 0 < m) {rate : ℝ}
    (hr : 1200 ≤ rate) (hL : 0 ≤ roundAway (P.lookahead * rate)) :
    ∃ s0 s : Control C, ∃ p q, Control.make C P = .ok s0 ∧ s0.init m rate = .ok s ∧
      Steady p q P rate (roundAway (P.lookahead * rate)).toNat m s [] [] ∧ s.nextParams = {} := by
  obtain ⟨e, p, q, h1, h2, h3, h4, h5, h6⟩ := make_good (hz := 200) hP.2.2.1 hP.2.2.2 (by norm_num)
    (show 6 * (200 : ℝ) ≤ rate by linarith)
  refine ⟨{
        rate := 0, maxBlock := 0, params := P, changeNeeded := false, nextParams := {},
        delay := FixedDelayLine.init 0 0 0, envelope := none },
      {
        rate := rate, maxBlock := m, params := P, changeNeeded := false, nextParams := {},
        delay := FixedDelayLine.init 0 (roundAway (P.lookahead * rate)).toNat m,
        envelope := some e }, p, q, ?_, ?_, ?_, rfl⟩
  · unfold Control.make; rw [if_pos hP]
  · unfold Control.init
    rw [if_pos ⟨hC, hm, by linarith⟩]
    simp only [h1, if_pos hL]
  · refine ⟨⟨e, rfl, h2, h6, by rw [h3]; exact reset_settled e, h4, h5, ?_⟩, init_delay _ _, rfl,
      rfl, rfl, rfl, rfl⟩
    rw [h3]; rfl

/-- `SetDynamicRangeControlParams` followed by `Reset` in any live state. -/
theorem Live.set_reset {p q rate : ℝ} {L m : ℕ} {s s1 s2 : Control C} {past : List (Fin C → ℝ)}
    (h : Live p q rate L m s past) {P : Params} (h1 : s.setParams P = .ok s1)
    (h2 : s1.reset = .ok s2) : Steady p q P rate L m s2 past [] ∧ P.Valid := by
  have l1 : Live p q rate L m s1 (past ++ inputs [.setParams P]) := h.apply h1
  obtain ⟨⟨e, he, hg, hr⟩, k2, k3, k4, k5⟩ := h
  unfold Control.setParams at h1
  simp only [he] at h1
  split_ifs at h1 with hv hl
  obtain rfl := Except.ok.inj h1
  unfold Control.reset at h2
  simp only at h2
  obtain rfl := Except.ok.inj h2
  refine ⟨⟨⟨_, rfl, ?_, hr, reset_settled _, ?_, ?_, rfl⟩, k2, k3, k4, k5, rfl, rfl⟩, hv⟩
  · exact ((hg.apply (o := .setAttack P.attack) hv.2.2.1).apply (o := .setRelease P.release)
      hv.2.2.2).apply (o := .reset) trivial
  · simp [AttackRelease.reset, AttackRelease.setRelease, AttackRelease.setAttack, hr]
  · simp [AttackRelease.reset, AttackRelease.setRelease, AttackRelease.setAttack, hr]

end Verif.Drc
