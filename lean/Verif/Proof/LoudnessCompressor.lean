import Verif.Spec.LoudnessCompressor
import Verif.Theorems.Loudness
import Verif.Theorems.Drc

/-! # Lemmas about the loudness-driven compressor -/

namespace Verif.LoudnessCompressor
open Verif.Stream Verif.Loudness Verif.Envelope Verif.BiquadCascade

variable {C : ℕ}

theorem dbPower_powerDb {v : ℝ} (h : 0 ≤ v) : dbPower (powerDb v) = some v := by
  unfold powerDb
  rcases h.lt_or_eq with h | h
  · rw [if_pos h]
    simp only [dbPower, Drc.dbToPower, Drc.powerToDb]
    congr 1
    have := Drc.log10_pos
    rw [show Real.log 10 / 10 * (10 / Real.log 10 * Real.log v) = Real.log v by field_simp, Real.exp_log h]
  · subst h
    rw [if_neg (lt_irrefl _), if_pos rfl]
    rfl

theorem follower_loop : ∀ (vs : List ℝ) (e : AttackRelease),
    runSamples Follower.step ⟨e, false⟩ (vs.map some) =
      (⟨(Drc.envelopeLoop e vs).1, false⟩, (Drc.envelopeLoop e vs).2)
  | [], _ => rfl
  | v :: vs, e => by
    have h : Follower.step ⟨e, false⟩ (some v) = (⟨(e.output v).1, false⟩, max (1 / 10 ^ 12) (e.output v).2) := by
      simp [Follower.step]
    simp only [List.map_cons, runSamples, h, Drc.envelopeLoop]
    have ih := follower_loop vs (e.output v).1
    simp only [ih, Drc.envelopeLoop]

theorem powerToDb_eq (v : ℝ) : Drc.powerToDb v = 10 * Real.logb 10 v := by
  have := Drc.level_eq true v
  simpa [Drc.Spec.level] using this

/-- The curve at one level. -/
noncomputable def curve (p : Params) (x : ℝ) : ℝ := (Drc.twoWay x p.twoWay).getD 0

theorem twoWay_some {p : Params} (h : Drc.verifyParams p.twoWay = .none) (x : ℝ) :
    Drc.twoWay x p.twoWay = some (curve p x) := by
  unfold curve Drc.twoWay
  rw [if_pos h]
  rfl

/-- The linear gain after a sequence of powers. -/
noncomputable def gainAfter (p : Params) (rate : ℝ) (P : List ℝ) : ℝ :=
  Drc.Spec.amplitude (curve p (Spec.level p rate P + p.inputGain) - Spec.level p rate P + p.outputGain)

/-- Between two calls: `past` are all frames since `Init`, `seen` those since `Init` or the last `Reset`. -/
structure Running (a b : ℝ) (p : Params) (rate : ℝ) (L : ℕ) (m : ℤ) (f : Filters C) (s : Compressor C)
    (past seen : List (Fin C → ℝ)) : Prop where
  params : s.params = p
  maxBlock : s.maxBlock = m
  meter : s.meter = ⟨p.loudness.weights, some (f.after p.loudness.weights seen)⟩
  weights : C ≤ p.loudness.weights.length
  env : ∃ e, s.envelope = some ⟨e, false⟩ ∧ Good a b e ∧ Settled e ∧
    e.attack = firstOrderCoefficient p.attack rate ∧ e.release = firstOrderCoefficient p.release rate ∧
    e.envelope = (f.out p.loudness.weights seen).foldl (Drc.Spec.follow p.attack p.release rate) 0
  delay : FixedDelayLine.Inv 0 s.delay past
  lookahead : s.delay.delay = L

theorem mapM_some {α β : Type} {f : α → Option β} {g : α → β} : ∀ {l : List α}, (∀ a ∈ l, f a = some (g a)) →
    l.mapM f = some (l.map g)
  | [], _ => rfl
  | a :: l, h => by
    rw [List.mapM_cons, h a (by simp), mapM_some (l := l) fun b hb => h b (by simp [hb])]
    rfl

theorem Running.gains {a b : ℝ} {p : Params} {rate : ℝ} {L : ℕ} {m : ℤ} {f : Filters C} {s : Compressor C}
    {past seen : List (Fin C → ℝ)} (h : Running a b p rate L m f s past seen)
    (hv : Drc.verifyParams p.twoWay = .none) (x : List (Fin C → ℝ))
    (hP : ∀ v ∈ (f.after p.loudness.weights seen).out p.loudness.weights x, 0 ≤ v) :
    ∃ s', s.gains x = .ok (s', (List.range x.length).map fun n => gainAfter p rate
        (f.out p.loudness.weights seen ++ ((f.after p.loudness.weights seen).out p.loudness.weights x).take (n + 1))) ∧
      Running a b p rate L m f s' past (seen ++ x) ∧ s'.delay = s.delay := by
  obtain ⟨h1, h2, h3, h4, ⟨e, h5, hg, hs, ha, hr, he⟩, h6, h7⟩ := h
  obtain ⟨w, hw⟩ : ∃ w, w = p.loudness.weights := ⟨_, rfl⟩
  rw [← hw] at h3 h4 he hP ⊢
  obtain ⟨P, hPd⟩ : ∃ P, P = (f.after w seen).out w x := ⟨_, rfl⟩
  rw [← hPd] at hP ⊢
  have hlen : P.length = x.length := by rw [hPd, out_length]
  have hready : Ready s.meter (f.after w seen) := by rw [h3]; exact ⟨rfl, h4⟩
  have hmeter : s.meter.processBlock x = some (⟨w, some (f.after w (seen ++ x))⟩, P.map powerDb) := by
    unfold Meter.processBlock
    rw [hready.power, h3, after_append, hPd]
  have hdata : (P.map powerDb).map dbPower = P.map some := by
    rw [List.map_map]
    apply List.map_congr_left
    intro v hv'
    exact dbPower_powerDb (hP v hv')
  have hloop := Drc.envelopeLoop_settled P hg hs hP
  have hfun : (fun u v => u + (if u < v then e.attack else e.release) * (v - u)) =
      Drc.Spec.follow p.attack p.release rate := by rw [ha, hr]; rfl
  rw [hfun, he, ← List.foldl_append] at hloop
  obtain ⟨e', he'⟩ : ∃ e' : AttackRelease, e' = { e with
      envelope := (f.out w seen ++ P).foldl (Drc.Spec.follow p.attack p.release rate) 0 } := ⟨_, rfl⟩
  rw [← he'] at hloop
  have hgood : Good a b e' := by
    rw [he']
    exact ⟨hg.rate, hg.smoother, hg.attack, hg.release, hg.attackState, hg.releaseState⟩
  refine ⟨{ s with meter := ⟨w, some (f.after w (seen ++ x))⟩, envelope := some ⟨e', false⟩ }, ?_, ?_, rfl⟩
  · unfold Compressor.gains
    rw [hmeter, h5]
    dsimp only
    rw [hdata, follower_loop, hloop]
    dsimp only
    rw [mapM_some (g := fun v => Drc.dbToAmplitude (curve p (Drc.powerToDb v + p.inputGain) - Drc.powerToDb v +
      p.outputGain)) (fun v _ => by unfold gainOf; rw [h1, twoWay_some hv])]
    dsimp only
    rw [List.map_map, hlen]
    congr 2
    apply List.map_congr_left
    intro n _
    dsimp only [Function.comp, gainAfter, Spec.level]
    rw [Drc.dbToAmplitude_eq, powerToDb_eq, ← List.foldl_append]
  · refine ⟨h1, h2, by rw [← hw], by rw [← hw]; exact h4, ⟨e', rfl, hgood, ?_, ?_, ?_, ?_⟩, h6, h7⟩
    · rw [he']; exact ⟨hs.attackState, hs.releaseState⟩
    · rw [he', ← ha]
    · rw [he', ← hr]
    · rw [he', ← hw, out_append, hPd]

/-- The output of a block: `past` are the frames before it, `Q` the powers before it. -/
noncomputable def tailOut (p : Params) (rate : ℝ) (L : ℕ) (past : List (Fin C → ℝ)) (Q : List ℝ) (x : List (Fin C → ℝ))
    (P : List ℝ) : List (Fin C → ℝ) :=
  (List.range x.length).map fun n c =>
    (List.replicate L (0 : Fin C → ℝ) ++ (past ++ x)).getD (past.length + n) 0 c * gainAfter p rate (Q ++ P.take (n + 1))

theorem blockOut_eq (p : Params) (rate : ℝ) (L : ℕ) (past : List (Fin C → ℝ)) (Q : List ℝ) (x : List (Fin C → ℝ))
    (P : List ℝ) : Drc.blockOut L past x ((List.range x.length).map fun n => gainAfter p rate (Q ++ P.take (n + 1)))
      = tailOut p rate L past Q x P := by
  unfold Drc.blockOut tailOut
  apply List.ext_getElem
  · simp; omega
  · intro n h1 h2
    rw [List.getElem_zipWith, List.getElem_map, List.getElem_range, List.getElem_map, List.getElem_range]
    funext c
    rw [List.getElem_take, List.getElem_drop, List.getD_eq_getElem]

theorem Running.process {a b : ℝ} {p : Params} {rate : ℝ} {L : ℕ} {m : ℤ} {f : Filters C} {s : Compressor C}
    {past seen : List (Fin C → ℝ)} (h : Running a b p rate L m f s past seen)
    (hv : Drc.verifyParams p.twoWay = .none) (junk : ℕ → Fin C → ℝ) (x : List (Fin C → ℝ)) (h1 : 1 ≤ x.length)
    (h2 : (x.length : ℤ) ≤ m) (hP : ∀ v ∈ (f.after p.loudness.weights seen).out p.loudness.weights x, 0 ≤ v) :
    ∃ s', s.process junk x = .ok (s', tailOut p rate L past (f.out p.loudness.weights seen) x
        ((f.after p.loudness.weights seen).out p.loudness.weights x)) ∧
      Running a b p rate L m f s' (past ++ x) (seen ++ x) := by
  obtain ⟨s1, e1, hr, -⟩ := h.gains hv x hP
  obtain ⟨d, k1, k2, k3⟩ := FixedDelayLine.processBlock_spec 0 junk hr.delay x
  refine ⟨{ s1 with delay := d }, ?_, ⟨hr.params, hr.maxBlock, hr.meter, hr.weights, hr.env, k2, by
    rw [k3]; exact hr.lookahead⟩⟩
  unfold Compressor.process
  rw [if_pos ⟨h1, by rw [h.maxBlock]; exact h2⟩, e1]
  dsimp only
  unfold Compressor.applyGain
  rw [k1]
  dsimp only
  rw [← blockOut_eq, hr.lookahead]
  rfl

theorem tailOut_append (p : Params) (rate : ℝ) (L : ℕ) (past : List (Fin C → ℝ)) (Q : List ℝ) (x x' : List (Fin C → ℝ))
    (P P' : List ℝ) (h : P.length = x.length) :
    tailOut p rate L past Q (x ++ x') (P ++ P') =
      tailOut p rate L past Q x P ++ tailOut p rate L (past ++ x) (Q ++ P) x' P' := by
  unfold tailOut
  rw [List.length_append, List.range_add, List.map_append, List.map_map]
  congr 1
  · apply List.map_congr_left
    intro n hn
    rw [List.mem_range] at hn
    funext c
    congr 2
    · rw [← List.append_assoc past x x', ← List.append_assoc, List.getD_append _ _ _ _ (by simp; omega)]
    · rw [List.take_append_of_le_length (by omega)]
  · apply List.map_congr_left
    intro n _
    funext c
    dsimp only [Function.comp]
    rw [← List.append_assoc past x x', List.length_append, ← add_assoc]
    congr 2
    rw [List.take_append, List.take_of_length_le (by omega), List.append_assoc]
    congr 3
    omega

theorem Running.run {a b : ℝ} {p : Params} {rate : ℝ} {L : ℕ} {m : ℤ} {f : Filters C}
    (hv : Drc.verifyParams p.twoWay = .none) (junk : ℕ → Fin C → ℝ) :
    ∀ (blocks : List (List (Fin C → ℝ))) {s : Compressor C} {past seen : List (Fin C → ℝ)},
    Running a b p rate L m f s past seen → (∀ x ∈ blocks, 1 ≤ x.length ∧ (x.length : ℤ) ≤ m) →
    (∀ v ∈ (f.after p.loudness.weights seen).out p.loudness.weights blocks.flatten, 0 ≤ v) →
    ∃ s' outs, s.run junk blocks = .ok (s', outs) ∧ outs.map List.length = blocks.map List.length ∧
      outs.flatten = tailOut p rate L past (f.out p.loudness.weights seen) blocks.flatten
        ((f.after p.loudness.weights seen).out p.loudness.weights blocks.flatten) ∧
      Running a b p rate L m f s' (past ++ blocks.flatten) (seen ++ blocks.flatten)
  | [], s, past, seen, h, _, _ => ⟨s, [], rfl, rfl, rfl, by simpa using h⟩
  | x :: xs, s, past, seen, h, hb, hP => by
    rw [List.flatten_cons, out_append] at hP
    obtain ⟨s1, e1, h1⟩ := h.process hv junk x (hb x (by simp)).1 (hb x (by simp)).2
      (fun v hv' => hP v (List.mem_append_left _ hv'))
    obtain ⟨s', outs, e2, h2, h3, h4⟩ := Running.run hv junk xs h1 (fun y hy => hb y (by simp [hy])) (by
      rw [after_append]; exact fun v hv' => hP v (List.mem_append_right _ hv'))
    refine ⟨s', tailOut p rate L past (f.out p.loudness.weights seen) x
      ((f.after p.loudness.weights seen).out p.loudness.weights x) :: outs, ?_, ?_, ?_, ?_⟩
    · unfold Compressor.run
      rw [e1]
      dsimp only
      rw [e2]
    · rw [List.map_cons, List.map_cons, h2]
      simp [tailOut]
    · rw [List.flatten_cons, List.flatten_cons, h3, out_append (f.after p.loudness.weights seen),
        tailOut_append _ _ _ _ _ _ _ _ _ (out_length _ _ _), out_append, after_append]
    · rw [List.flatten_cons, ← List.append_assoc, ← List.append_assoc]
      exact h4

/-- `tailOut` from the start is the specified output. -/
theorem tailOut_spec {p : Params} (hv : Drc.verifyParams p.twoWay = .none) (rate : ℝ) (L : ℕ) (x : List (Fin C → ℝ))
    (P : List ℝ) : Spec.Compressed p rate L x P (tailOut p rate L [] [] x P) := by
  refine ⟨by simp [tailOut], fun n hn => ⟨_, twoWay_some hv _, fun c => ?_⟩⟩
  unfold tailOut
  rw [List.getD_eq_getElem _ _ (by simpa using hn), List.getElem_map, List.getElem_range]
  simp only [List.nil_append, List.length_nil, zero_add]
  unfold gainAfter
  congr 1
  split
  · rename_i h
    rw [List.getD_append _ _ _ _ (by simpa using h), List.getD_eq_getElem _ _ (by simpa using h)]
    simp
  · rename_i h
    rw [List.getD_append_right _ _ _ _ (by simpa using h), List.length_replicate]

theorem init_running {p : Params} {m : ℤ} {rate : ℝ} (hC : 0 < C) (hm : 0 < m) (hr : 1200 ≤ rate) (ha : 0 < p.attack)
    (hl : 0 < p.release) (hL : 0 ≤ p.lookahead) (hw : p.loudness.weights.length = C) (h0 : p.loudness.averaging.a0 ≠ 0)
    (s0 : Compressor C) :
    ∃ (s : Compressor C) (cs : List (Stage ℝ)) (f : Filters C) (a b : ℝ), s0.init p m rate = .ok (s, true) ∧
      PerceptualFilter.coefficients (1 / 10 ^ 10) .k rate = some cs ∧ (∀ t ∈ cs, t.Valid) ∧
      Fresh cs p.loudness.averaging f ∧
      Running a b p rate ⌊p.lookahead * rate + 1 / 2⌋₊ m f s [] [] := by
  obtain ⟨cs, f, h1, h2, -, h4, h5, h6⟩ := init_ready (rate := rate) (by linarith) hw h0 s0.meter
  obtain ⟨e, a, b, k1, k2, k3, k4, k5, -⟩ := make_good (hz := 200) ha hl (by norm_num)
    (show 6 * (200 : ℝ) ≤ rate by linarith)
  have hx : 0 ≤ p.lookahead * rate := mul_nonneg hL (by linarith)
  have hround : Drc.roundAway (p.lookahead * rate) = ⌊p.lookahead * rate + 1 / 2⌋ := by
    unfold Drc.roundAway
    rw [if_neg (not_lt.2 hx)]
  have hnn : 0 ≤ Drc.roundAway (p.lookahead * rate) := by
    rw [hround]; exact Int.floor_nonneg.2 (by linarith)
  refine ⟨⟨p, m, rate, ⟨p.loudness.weights, some f⟩, some ⟨e, false⟩,
      FixedDelayLine.init 0 (Drc.roundAway (p.lookahead * rate)).toNat m.toNat⟩, cs, f, a, b, ?_, h1, h2, h5, ?_⟩
  · unfold Compressor.init
    rw [if_pos ⟨by linarith, by linarith, by omega, by omega, by linarith⟩, h4]
    dsimp only
    rw [k1]
    dsimp only
    rw [if_pos hnn]
  · refine ⟨rfl, rfl, ?_, hw.ge, ⟨e, rfl, k2, by rw [k3]; exact reset_settled e, k4, k5, ?_⟩, Drc.init_delay _ _, ?_⟩
    · rw [after_nil]
    · rw [k3]
      simp [Filters.out, sums, runSamples, AttackRelease.reset]
    · rw [hround]
      rfl

/-- `Reset`. -/
theorem Running.reset {a b : ℝ} {p : Params} {rate : ℝ} {L : ℕ} {m : ℤ} {f : Filters C} {s : Compressor C}
    {past seen : List (Fin C → ℝ)} (h : Running a b p rate L m f s past seen) {cs : List (Stage ℝ)}
    (hf : Fresh cs p.loudness.averaging f) : ∃ s', s.reset = .ok s' ∧ Running a b p rate L m f s' past [] := by
  obtain ⟨h1, h2, h3, h4, ⟨e, h5, hg, hs, ha, hr, he⟩, h6, h7⟩ := h
  refine ⟨{ s with meter := s.meter.reset, envelope := some ⟨e.reset, false⟩ }, ?_, ?_⟩
  · unfold Compressor.reset
    rw [h5]
  · refine ⟨h1, h2, ?_, h4, ⟨e.reset, rfl, hg.apply (o := .reset) trivial, reset_settled e, ha, hr, ?_⟩, h6, h7⟩
    · simp only [h3, Meter.reset, Option.map_some]
      rw [hf.reset_after, after_nil]
    · simp [Filters.out, sums, runSamples, AttackRelease.reset]

end Verif.LoudnessCompressor
