import Verif.Spec.MultibandCompressor
import Verif.Theorems.MultiCrossover
import Verif.Theorems.Drc

namespace Verif.MultibandCompressor
open Verif.FilterDesign Verif.PoleZero Verif.Drc Verif.MultiCrossover.Spec Spec

variable {C : ℕ} {cfg : Ladder.Config}

theorem perChannel_some {α : Type} {f : Fin C → Option α} {g : Fin C → α} (h : ∀ c, f c = some (g c)) :
    perChannel f = some g := by
  unfold perChannel
  rw [dif_pos fun c => by rw [h c]; rfl]
  congr 1
  funext c
  simp [h c]

theorem perChannel_eq {α : Type} {f : Fin C → Option α} {g : Fin C → α} (h : perChannel f = some g) (c : Fin C) :
    f c = some (g c) := by
  unfold perChannel at h
  split_ifs at h with hs
  rw [← Option.some.inj h]
  simp

theorem bandLoop_spec (junk : ℕ → Fin C → ℝ) (band : ℕ → List (Fin C → ℝ)) (T : ℕ) (d' : ℕ → Control C)
    (w : ℕ → List (Fin C → ℝ)) : ∀ (ds : List (Control C)) (i : ℕ) (out : List (Fin C → ℝ)),
    (∀ k (hk : k < ds.length), ds[k].process junk (band (i + k)) = .ok (d' (i + k), w (i + k)) ∧ (w (i + k)).length = T) →
    out.length = T → bandLoop junk band i ds out = .ok ((List.range ds.length).map fun k => d' (i + k),
      (List.range T).map fun t => out.getD t 0 + ∑ k ∈ Finset.range ds.length, (w (i + k)).getD t 0)
  | [], i, out, _, ho => by
    simp only [bandLoop, List.length_nil, List.range_zero, List.map_nil, Finset.range_zero, Finset.sum_empty, add_zero,
      Except.ok.injEq, Prod.mk.injEq, true_and]
    refine List.ext_getElem (by simp [ho]) fun t h1 h2 => ?_
    rw [List.getElem_map, List.getElem_range, List.getD_eq_getElem _ _ h1]
  | d :: ds, i, out, h, ho => by
    obtain ⟨h0, l0⟩ := h 0 (by simp)
    have ih := bandLoop_spec junk band T d' w ds (i + 1) (List.zipWith (· + ·) out (w i)) (fun k hk => by
      have := h (k + 1) (by simpa using hk)
      rw [List.getElem_cons_succ, show i + (k + 1) = i + 1 + k by omega] at this
      exact this) (by rw [List.length_zipWith]; simp only [Nat.add_zero] at l0; omega)
    simp only [List.getElem_cons_zero, Nat.add_zero] at h0 l0
    simp only [bandLoop, h0, ih, Except.ok.injEq, Prod.mk.injEq]
    refine ⟨?_, ?_⟩
    · rw [List.length_cons, List.range_succ_eq_map, List.map_cons, List.map_map]
      congr 1
      refine List.map_congr_left fun k _ => ?_
      simp only [Function.comp]; congr 1; omega
    · refine List.map_congr_left fun t ht => ?_
      have ht := List.mem_range.1 ht
      rw [List.length_cons, Finset.sum_range_succ', show i + 0 = i from rfl, List.getD_eq_getElem _ _ (by simp; omega),
        List.getElem_zipWith, List.getD_eq_getElem _ _ (by omega), List.getD_eq_getElem (w i) _ (by omega)]
      have : ∀ k, i + 1 + k = i + (k + 1) := fun k => by omega
      simp only [this]
      abel

/-- A signal with every channel passed through its own filters. -/
noncomputable def filteredC (cfg : Ladder.Config) (fs : Fin C → List Ladder.Filter) (x : List (Fin C → ℝ)) :
    List (Fin C → ℝ) :=
  (List.range x.length).map fun t c => (cascade cfg (fs c) (x.map fun f => f c)).2.getD t 0

theorem filteredC_append (fs : Fin C → List Ladder.Filter) (x y : List (Fin C → ℝ)) :
    filteredC cfg fs (x ++ y) = filteredC cfg fs x ++
      filteredC cfg (fun c => (cascade cfg (fs c) (x.map fun f => f c)).1) y := by
  unfold filteredC
  rw [List.length_append, List.range_add, List.map_append, List.map_map]
  have hl : ∀ c, (cascade cfg (fs c) (x.map fun f => f c)).2.length = x.length := fun c => by
    rw [MultiCrossover.cascade_length, List.length_map]
  congr 1
  · refine List.map_congr_left fun t ht => funext fun c => ?_
    have ht := List.mem_range.1 ht
    rw [List.map_append, MultiCrossover.cascade_samples]
    dsimp only
    rw [List.getD_append _ _ _ _ (by rw [hl]; exact ht)]
  · refine List.map_congr_left fun t ht => funext fun c => ?_
    simp only [Function.comp]
    rw [List.map_append, MultiCrossover.cascade_samples]
    dsimp only
    rw [List.getD_append_right _ _ _ _ (by rw [hl]; omega), hl, Nat.add_sub_cancel_left]

theorem filteredC_length (fs : Fin C → List Ladder.Filter) (x : List (Fin C → ℝ)) :
    (filteredC cfg fs x).length = x.length := by simp [filteredC]

theorem mix_append (n a b : ℕ) (u v : ℕ → List (Fin C → ℝ)) (h : ∀ i, i < n → (u i).length = a) :
    mix n (a + b) (fun i => u i ++ v i) = mix n a u ++ mix n b v := by
  unfold mix
  rw [List.range_add, List.map_append, List.map_map]
  congr 1
  · refine List.map_congr_left fun t ht => Finset.sum_congr rfl fun i hi => ?_
    rw [List.getD_append _ _ _ _ (by rw [h i (Finset.mem_range.1 hi)]; exact List.mem_range.1 ht)]
  · refine List.map_congr_left fun t ht => ?_
    simp only [Function.comp]
    refine Finset.sum_congr rfl fun i hi => ?_
    rw [List.getD_append_right _ _ _ _ (by rw [h i (Finset.mem_range.1 hi)]; omega), h i (Finset.mem_range.1 hi),
      Nat.add_sub_cancel_left]

/-- What the control of one band does: an invariant with the input so far and the output of the next block. -/
structure Behaviour (C m : ℕ) (junk : ℕ → Fin C → ℝ) where
  inv : Control C → List (Fin C → ℝ) → Prop
  out : List (Fin C → ℝ) → List (Fin C → ℝ) → List (Fin C → ℝ)
  step : ∀ d past x, inv d past → x.length ≤ m → ∃ d', d.process junk x = .ok (d', out past x) ∧ inv d' (past ++ x)
  len : ∀ past x, (out past x).length = x.length
  append : ∀ past x y, out past (x ++ y) = out past x ++ out (past ++ x) y

theorem process_spec {m n : ℕ} {junk : ℕ → Fin C → ℝ} (B : ℕ → Behaviour C m junk) {s : Compressor C} {d : ℕ → Control C}
    {past : ℕ → List (Fin C → ℝ)} {L H A : Fin C → ℕ → List Ladder.Filter}
    (hh : ∀ c, Holds (s.splitter c) n (L c) (H c) (A c)) (hd : s.drcs = (List.range n).map d)
    (hi : ∀ i, i < n → (B i).inv (d i) (past i)) (x : List (Fin C → ℝ)) (hx : x.length ≤ m) :
    ∃ (s' : Compressor C) (d' : ℕ → Control C) (L' H' A' : Fin C → ℕ → List Ladder.Filter), s.process cfg junk x = .ok (s', mix n x.length fun i =>
        (B i).out (past i) (filteredC cfg (fun c => path n (L c) (H c) (A c) i) x)) ∧
      (∀ c, Holds (s'.splitter c) n (L' c) (H' c) (A' c)) ∧ s'.drcs = (List.range n).map d' ∧
      (∀ c i, i < n → path n (L' c) (H' c) (A' c) i = (cascade cfg (path n (L c) (H c) (A c) i) (x.map fun f => f c)).1) ∧
      (∀ c i, ∃ x1 x2 x3, L' c i = (cascade cfg (L c i) x1).1 ∧ H' c i = (cascade cfg (H c i) x2).1 ∧
        A' c i = (cascade cfg (A c i) x3).1) ∧
      ∀ i, i < n → (B i).inv (d' i) (past i ++ filteredC cfg (fun c => path n (L c) (H c) (A c) i) x) := by
  have hp := fun c => MultiCrossover.processBlock_rep (cfg := cfg) (hh c) (x.map fun f => f c)
  choose bs L' H' A' e hh' k g using hp
  have hf : ∀ i, i < n → frames bs x.length i = filteredC cfg (fun c => path n (L c) (H c) (A c) i) x := fun i hi => by
    unfold frames filteredC
    refine List.map_congr_left fun t ht => funext fun c => ?_
    rw [k c i hi]
  have hstep : ∀ i, ∃ d', i < n → (d i).process junk (frames bs x.length i) = .ok (d', (B i).out (past i) (frames bs x.length i)) ∧
      (B i).inv d' (past i ++ frames bs x.length i) := fun i => by
    by_cases h : i < n
    · obtain ⟨d', a, b⟩ := (B i).step (d i) (past i) (frames bs x.length i) (hi i h) (by rw [hf i h, filteredC_length]; exact hx)
      exact ⟨d', fun _ => ⟨a, b⟩⟩
    · exact ⟨d i, fun h' => absurd h' h⟩
  choose d' hd' using hstep
  have hb := bandLoop_spec junk (frames bs x.length) x.length d' (fun i => (B i).out (past i) (frames bs x.length i)) s.drcs 0
    (List.replicate x.length 0) (fun j hj => by
      have hj' : j < n := by rw [hd] at hj; simpa using hj
      simp only [Nat.zero_add]
      have e : s.drcs[j] = d j := by simp [hd]
      rw [e]
      refine ⟨(hd' j hj').1, ?_⟩
      rw [(B j).len, hf j hj', filteredC_length]) (by simp)
  refine ⟨{ s with splitter := bs, drcs := (List.range n).map d' }, d', L', H', A', ?_, hh', rfl, fun c i hi => ?_, g, fun i hi => ?_⟩
  · unfold Compressor.process
    rw [perChannel_some e]
    dsimp only
    rw [hb]
    dsimp only
    have hlen : s.drcs.length = n := by rw [hd]; simp
    rw [hlen]
    simp only [Nat.zero_add, Except.ok.injEq, Prod.mk.injEq, true_and]
    unfold mix
    refine List.map_congr_left fun t ht => ?_
    have ht := List.mem_range.1 ht
    rw [List.getD_eq_getElem _ _ (by simpa using ht), List.getElem_replicate, zero_add]
    refine Finset.sum_congr rfl fun i hi => ?_
    rw [hf i (Finset.mem_range.1 hi)]
  · rw [k c i hi]
  · rw [← hf i hi]; exact (hd' i hi).2

theorem run_spec {m n : ℕ} {junk : ℕ → Fin C → ℝ} (B : ℕ → Behaviour C m junk) : ∀ (blocks : List (List (Fin C → ℝ)))
    {s : Compressor C} {d : ℕ → Control C} {past : ℕ → List (Fin C → ℝ)} {L H A : Fin C → ℕ → List Ladder.Filter},
    (∀ c, Holds (s.splitter c) n (L c) (H c) (A c)) → s.drcs = (List.range n).map d →
    (∀ i, i < n → (B i).inv (d i) (past i)) → (∀ x ∈ blocks, x.length ≤ m) →
    ∃ (s' : Compressor C) (outs : List (List (Fin C → ℝ))) (d' : ℕ → Control C) (past' : ℕ → List (Fin C → ℝ))
      (L' H' A' : Fin C → ℕ → List Ladder.Filter), s.run cfg junk blocks = .ok (s', outs) ∧ outs.map List.length = blocks.map List.length ∧
      outs.flatten = mix n blocks.flatten.length (fun i =>
        (B i).out (past i) (filteredC cfg (fun c => path n (L c) (H c) (A c) i) blocks.flatten)) ∧
      (∀ c, Holds (s'.splitter c) n (L' c) (H' c) (A' c)) ∧ s'.drcs = (List.range n).map d' ∧
      (∀ c i, ∃ x1 x2 x3, L' c i = (cascade cfg (L c i) x1).1 ∧ H' c i = (cascade cfg (H c i) x2).1 ∧
        A' c i = (cascade cfg (A c i) x3).1) ∧
      ∀ i, i < n → (B i).inv (d' i) (past' i)
  | [], s, d, past, L, H, A, hh, hd, hi, _ => ⟨s, [], d, past, L, H, A, rfl, rfl, by simp [mix], hh, hd,
      fun c i => ⟨[], [], [], by simp only [MultiCrossover.cascade_nil, and_self]⟩, hi⟩
  | x :: xs, s, d, past, L, H, A, hh, hd, hi, hb => by
    obtain ⟨s1, d1, L1, H1, A1, e1, hh1, hd1, p1, g1, i1⟩ := process_spec (cfg := cfg) B hh hd hi x (hb x (by simp))
    obtain ⟨s2, outs, d2, past2, L2, H2, A2, e2, l2, o2, hh2, hd2, g2, i2⟩ := run_spec B xs hh1 hd1 i1
      fun y hy => hb y (List.mem_cons_of_mem _ hy)
    refine ⟨s2, _ :: outs, d2, past2, L2, H2, A2, by simp only [Compressor.run, e1, e2]; rfl, ?_, ?_, hh2, hd2, ?_, i2⟩
    · simp [l2, mix]
    · rw [List.flatten_cons, List.flatten_cons, o2, List.length_append, ← mix_append]
      · unfold mix
        refine List.map_congr_left fun t _ => Finset.sum_congr rfl fun i hi => ?_
        have hi := Finset.mem_range.1 hi
        dsimp only
        rw [filteredC_append, (B i).append]
        congr 3
        unfold filteredC
        refine List.map_congr_left fun t _ => funext fun c => ?_
        dsimp only
        rw [p1 c i hi]
      · intro i _
        rw [(B i).len, filteredC_length]
    · intro c i
      obtain ⟨x1, x2, x3, a1, a2, a3⟩ := g1 c i
      obtain ⟨y1, y2, y3, c1, c2, c3⟩ := g2 c i
      refine ⟨x1 ++ y1, x2 ++ y2, x3 ++ y3, ?_, ?_, ?_⟩
      · rw [MultiCrossover.cascade_samples, ← a1, c1]
      · rw [MultiCrossover.cascade_samples, ← a2, c2]
      · rw [MultiCrossover.cascade_samples, ← a3, c3]

theorem gainSignal_next {s s' : Control C} {x : List (Fin C → ℝ)} {g : List ℝ} (h : s.gainSignal x = .ok (s', g)) :
    s'.nextParams = s.nextParams := by
  unfold Control.gainSignal at h
  by_cases h1 : s.maxBlock < x.length
  · rw [if_pos h1] at h; simp at h
  rw [if_neg h1] at h
  unfold Control.gainFromDetected at h
  cases he : s.envelope with
  | none => rw [he] at h; simp at h
  | some e =>
    rw [he] at h
    dsimp only at h
    by_cases h2 : s.changeNeeded = true
    · rw [if_pos h2] at h; rw [← (Prod.mk.inj (Except.ok.inj h)).1]
    · rw [if_neg h2] at h; rw [← (Prod.mk.inj (Except.ok.inj h)).1]

theorem process_next {junk : ℕ → Fin C → ℝ} {s s' : Control C} {x y : List (Fin C → ℝ)} (h : s.process junk x = .ok (s', y)) :
    s'.nextParams = s.nextParams := by
  unfold Control.process Control.processWithSidechain at h
  cases hg : s.gainSignal x with
  | error e => rw [hg] at h; simp [bind, Except.bind] at h
  | ok r =>
    obtain ⟨s1, g⟩ := r
    rw [hg] at h
    simp only [bind, Except.bind, Control.applyGain] at h
    rw [← gainSignal_next hg]
    cases hd : FixedDelayLine.processBlock junk s1.delay x with
    | error e => rw [hd] at h; simp at h
    | ok r =>
      rw [hd] at h
      rw [← (Prod.mk.inj (Except.ok.inj h)).1]

/-- A control with its documented behaviour. -/
noncomputable def steady {P : Drc.Params} (hP : P.Valid) (rate : ℝ) (K m : ℕ) (junk : ℕ → Fin C → ℝ) :
    Behaviour C m junk where
  inv d past := (∃ p q, Steady p q P rate K m d past past) ∧ d.nextParams = {}
  out past x := tailOut P rate K past past x x
  step d past x h hx := by
    obtain ⟨⟨p, q, hs⟩, hn⟩ := h
    obtain ⟨d', e, hs'⟩ := hs.process hP junk x x hx
    rw [blockOut_eq _ _ _ _ _ _ _ rfl] at e
    exact ⟨d', e, ⟨p, q, hs'⟩, (process_next e).trans hn⟩
  len past x := by simp [tailOut]
  append past x y := tailOut_append _ _ _ _ _ _ _ _ _ rfl

theorem gain_default {p q rate : ℝ} {L m : ℕ} {s : Control C} {past : List (Fin C → ℝ)} (h : Live p q rate L m s past)
    (hp : s.params = {}) (hc : s.changeNeeded = false) (sc : List (Fin C → ℝ)) (hl : sc.length ≤ m) :
    ∃ e, s.gainSignal sc = .ok ({ s with envelope := some e }, List.replicate sc.length 1) ∧
      Live p q rate L m { s with envelope := some e } past := by
  obtain ⟨⟨e, he, hg, hr⟩, k2, k3, k4, k5⟩ := h
  obtain ⟨g1, g2, -⟩ := envelopeLoop_good (sc.map (detect s.params.rms)) hg
  refine ⟨(envelopeLoop e (sc.map (detect s.params.rms))).1, ?_, ⟨_, rfl, g1, g2.trans hr⟩, k2, k3, k4, k5⟩
  unfold Control.gainSignal Control.gainFromDetected
  rw [if_neg (by omega), he]
  dsimp only
  rw [hc, if_neg (by simp)]
  simp only [Except.ok.injEq, Prod.mk.injEq, true_and]
  have hl : (envelopeLoop e (sc.map (detect s.params.rms))).2.length = sc.length := by simp [envelopeLoop]
  rw [← hl, List.map_map, List.map_map, ← List.map_const', List.map_inj_left]
  intro v _
  have := gainDb_default 0
  simp only [Function.comp]
  rw [level_eq, hp, specificGain_eq default_valid, dbToAmplitude_eq]
  have e0 : Drc.Spec.gainDb {} (Drc.Spec.level true v) = 0 := this _
  rw [e0]
  norm_num [Drc.Spec.amplitude]

/-- A control with default parameters and without look-ahead returns its input. -/
noncomputable def pass (rate : ℝ) (m : ℕ) (junk : ℕ → Fin C → ℝ) : Behaviour C m junk where
  inv d past := (∃ p q, Live p q rate 0 m d past) ∧ d.params = {} ∧ d.changeNeeded = false
  out _ x := x
  step d past x h hx := by
    obtain ⟨⟨p, q, hl⟩, hp, hc⟩ := h
    obtain ⟨e, h1, h2⟩ := gain_default hl hp hc x hx
    obtain ⟨dl, h3, h4, h5⟩ := applyGain_spec (p := 0) (q := 0) (rate := 0) (m := 0) junk h2.delay h2.lookahead x
      (List.replicate x.length 1)
    refine ⟨{ d with
      envelope := some e
      delay := dl }, ?_, ⟨p, q, h2.env, h4, h5, h2.block, h2.rate⟩, hp, hc⟩
    unfold Control.process Control.processWithSidechain
    rw [h1]
    simp only [bind, Except.bind]
    rw [h3]
    refine congrArg (fun y => Except.ok (_, y)) ?_
    unfold blockOut
    refine List.ext_getElem (by simp) fun t t1 t2 => ?_
    simp
  len _ _ := rfl
  append _ _ _ := rfl

theorem mapM_ok' {α β : Type} {f : α → Except Err β} {g : α → β} : ∀ {l : List α}, (∀ x ∈ l, f x = .ok (g x)) →
    l.mapM f = .ok (l.map g)
  | [], _ => rfl
  | x :: xs, h => by
    rw [List.mapM_cons, h x (by simp), mapM_ok' fun y hy => h y (by simp [hy])]
    rfl

theorem map_range_getD {α β : Type} (l : List α) (a : α) (g : α → β) :
    l.map g = (List.range l.length).map fun i => g (l.getD i a) :=
  List.ext_getElem (by simp) fun i h1 h2 => by
    rw [List.getElem_map, List.getElem_map, List.getElem_range, List.getD_eq_getElem _ _ (by simpa using h1)]

theorem round_lookahead {P : Drc.Params} {rate : ℝ} (h : 0 ≤ P.lookahead * rate) :
    0 ≤ roundAway (P.lookahead * rate) ∧ (roundAway (P.lookahead * rate)).toNat = ⌊P.lookahead * rate + 1 / 2⌋₊ := by
  have e : roundAway (P.lookahead * rate) = ⌊P.lookahead * rate + 1 / 2⌋ := by
    unfold roundAway; rw [if_neg (by linarith)]
  rw [e]
  exact ⟨Int.floor_nonneg.2 (by linarith), rfl⟩

/-- The object after the constructor and `Init`. -/
theorem start {p : Params} (hn : p.drc.length = p.numBands) (hv : ∀ q ∈ p.drc, q.Valid ∧ 0 ≤ q.lookahead) (hC : 0 < C)
    {m : ℕ} (hm : 0 < m) {rate : ℝ} (hrate : 1200 ≤ rate) {b0 b : MultiCrossover.Bank}
    (h0 : MultiCrossover.make p.numBands = some b0) (hb : b0.init cfg (1 / 10 ^ 10) p.type p.order rate p.freqs = some b) :
    ∃ (s0 s : Compressor C) (d : ℕ → Control C), Compressor.make C p = .ok s0 ∧ s0.init cfg m rate = .ok s ∧
      s = ⟨p.type, p.order, rate, p.freqs, fun _ => b, (List.range p.numBands).map d⟩ ∧
      s0.splitter = (fun _ => b0) ∧
      ∀ i, i < p.numBands → (∃ x y, Steady x y (p.drc.getD i {}) rate ⌊(p.drc.getD i {}).lookahead * rate + 1 / 2⌋₊ m (d i) [] []) ∧
        (d i).nextParams = {} := by
  have hs : ∀ q : Drc.Params, ∃ d0 d : Control C, (q.Valid ∧ 0 ≤ q.lookahead) → Control.make C q = .ok d0 ∧
      d0.init m rate = .ok d ∧ (∃ x y, Steady x y q rate ⌊q.lookahead * rate + 1 / 2⌋₊ m d [] []) ∧ d.nextParams = {} := by
    intro q
    by_cases hq : q.Valid ∧ 0 ≤ q.lookahead
    · obtain ⟨r1, r2⟩ := round_lookahead (P := q) (rate := rate) (mul_nonneg hq.2 (by linarith))
      obtain ⟨d0, d, x, y, a1, a2, a3, a4⟩ := init_steady (C := C) hq.1 hC hm hrate r1
      rw [r2] at a3
      exact ⟨d0, d, fun _ => ⟨a1, a2, ⟨x, y, a3⟩, a4⟩⟩
    · obtain ⟨d0, d, -⟩ := init_steady (C := C) default_valid hC hm hrate (by unfold roundAway; norm_num)
      exact ⟨d0, d, fun h => absurd h hq⟩
  choose D0 D hD using hs
  refine ⟨⟨p.type, p.order, 0, p.freqs, fun _ => b0, p.drc.map D0⟩, _, fun i => D (p.drc.getD i {}), ?_, ?_, rfl, rfl, fun i hi => ?_⟩
  · unfold Compressor.make
    rw [h0]
    dsimp only
    rw [mapM_ok' fun q hq => (hD q (hv q hq)).1]
  · unfold Compressor.init
    rw [perChannel_some (g := fun _ => b) fun _ => hb]
    dsimp only
    have : (p.drc.map D0).mapM (fun d => d.init m rate) = .ok (p.drc.map D) := by
      rw [List.mapM_map]
      exact mapM_ok' fun q hq => (hD q (hv q hq)).2.1
    rw [this]
    dsimp only
    rw [map_range_getD p.drc {} D, hn]
  · have hmem : p.drc.getD i {} ∈ p.drc := by
      rw [List.getD_eq_getElem _ _ (by omega)]; exact List.getElem_mem _
    exact (hD _ (hv _ hmem)).2.2

end Verif.MultibandCompressor
