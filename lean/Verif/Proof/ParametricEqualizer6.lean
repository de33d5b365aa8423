import Verif.Proof.ParametricEqualizer5
import Verif.Theorems.NelderMead

/-! # Bookkeeping and the fit of all parameters -/

namespace Verif.ParametricEqualizer
open Verif.BiquadCascade Verif.FilterDesign Verif.BiquadAnalysis Verif.AuditoryFilterbank Spec

/-! ### Bookkeeping -/

theorem clearLoop_length : ∀ (ss : List Band) (os : List Bool), (clearLoop ss os).1.length = ss.length ∧
    (clearLoop ss os).2.length = os.length
  | [], os => by cases os <;> exact ⟨rfl, rfl⟩
  | s :: ss, [] => ⟨rfl, rfl⟩
  | s :: ss, on :: os => by
    rw [clearLoop]
    dsimp only
    have := clearLoop_length ss os
    simp [this.1, this.2]

theorem clearLoop_get : ∀ (ss : List Band) (os : List Bool), ss.length = os.length → ∀ (i : ℕ) (s : Band) (on : Bool), ss[i]? = some s →
    os[i]? = some on → (clearLoop ss os).1[i]? = some { s with gain := 0 } ∧
      (clearLoop ss os).2[i]? = some (if s.kind = .lowpass ∨ s.kind = .highpass then false else on)
  | [], _, _, i, s, on, h, _ => by simp at h
  | t :: ss, [], h, _, _, _, _, _ => by simp at h
  | t :: ss, o :: os, h, i, s, on, hs, ho => by
    rw [clearLoop]
    dsimp only
    match i with
    | 0 =>
      simp only [List.getElem?_cons_zero, Option.some.injEq] at hs ho
      subst hs ho
      exact ⟨rfl, rfl⟩
    | i + 1 =>
      rw [List.getElem?_cons_succ] at hs ho
      rw [List.getElem?_cons_succ, List.getElem?_cons_succ]
      exact clearLoop_get ss os (by simpa using h) i s on hs ho

theorem setGains_same {n : ℕ} {g : Fin n → ℝ} {p p' : Params} (h : setGainsFromArray g p = .ok p') :
    SameButGains p p' := by
  unfold setGainsFromArray at h
  split_ifs at h with hn
  rw [← Except.ok.inj h]
  refine ⟨?_, rfl⟩
  dsimp only
  have hl : p.stages.length ≤ (List.ofFn g).length := by rw [List.length_ofFn, hn]; unfold Params.total; omega
  clear h
  revert hl
  generalize List.ofFn g = l
  generalize p.stages = ss
  intro hl
  induction ss generalizing l with
  | nil => simp
  | cons s ss ih =>
    match l with
    | [] => simp at hl
    | x :: l =>
      rw [List.zipWith_cons_cons, List.map_cons, List.map_cons, ← ih l (by simpa using hl)]

theorem sbg_trans {p q r : Params} (h1 : SameButGains p q) (h2 : SameButGains q r) : SameButGains p r :=
  ⟨h1.1.trans h2.1, h1.2.trans h2.2⟩

theorem sbg_length {p q : Params} (h : SameButGains p q) : p.stages.length = q.stages.length := by
  have := congrArg List.length h.1
  simpa using this

theorem matchLoop_same {n : ℕ} {fs target : List ℝ} {rate thr : ℝ} : ∀ (left : ℕ) (g : Fin (n + 1) → ℝ) (p p' : Params),
    matchLoop fs target rate thr left g p = .ok p' → SameButGains p p'
  | 0, g, p, p', h => by
    rw [matchLoop] at h
    rw [Except.ok.inj h]
    exact ⟨rfl, rfl⟩
  | left + 1, g, p, p', h => by
    rw [matchLoop] at h
    cases h1 : getCoefficients (p.setGain 0) rate with
    | error e => rw [h1] at h; simp at h
    | ok cs =>
      rw [h1] at h
      dsimp only at h
      cases h2 : columns cs rate fs n with
      | error e => rw [h2] at h; simp at h
      | ok cols =>
        rw [h2] at h
        dsimp only at h
        split at h
        · simp at h
        · next q hq =>
          have s1 : SameButGains p q := sbg_trans (q := p.setGain 0) ⟨rfl, rfl⟩ (setGains_same hq)
          split_ifs at h with hc
          · rw [← Except.ok.inj h]; exact s1
          · exact sbg_trans s1 (matchLoop_same left _ q p' h)

theorem matchGains_same {fs target : List ℝ} {it : ℕ} {thr rate : ℝ} {p p' : Params}
    (h : matchGains fs target it thr rate p = .ok p') : SameButGains p p' := by
  unfold matchGains at h
  split_ifs at h with hl
  split at h
  · simp at h
  · next q hq => exact sbg_trans (setGains_same hq) (matchLoop_same _ _ _ _ h)

theorem reach_lengths {p : Params} (h : Reach p) : p.stages.length = p.enabled.length := by
  induction h with
  | new => rfl
  | addStage s _ ih => unfold Params.addStage; simp [ih]
  | setEnabled i on _ h ih =>
    unfold Params.setEnabled at h
    split_ifs at h
    rw [← Except.ok.inj h]
    simp [ih]
  | setStage i s _ h ih =>
    unfold Params.setStage at h
    split_ifs at h
    rw [← Except.ok.inj h]
    simp [ih]
  | setGain g _ ih => exact ih
  | clear _ ih =>
    unfold Params.clearAllGains
    dsimp only
    rw [(clearLoop_length _ _).1, (clearLoop_length _ _).2, ih]
  | matchGains fs t n th r _ h ih =>
    have := matchGains_same h
    rw [← sbg_length this, ← this.2, ih]

/-! ### The fit of the gains does not depend on the gains -/

theorem withGains_congr {n : ℕ} {p q : Params} (h : SameButGains p q) (g : Fin (n + 1) → ℝ) :
    withGains p g = withGains q g := by
  have : List.zipWith (fun s x => ({ s with gain := x } : Band)) p.stages (List.ofFn g) =
      List.zipWith (fun s x => ({ s with gain := x } : Band)) q.stages (List.ofFn g) := by
    have e : ∀ l : List Band, List.zipWith (fun s x => ({ s with gain := x } : Band)) l (List.ofFn g) =
        List.zipWith (fun (t : Kind × ℝ × ℝ) x => (⟨t.1, t.2.1, t.2.2, x⟩ : Band))
          (l.map fun s => (s.kind, s.frequency, s.quality)) (List.ofFn g) := by
      intro l
      rw [List.zipWith_map_left]
    rw [e, e, h.1]
  unfold withGains
  rw [this, h.2]

theorem matchGains_eq {fs target : List ℝ} {it : ℕ} {thr rate : ℝ} {p : Params} (hl : fs.length = target.length)
    (hn : p.numEnabled = p.total) : matchGains fs target it thr rate p =
      matchLoop (n := p.numEnabled) fs target rate thr it (fun _ => 6) (withGains p fun _ : Fin (p.numEnabled + 1) => 6) := by
  unfold matchGains
  rw [if_pos hl, setGains_ok hn]

theorem matchGains_check {fs target : List ℝ} {it : ℕ} {thr rate : ℝ} {p : Params}
    (hn : p.numEnabled ≠ p.total) : matchGains fs target it thr rate p = .error .check := by
  unfold matchGains
  split_ifs with hl
  · rw [setGains_check (by omega)]
  · rfl

theorem matchGains_congr {fs target : List ℝ} {it : ℕ} {thr rate : ℝ} {p q : Params} (h : SameButGains p q) :
    matchGains fs target it thr rate p = matchGains fs target it thr rate q := by
  have h1 : p.numEnabled = q.numEnabled := by unfold Params.numEnabled; rw [h.2]
  have h2 : p.total = q.total := sbg_length h
  by_cases hn : p.numEnabled = p.total
  · by_cases hl : fs.length = target.length
    · rw [matchGains_eq hl hn, matchGains_eq hl (by rw [← h1, ← h2, hn]), withGains_congr h, h1]
    · unfold matchGains
      rw [if_neg hl, if_neg hl]
  · rw [matchGains_check hn, matchGains_check (by rw [← h1, ← h2]; exact hn)]

/-! ### The objective -/

theorem setShape_same {p q : Params} (h : SameBands p q) (x : ℕ → ℝ) :
    SameButGains (setShape p fun i => x i.val) (setShape q fun i => x i.val) := by
  have hl : p.stages.length = q.stages.length := by
    have := congrArg List.length h.1
    simpa using this
  refine ⟨?_, h.2⟩
  unfold setShape
  dsimp only
  apply List.ext_getElem
  · rw [List.length_map, List.length_map, List.length_ofFn, List.length_ofFn]
    exact hl
  · intro i h1 h2
    have hp : i < p.stages.length := by
      rw [List.length_map, List.length_ofFn] at h1
      exact h1
    have hq : i < q.stages.length := hl ▸ hp
    have hk : p.stages[i].kind = q.stages[i].kind := by
      have := congrArg (fun l : List Kind => l[i]?) h.1
      simpa [hp, hq] using this
    rw [List.getElem_map, List.getElem_map, List.getElem_ofFn, List.getElem_ofFn]
    have e : p.total = q.total := hl
    show (p.stages[i].kind, Real.exp (x i), x (p.total + i)) = (q.stages[i].kind, Real.exp (x i), x (q.total + i))
    rw [hk, e]

theorem objective_congr {fs target : List ℝ} {rate : ℝ} {f : FitParams} {p q : Params} (h : SameBands p q)
    (x : ℕ → ℝ) : objective fs target rate f p (fun i => x i.val) = objective fs target rate f q (fun i => x i.val) := by
  unfold objective
  rw [matchGains_congr (setShape_same h x)]

theorem setShape_bands (p : Params) (x : NelderMead.Point (2 * p.total) ℝ) : SameBands p (setShape p x) := by
  refine ⟨?_, rfl⟩
  unfold setShape
  dsimp only
  apply List.ext_getElem
  · rw [List.length_map, List.length_map, List.length_ofFn]
    rfl
  · intro i h1 h2
    rw [List.getElem_map, List.getElem_map, List.getElem_ofFn]
    rfl

theorem sbg_bands {p q : Params} (h : SameButGains p q) : SameBands p q := by
  refine ⟨?_, h.2⟩
  have := congrArg (List.map Prod.fst) h.1
  rw [List.map_map, List.map_map] at this
  exact this

theorem objective_ok {fs target : List ℝ} {rate r : ℝ} {f : FitParams} {p p' : Params}
    {x : NelderMead.Point (2 * p.total) ℝ} (h : objective fs target rate f p x = .ok (r, p')) :
    matchGains fs target f.innerIterations f.innerThreshold rate (setShape p x) = .ok p' ∧
      rmsError fs target rate p' = .ok r := by
  unfold objective at h
  split at h
  · simp at h
  · next q hq =>
    split at h
    · simp at h
    · next r' hr =>
      have := Except.ok.inj h
      rw [Prod.mk.injEq] at this
      rw [← this.1, ← this.2]
      exact ⟨hq, hr⟩

theorem matchGains_lengths {fs target : List ℝ} {it : ℕ} {thr rate : ℝ} {p p' : Params}
    (h : matchGains fs target it thr rate p = .ok p') : fs.length = target.length := by
  unfold matchGains at h
  split_ifs at h with hl
  exact hl

theorem sum_zipWith_range (F : ℝ → ℝ → ℝ) : ∀ (xs ys : List ℝ), xs.length = ys.length →
    (List.zipWith F xs ys).sum = ∑ i ∈ Finset.range xs.length, F (xs.getD i 0) (ys.getD i 0)
  | [], [], _ => by simp
  | [], _ :: _, h => by simp at h
  | _ :: _, [], h => by simp at h
  | x :: xs, y :: ys, h => by
    rw [List.zipWith_cons_cons, List.sum_cons, List.length_cons, Finset.sum_range_succ', sum_zipWith_range F xs ys (by simpa using h)]
    simp only [List.getD_cons_succ, List.getD_cons_zero]
    rw [add_comm]

theorem gainMagnitudes_length {p : Params} {rate : ℝ} {fs gs : List ℝ} (h : gainMagnitudes p rate fs = .ok gs) :
    gs.length = fs.length := by
  unfold gainMagnitudes at h
  split at h
  · simp at h
  · rw [← Except.ok.inj h, List.length_map]

theorem rmsError_ok {fs target : List ℝ} {rate r : ℝ} {p : Params} (hl : fs.length = target.length)
    (h : rmsError fs target rate p = .ok r) :
    ∃ gs, gainMagnitudes p rate fs = .ok gs ∧ (∀ g ∈ gs, g ≠ 0) ∧ fs ≠ [] ∧ r = rms (gs.map decibels) target := by
  unfold rmsError at h
  split at h
  · simp at h
  · next gs hg =>
    refine ⟨gs, hg, ?_⟩
    have hgl := gainMagnitudes_length hg
    split at h
    · simp at h
    · next db hdb =>
      split_ifs at h with h0
      unfold allDb at hdb
      split_ifs at hdb with h1
      refine ⟨fun g hg h0 => h1 ⟨g, hg, h0⟩, fun h => h0 (by rw [h]; rfl), ?_⟩
      rw [← Except.ok.inj h, ← Except.ok.inj hdb]
      unfold rms
      rw [sum_zipWith_range _ _ _ (by rw [List.length_map, hgl, hl])]
      rw [List.length_map, List.length_map, hgl]
      rfl

/-! ### The search -/

theorem firstFailure_none {fs target : List ℝ} {rate : ℝ} {f : FitParams} {p : Params} :
    ∀ {tr : List (NelderMead.Point (2 * p.total) ℝ)}, firstFailure fs target rate f p tr = none →
      ∀ x ∈ tr, ∃ r, objective fs target rate f p x = .ok r
  | [], _, x, hx => by simp at hx
  | y :: tr, h, x, hx => by
    rw [firstFailure] at h
    split at h
    · simp at h
    · next h1 =>
      split at h
      · simp at h
      · next r hr =>
        rcases List.mem_cons.1 hx with rfl | hx
        · exact ⟨r, hr⟩
        · exact firstFailure_none h1 x hx

theorem firstFailure_some {fs target : List ℝ} {rate : ℝ} {f : FitParams} {p : Params} :
    ∀ {tr : List (NelderMead.Point (2 * p.total) ℝ)} {x}, x ∈ tr → (∃ e, objective fs target rate f p x = .error e) →
      ∃ e, firstFailure fs target rate f p tr = some e := by
  intro tr x hx ⟨e, he⟩
  cases h : firstFailure fs target rate f p tr with
  | some e => exact ⟨e, rfl⟩
  | none =>
    obtain ⟨r, hr⟩ := firstFailure_none h x hx
    rw [hr] at he
    simp at he

theorem setShape_shapeOf {p : Params} (h : ∀ s ∈ p.stages, 0 < s.frequency) : setShape p (shapeOf p) = p := by
  have : (List.ofFn fun i : Fin p.total => ({ p.stages[i.val]'i.2 with
        frequency := Real.exp (shapeOf p ⟨i.val, by omega⟩)
        quality := shapeOf p ⟨p.total + i.val, by omega⟩ } : Band)) = p.stages := by
    apply List.ext_getElem
    · rw [List.length_ofFn]; rfl
    · intro i h1 h2
      rw [List.getElem_ofFn]
      unfold shapeOf
      rw [dif_pos (show i < p.total from h2), dif_neg (by dsimp only; omega)]
      have e : p.total + i - p.total = i := by omega
      have e2 : ∀ j (hj : j < p.stages.length), j = i → p.stages[j] = p.stages[i] := by
        intro j hj h
        subst h
        rfl
      show ({ p.stages[i] with
        frequency := Real.exp (Real.log p.stages[i].frequency)
        quality := (p.stages[p.total + i - p.total]'(by rw [e]; exact h2)).quality } : Band) = p.stages[i]
      rw [Real.exp_log (h _ (List.getElem_mem h2)), e2 _ _ e]
  unfold setShape
  rw [this]

theorem searcher_eq {p : Params} {f : FitParams} {fs target : List ℝ} {rate : ℝ}
    {x : Fin (2 * p.total + 1) → NelderMead.Point (2 * p.total) ℝ} {v : Fin (2 * p.total + 1) → WithTop ℝ}
    {a : Fin (2 * p.total + 1)} {s : NelderMead.State (2 * p.total) ℝ} (h : searcher fs target rate f p x v a = some s)
    (e : NelderMead.Env (2 * p.total) ℝ) :
    NelderMead.Reach e s ∧ s.objective = some (objectiveValue fs target rate f p) ∧
      s.lower = some (fun i => ((boundOf p f.minFrequency f.minQuality i : ℝ) : WithBot ℝ)) ∧
      s.upper = some (fun i => ((boundOf p f.maxFrequency f.maxQuality i : ℝ) : WithTop ℝ)) ∧
      (∀ j i, s.simplex j i = if j.val = i.val + 1 then shapeOf p i + 1 / 10 else shapeOf p i) := by
  unfold searcher at h
  simp only [Option.bind_eq_bind, Option.bind_eq_some_iff, Option.pure_def, Option.some.injEq] at h
  obtain ⟨s1, h1, s2, h2, s3, h3, rfl⟩ := h
  have r1 := NelderMead.Reach.setGuess (e := e) _ _ (NelderMead.Reach.init x v a) h1
  have r2 := NelderMead.Reach.setLower _ r1 h2
  have r3 := NelderMead.Reach.setUpper _ r2 h3
  refine ⟨NelderMead.Reach.setObjective _ r3, rfl, ?_⟩
  unfold NelderMead.State.setGuess at h1
  split_ifs at h1
  rw [← Option.some.inj h1] at h2
  unfold NelderMead.State.setLower at h2
  split_ifs at h2
  rw [← Option.some.inj h2] at h3
  unfold NelderMead.State.setUpper at h3
  split_ifs at h3
  rw [← Option.some.inj h3]
  exact ⟨rfl, rfl, fun j i => rfl⟩

/-- All that a successful fit says about the search. -/
theorem fit_ok {p p' : Params} {e : NelderMead.Env (2 * p.total) ℝ} (he : e.Ok) {fs target : List ℝ} {rate r : ℝ}
    {f : FitParams} {x : Fin (2 * p.total + 1) → NelderMead.Point (2 * p.total) ℝ}
    {v : Fin (2 * p.total + 1) → WithTop ℝ} {a : Fin (2 * p.total + 1)}
    (h : fit p e fs target rate f x v a = .ok (r, p')) :
    0 < p.total ∧ (∀ s ∈ p.stages, 0 < s.frequency) ∧ 0 < f.minFrequency ∧ 0 < f.maxFrequency ∧
    ∃ y, objective fs target rate f p y = .ok (r, p') ∧
      (∀ i, boundOf p f.minFrequency f.minQuality i ≤ y i ∧ y i ≤ boundOf p f.maxFrequency f.maxQuality i) ∧
      ((∀ i, boundOf p f.minFrequency f.minQuality i ≤ shapeOf p i ∧
          shapeOf p i ≤ boundOf p f.maxFrequency f.maxQuality i) →
        ∃ r0 p0, objective fs target rate f p (shapeOf p) = .ok (r0, p0) ∧ r ≤ r0) := by
  unfold fit at h
  split_ifs at h with h1 h2 h3
  have hd : 0 < 2 * p.total := by omega
  split at h
  · simp at h
  · next s hs =>
    split at h
    · simp at h
    · next t ht =>
      split at h
      · simp at h
      · next hff =>
        split at h
        · simp at h
        · next y hy =>
          obtain ⟨q1, q2, q3, q4, q5⟩ := searcher_eq hs e
          obtain ⟨t', y', w, m1, m2, m3, m4, m5, m6, m7, m8, m9, m10, m11, -⟩ :=
            NelderMead.C18_minimize e he hd s q1 _ q2 f.maxIterations f.stddevTol (some f.rmsTol)
          obtain ⟨t'', n1, -, -, -, -, -, n2, -⟩ := NelderMead.minimize_spec he hd f.maxIterations f.stddevTol
            (some f.rmsTol) s (NelderMead.reach_bounds he hd q1) q2
          have ht1 : t' = t := Option.some.inj ((m1 _ (Nat.lt_succ_self _)).symm.trans ht)
          have ht2 : t'' = t := Option.some.inj ((n1 _ (Nat.lt_succ_self _)).symm.trans ht)
          subst ht1
          subst ht2
          have hyy : y' = y := Option.some.inj (m5.symm.trans hy)
          subst hyy
          refine ⟨by omega, ?_, h3.1, h3.2.1, y', h, ?_, ?_⟩
          · intro s hs
            by_contra hc
            exact h2 ⟨s, hs, not_lt.1 hc⟩
          · intro i
            exact ⟨WithBot.coe_le_coe.1 (m8.1 _ q3 i), WithTop.coe_le_coe.1 (m8.2 _ q4 i)⟩
          · intro hbox
            have h0 : s.simplex 0 = shapeOf p := by
              funext i
              rw [q5, if_neg (by simp)]
            have hin : NelderMead.InBox s.lower s.upper (s.simplex 0) := by
              rw [h0]
              refine ⟨?_, ?_⟩
              · intro b hb i
                rw [q3, Option.some.injEq] at hb
                rw [← hb]
                exact WithBot.coe_le_coe.2 (hbox i).1
              · intro b hb i
                rw [q4, Option.some.injEq] at hb
                rw [← hb]
                exact WithTop.coe_le_coe.2 (hbox i).2
            have hmem := n2 0
            rw [NelderMead.clamp_eq s _ hin, h0] at hmem
            obtain ⟨⟨r0, p0⟩, hr0⟩ := firstFailure_none hff _ hmem
            refine ⟨r0, p0, hr0, ?_⟩
            have hle := m11 0 hin
            rw [m7, h0] at hle
            unfold objectiveValue at hle
            rw [h, hr0] at hle
            exact WithTop.coe_le_coe.1 hle

end Verif.ParametricEqualizer
