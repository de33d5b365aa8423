import Verif.Proof.ParametricEqualizer6

/-! # The response of the equalizer; when the fit succeeds and when it fails -/

namespace Verif.ParametricEqualizer
open Verif.BiquadCascade Verif.FilterDesign Verif.BiquadAnalysis Verif.AuditoryFilterbank Spec

theorem stable_scaled {c : Stage ℝ} (hv : c.Valid) (h : Stable c) (g : ℝ) :
    Stable { c with b := c.b.map (· * g) } := by
  obtain ⟨b, a⟩ := c
  obtain ⟨hb, ha, h0⟩ := hv
  match b, a, hb, ha with
  | [b0, b1, b2], [a0, a1, a2], _, _ =>
    obtain ⟨P, e, hP⟩ := h
    obtain ⟨P1, e1, i1⟩ := Ladder.isStable_biquad (b0 := b0) (b1 := b1) (b2 := b2) (a0 := a0) (a1 := a1) (a2 := a2) h0
    obtain ⟨P2, e2, i2⟩ :=
      Ladder.isStable_biquad (b0 := b0 * g) (b1 := b1 * g) (b2 := b2 * g) (a0 := a0) (a1 := a1) (a2 := a2) h0
    dsimp only at e
    rw [e1, Option.some.injEq] at e
    subst e
    exact ⟨P2, e2, i2.2 (i1.1 hP)⟩

theorem response_scaled {c : Stage ℝ} (hv : c.Valid) (g ω : ℝ) :
    response { c with b := c.b.map (· * g) } ω = g * response c ω := by
  obtain ⟨b, a⟩ := c
  obtain ⟨hb, ha, h0⟩ := hv
  match b, a, hb, ha with
  | [b0, b1, b2], [a0, a1, a2], _, _ =>
    unfold response evalStage
    simp only [List.map_cons, List.map_nil, List.getD_cons_zero, List.getD_cons_succ, map_mul]
    simp only [Complex.ofRealHom_eq_coe]
    ring

theorem identity_valid : identityStage.Valid := ⟨rfl, rfl, by simp [identityStage]⟩

theorem identity_stable : Stable identityStage := by
  obtain ⟨P, e, i⟩ := Ladder.isStable_biquad (b0 := 1) (b1 := 0) (b2 := 0) (a0 := 1) (a1 := 0) (a2 := 0) one_ne_zero
  exact ⟨P, e, i.2 (by norm_num)⟩

theorem identity_response (ω : ℝ) : response identityStage ω = 1 := by
  unfold response evalStage identityStage
  simp

theorem designs_known {rate : ℝ} {bs : List Band} {ds : List (Stage ℝ)} (hb : ∀ s ∈ bs, BandOk rate s)
    (h : Designs rate bs ds) : List.Forall₂ (Known rate) bs ds := by
  unfold Designs at h
  induction h with
  | nil => exact .nil
  | cons h1 _ ih =>
    refine .cons ?_ (ih fun s hs => hb s (by simp [hs]))
    obtain ⟨c, e1, e2⟩ := design_known (hb _ List.mem_cons_self)
    rw [Option.some.inj (h1.1.symm.trans e1)]
    exact e2

theorem exists_designs {rate : ℝ} : ∀ {bs : List Band}, (∀ s ∈ bs, BandOk rate s) →
    (∀ s ∈ bs, ∀ c, design rate s = some c → SecondOrder c) → ∃ ds, Designs rate bs ds
  | [], _, _ => ⟨[], .nil⟩
  | s :: bs, h1, h2 => by
    obtain ⟨c, e, -⟩ := design_known (h1 s (by simp))
    obtain ⟨ds, hds⟩ := exists_designs (rate := rate) (bs := bs) (fun t ht => h1 t (by simp [ht]))
      fun t ht => h2 t (by simp [ht])
    exact ⟨c :: ds, .cons ⟨e, h2 s (by simp) c e⟩ hds⟩

theorem forall₂_right {α β : Type} {R : α → β → Prop} {P : β → Prop} {l : List α} {r : List β} (h : List.Forall₂ R l r)
    (hP : ∀ a b, R a b → P b) : ∀ b ∈ r, P b := by
  induction h with
  | nil => simp
  | cons h1 _ ih =>
    intro b hb
    rcases List.mem_cons.1 hb with rfl | hb
    · exact hP _ _ h1
    · exact ih b hb

theorem adjust_stable {g : ℝ} {cs : List (Stage ℝ)} (h : ∀ c ∈ cs, c.Valid ∧ Stable c) :
    ∀ c ∈ adjustGain g cs, Stable c := by
  cases cs with
  | nil => simp [adjustGain]
  | cons d cs =>
    intro c hc
    unfold adjustGain at hc
    rcases List.mem_cons.1 hc with rfl | hc
    · exact stable_scaled (h d (by simp)).1 (h d (by simp)).2 g
    · exact (h c (by simp [hc])).2

theorem adjust_response {g : ℝ} {cs : List (Stage ℝ)} (hne : cs ≠ []) (h : ∀ c ∈ cs, c.Valid) (ω : ℝ) :
    ((adjustGain g cs).map fun c => response c ω).prod = g * (cs.map fun c => response c ω).prod := by
  cases cs with
  | nil => simp at hne
  | cons d cs =>
    unfold adjustGain
    rw [List.map_cons, List.prod_cons, List.map_cons, List.prod_cons, response_scaled (h d (by simp))]
    ring

theorem shown_response (ds : List (Stage ℝ)) (ω : ℝ) :
    ((shown ds).map fun c => response c ω).prod = (ds.map fun c => response c ω).prod := by
  unfold shown
  split_ifs with h
  · rw [h]
    simp [identity_response]
  · rfl

theorem shown_ne (ds : List (Stage ℝ)) : shown ds ≠ [] := by
  unfold shown
  split_ifs with h
  · simp
  · exact h

theorem combinedGain_eq (cs : List (Stage ℝ)) (rate f : ℝ) :
    combinedGain cs rate f = ‖(cs.map fun c => response c (radians f rate)).prod‖ := by
  unfold combinedGain
  have : ∀ (l : List (Stage ℝ)) (x : ℝ), l.foldl (fun g c => g * ‖response c (2 * Real.pi * f / rate)‖) x =
      x * ‖(l.map fun c => response c (radians f rate)).prod‖ := by
    intro l
    induction l with
    | nil => intro x; simp
    | cons c l ih =>
      intro x
      rw [List.foldl_cons, ih, List.map_cons, List.prod_cons, norm_mul, mul_assoc]
      rfl
  rw [this, one_mul]

/-- Everything about the response at once. -/
theorem response_full {p : Params} {rate : ℝ} {ds : List (Stage ℝ)} (hr : 0 < rate) (hp : p.stages ≠ [])
    (hl : p.stages.length = p.enabled.length) (hb : ∀ s ∈ enabledBands p, BandOk rate s)
    (hd : Designs rate (enabledBands p) ds) :
    ∃ cs, getCoefficients p rate = .ok cs ∧ cs.length = max 1 (enabledBands p).length ∧ (∀ c ∈ cs, Stable c) ∧
      (∀ ω, (cs.map fun c => response c ω).prod = factor p.gain * (ds.map fun c => response c ω).prod) ∧
      ∀ fs, gainMagnitudes p rate fs = .ok (fs.map fun f =>
        factor p.gain * ‖(ds.map fun c => response c (radians f rate)).prod‖) := by
  have hk := designs_known hb hd
  have e := coefficients_eq hr hp hl hd
  have hv : ∀ c ∈ shown ds, c.Valid ∧ Stable c := by
    intro c hc
    unfold shown at hc
    split_ifs at hc with h
    · rw [List.mem_singleton.1 hc]
      exact ⟨identity_valid, identity_stable⟩
    · exact forall₂_right (P := fun c => c.Valid ∧ Stable c) hk (fun s c k => ⟨k.valid, k.realizes.1⟩) c hc
  have hres : ∀ ω, ((adjustGain (factor p.gain) (shown ds)).map fun c => response c ω).prod =
      factor p.gain * (ds.map fun c => response c ω).prod := by
    intro ω
    rw [adjust_response (shown_ne ds) fun c hc => (hv c hc).1, shown_response]
  refine ⟨_, e, ?_, adjust_stable hv, hres, ?_⟩
  · have hlen : (enabledBands p).length = ds.length := List.Forall₂.length_eq hd
    rw [hlen]
    unfold shown
    split_ifs with h
    · rw [h]; rfl
    · match ds, h with
      | d :: ds, _ => simp [adjustGain]
  · intro fs
    unfold gainMagnitudes
    rw [e]
    dsimp only
    congr 1
    apply List.map_congr_left
    intro f _
    rw [combinedGain_eq, hres, norm_mul, Complex.norm_real, Real.norm_of_nonneg (factor_pos _).le]

/-- A band that the design rejects stops the computation. -/
theorem loop_reject {rate : ℝ} : ∀ (ss : List Band) (os : List Bool) (cs : List (Stage ℝ)),
    (∃ s ∈ (ss.zip os).filterMap (fun x => if x.2 = true then some x.1 else none), ¬ BandOk rate s) →
    ∃ e, coefficientLoop rate ss os cs = .error e
  | [], os, cs, ⟨s, h, _⟩ => by simp at h
  | t :: ss, [], cs, ⟨s, h, _⟩ => by simp at h
  | t :: ss, on :: os, cs, ⟨s, h, hs⟩ => by
    rw [coefficientLoop]
    cases h1 : stageFor rate t on with
    | error e => exact ⟨e, rfl⟩
    | ok c =>
      dsimp only
      cases h2 : appendBiquad threshold cs c with
      | none => exact ⟨_, rfl⟩
      | some cs' =>
        dsimp only
        apply loop_reject ss os cs'
        rw [List.zip_cons_cons, List.filterMap_cons] at h
        cases on with
        | false => exact ⟨s, by simpa using h, hs⟩
        | true =>
          simp only [if_true] at h
          rcases List.mem_cons.1 h with rfl | h
          · unfold stageFor at h1
            rw [if_pos rfl, design_reject hs] at h1
            simp at h1
          · exact ⟨s, h, hs⟩

theorem coefficients_reject {p : Params} {rate : ℝ} (h : ∃ s ∈ enabledBands p, ¬ BandOk rate s) :
    ∃ e, getCoefficients p rate = .error e := by
  unfold getCoefficients
  obtain ⟨e, he⟩ := loop_reject (rate := rate) p.stages p.enabled [] h
  split_ifs with hr
  · rw [he]
    exact ⟨e, rfl⟩
  · exact ⟨_, rfl⟩

theorem matchGains_reject {p : Params} {fs target : List ℝ} {it : ℕ} {thr rate : ℝ} (hit : 0 < it)
    (hl : p.stages.length = p.enabled.length) (h : ∃ s ∈ p.stages, ¬ BandOk rate s) :
    ∃ e, matchGains fs target it thr rate p = .error e := by
  by_cases hn : p.numEnabled = p.total
  · by_cases hlen : fs.length = target.length
    · rw [matchGains_eq hlen hn]
      obtain ⟨left, rfl⟩ : ∃ left, it = left + 1 := ⟨it - 1, by omega⟩
      rw [matchLoop]
      have hw := withGains_length (g := fun _ : Fin (p.numEnabled + 1) => (6 : ℝ)) hn
      obtain ⟨e, he⟩ := coefficients_reject (rate := rate)
        (p := (withGains p fun _ : Fin (p.numEnabled + 1) => (6 : ℝ)).setGain 0) (by
          show ∃ s ∈ enabledBands (withGains p fun _ : Fin (p.numEnabled + 1) => (6 : ℝ)), _
          rw [enabledBands_all (p := withGains p fun _ : Fin (p.numEnabled + 1) => (6 : ℝ))
            (by rw [hw, hn]; exact hl) (all_enabled (p := p) hl hn)]
          obtain ⟨s, hs, hb⟩ := h
          obtain ⟨i, hi, rfl⟩ := List.mem_iff_getElem.1 hs
          refine ⟨{ p.stages[i] with gain := 6 }, ?_, hb⟩
          apply List.mem_of_getElem? (i := i)
          have := withGains_get (p := p) (g := fun _ : Fin (p.numEnabled + 1) => (6 : ℝ)) ⟨i, by rw [hn]; exact hi⟩
          rw [List.getElem?_eq_getElem (l := p.stages) hi] at this
          exact this)
      rw [he]
      exact ⟨e, rfl⟩
    · unfold matchGains
      rw [if_neg hlen]
      exact ⟨_, rfl⟩
  · exact ⟨_, matchGains_check hn⟩

/-! ### The search -/

theorem searcher_some {p : Params} {f : FitParams} (fs target : List ℝ) (rate : ℝ) (hf0 : 0 < f.minFrequency)
    (hf : f.minFrequency < f.maxFrequency) (hq : f.minQuality ≤ f.maxQuality)
    (x : Fin (2 * p.total + 1) → NelderMead.Point (2 * p.total) ℝ) (v : Fin (2 * p.total + 1) → WithTop ℝ)
    (a : Fin (2 * p.total + 1)) : ∃ s, searcher fs target rate f p x v a = some s := by
  unfold searcher
  unfold NelderMead.State.setGuess
  rw [if_pos (by rfl)]
  simp only [Option.bind_eq_bind, Option.bind_some]
  unfold NelderMead.State.setLower
  rw [if_pos]
  swap
  · exact trivial
  simp only [Option.bind_some]
  unfold NelderMead.State.setUpper
  rw [if_pos]
  · exact ⟨_, rfl⟩
  · intro i b hb
    have hb' := WithBot.coe_inj.1 hb
    rw [← hb']
    apply WithTop.coe_le_coe.2
    unfold boundOf
    split_ifs
    · exact (Real.log_le_log_iff hf0 (by linarith)).2 hf.le
    · exact hq

/-- The vertices of the first simplex, moved into the bounds. -/
noncomputable def vertex (p : Params) (f : FitParams) (j : ℕ) : NelderMead.Point (2 * p.total) ℝ := fun i =>
  min (max (if j = i.val + 1 then shapeOf p i + 1 / 10 else shapeOf p i) (boundOf p f.minFrequency f.minQuality i))
    (boundOf p f.maxFrequency f.maxQuality i)

theorem fit_run {p : Params} {e : NelderMead.Env (2 * p.total) ℝ} (he : e.Ok) {fs target : List ℝ} {rate : ℝ}
    {f : FitParams} (hp : 0 < p.total) (hs : ∀ s ∈ p.stages, 0 < s.frequency) (hf0 : 0 < f.minFrequency)
    (hf : f.minFrequency < f.maxFrequency) (hq : f.minQuality ≤ f.maxQuality)
    (x : Fin (2 * p.total + 1) → NelderMead.Point (2 * p.total) ℝ) (v : Fin (2 * p.total + 1) → WithTop ℝ)
    (a : Fin (2 * p.total + 1)) :
    ∃ t y, (∀ z ∈ t, ∀ i, boundOf p f.minFrequency f.minQuality i ≤ z i ∧ z i ≤ boundOf p f.maxFrequency f.maxQuality i) ∧
      y ∈ t ∧ (∀ j ≤ 2 * p.total, vertex p f j ∈ t) ∧ (t.length : ℤ) ≤ max (2 * (p.total : ℤ) + 1) (f.maxIterations + 2 * p.total + 1) ∧
      fit p e fs target rate f x v a =
        match firstFailure fs target rate f p t with
        | some e => .error e
        | none => objective fs target rate f p y := by
  obtain ⟨s, hse⟩ := searcher_some (p := p) (f := f) fs target rate hf0 hf hq x v a
  have hd : 0 < 2 * p.total := by omega
  obtain ⟨q1, q2, q3, q4, q5⟩ := searcher_eq hse e
  obtain ⟨t', y', w, m1, m2, m3, m4, m5, m6, m7, m8, m9, m10, m11, m12, m13, m14, -⟩ :=
    NelderMead.C18_minimize e he hd s q1 _ q2 f.maxIterations f.stddevTol (some f.rmsTol)
  obtain ⟨t'', n1, -, -, -, -, -, n2, -⟩ := NelderMead.minimize_spec he hd f.maxIterations f.stddevTol
    (some f.rmsTol) s (NelderMead.reach_bounds he hd q1) q2
  have hm := m1 _ (Nat.lt_succ_self _)
  have ht2 : t'' = t' := Option.some.inj ((n1 _ (Nat.lt_succ_self _)).symm.trans hm)
  subst ht2
  refine ⟨t''.trace, y', ?_, m9, ?_, ?_, ?_⟩
  · intro z hz i
    have := m12 z hz
    exact ⟨WithBot.coe_le_coe.1 (this.1 _ q3 i), WithTop.coe_le_coe.1 (this.2 _ q4 i)⟩
  · intro j hj
    have := n2 ⟨j, by omega⟩
    have e : s.clamp (s.simplex ⟨j, by omega⟩) = vertex p f j := by
      unfold NelderMead.State.clamp
      rw [q3, q4]
      funext i
      show min (max (s.simplex ⟨j, by omega⟩ i) _) _ = _
      rw [q5]
      rfl
    rwa [e] at this
  · rw [m13]
    push_cast at m14
    exact m14
  · unfold fit
    rw [if_neg (by omega), if_neg (by
      rintro ⟨t, ht, h⟩
      exact absurd (hs t ht) (not_lt.2 h)), if_pos ⟨hf0, by linarith, hf⟩, hse]
    dsimp only
    rw [hm]
    dsimp only
    rw [m5]
    cases firstFailure fs target rate f p t''.trace <;> rfl

end Verif.ParametricEqualizer
