import Verif.Proof.ParametricEqualizer7

/-!
# C80, C81, C82: the parametric equalizer

C80: coefficients and response. C81: fit of the gains. C82: fit of all parameters.
-/

namespace Verif.ParametricEqualizer
open Verif.BiquadCascade Verif.FilterDesign Spec

theorem Known.levels {rate : ℝ} {s : Band} {c : Stage ℝ} (h : Known rate s c) : HasLevels rate s c := by
  obtain ⟨k, f, Q, g⟩ := s
  refine ⟨?_, ?_, ?_⟩
  · rw [h.dc]; cases k <;> simp [dcGain]
  · rw [h.nyquist]; cases k <;> simp [nyquistGain]
  · intro hf
    rw [h.at_frequency hf]; cases k <;> rfl

/-! ## C80 -/

/-- **C80 (bookkeeping).** After any history of calls every stage has one bypass flag; `AddStage` appends an enabled
stage; the number of enabled stages is the number of flags that are set. -/
theorem C80_bookkeeping {p : Params} (h : Reach p) : p.stages.length = p.enabled.length ∧
    p.numEnabled = p.enabled.count true ∧ p.numEnabled = (enabledBands p).length ∧
    (∀ s, (p.addStage s).total = p.total + 1 ∧ enabledBands (p.addStage s) = enabledBands p ++ [s]) := by
  have hl := reach_lengths h
  have hcount : ∀ (ss : List Band) (os : List Bool), ss.length = os.length →
      ((ss.zip os).filterMap fun x => if x.2 = true then some x.1 else none).length = os.count true := by
    intro ss
    induction ss with
    | nil => intro os h; match os with
      | [] => rfl
      | _ :: _ => simp at h
    | cons s ss ih =>
      intro os h
      match os with
      | [] => simp at h
      | o :: os =>
        have := ih os (by simpa using h)
        cases o <;> simp [this]
  refine ⟨hl, numEnabled_eq p, ?_, ?_⟩
  · rw [numEnabled_eq]
    exact (hcount p.stages p.enabled hl).symm
  · intro s
    refine ⟨by simp [Params.addStage, Params.total], ?_⟩
    unfold enabledBands Params.addStage
    dsimp only
    rw [List.zip_append hl, List.filterMap_append]
    rfl

/-- **C80 (response), partial.** After any history of calls, for an equalizer with at least one stage whose enabled
bands have accepted settings and whose digital stages have degree two (see `C80_moderate` for settings that ensure it):
`GetCoefficients` returns a cascade of stable stages; its response is, at every frequency, the overall gain times the
product of the responses of stable digital versions of the enabled bands, each with the gains that its settings say;
`ParametricEqualizerGainMagnitudeAtFrequencies` returns the magnitude of that response. Missing: stages of lower degree
(`Simplify` merges them and drops coefficients below `1e-10`). -/
theorem C80_response_partial {p : Params} {rate : ℝ} (h : Reach p) (hr : 0 < rate) (hp : p.stages ≠ [])
    (hb : ∀ s ∈ enabledBands p, BandOk rate s)
    (h2 : ∀ s ∈ enabledBands p, ∀ c, design rate s = some c → SecondOrder c) :
    ∃ cs ds, getCoefficients p rate = .ok cs ∧ (∀ c ∈ cs, Stable c) ∧
      List.Forall₂ (fun s c => Realizes rate s c ∧ HasLevels rate s c) (enabledBands p) ds ∧
      (∀ ω, (cs.map fun c => response c ω).prod = factor p.gain * (ds.map fun c => response c ω).prod) ∧
      ∀ fs, gainMagnitudes p rate fs = .ok (fs.map fun f =>
        ‖(factor p.gain : ℂ) * (ds.map fun c => response c (radians f rate)).prod‖) := by
  obtain ⟨ds, hd⟩ := exists_designs hb h2
  obtain ⟨cs, e1, -, e2, e3, e4⟩ := response_full hr hp (reach_lengths h) hb hd
  refine ⟨cs, ds, e1, e2, (designs_known hb hd).imp fun s c k => ⟨k.realizes, k.levels⟩, e3, fun fs => ?_⟩
  rw [e4]
  congr 1
  apply List.map_congr_left
  intro f _
  rw [norm_mul, Complex.norm_real, Real.norm_of_nonneg (factor_pos _).le]

/-- **C80 (settings without extremes).** Quality factors of at least 0.51, cuts of at most 100 dB for shelves,
corner frequencies of at least a ten thousandth of the rate, and for peaks either a gain factor (or its inverse) of at most
1.98 times the quality factor or a frequency outside small neighbourhoods of at most four values ensure stages of degree
two. -/
theorem C80_moderate {rate : ℝ} {s : Band} (h : BandOk rate s) (hm : Moderate rate s) :
    ∃ c, design rate s = some c ∧ SecondOrder c ∧ Realizes rate s c ∧ HasLevels rate s c := by
  obtain ⟨c, e1, e2⟩ := design_second h hm
  obtain ⟨c', d1, d2⟩ := design_known h
  have : c = c' := Option.some.inj (e1.symm.trans d1)
  subst this
  exact ⟨c, e1, e2, d2.realizes, d2.levels⟩

/-- A broad boost by 20 dB meets the premises of `C80_moderate` by the second alternative. -/
example : BandOk 48000 ⟨.peak, 12000, 1, 20⟩ ∧ Moderate 48000 ⟨.peak, 12000, 1, 20⟩ ∧
    ¬ factor |(20 : ℝ)| ≤ 198 / 100 * 1 := by
  have hf : factor 20 = 10 := by
    unfold factor
    norm_num
  refine ⟨by unfold BandOk; norm_num, .inr ?_, ?_⟩
  · unfold PeakClear
    dsimp only
    rw [hf, show Real.pi * 12000 / 48000 = Real.pi / 4 by ring, Real.tan_pi_div_four,
      max_eq_left (by norm_num), max_eq_left (by norm_num)]
    norm_num [abs_of_neg]
  · rw [abs_of_pos (by norm_num), hf]
    norm_num

/-- Three bands with ordinary settings at 48 kHz meet the premises. -/
example : ∃ p, Reach p ∧ p.stages ≠ [] ∧ (enabledBands p).length = 3 ∧ (∀ s ∈ enabledBands p, BandOk 48000 s) ∧
    ∀ s ∈ enabledBands p, ∀ c, design 48000 s = some c → SecondOrder c := by
  refine ⟨((Params.new.addStage ⟨.lowShelf, 100, 707 / 1000, 6⟩).addStage ⟨.peak, 1000, 10, -20⟩).addStage ⟨.highShelf, 8000, 707 / 1000, -3⟩,
    .addStage _ (.addStage _ (.addStage _ .new)), by simp [Params.addStage], rfl, ?_, ?_⟩
  · intro s hs
    simp only [enabledBands, Params.addStage, Params.new, List.nil_append, List.cons_append, List.zip_cons_cons,
      List.zip_nil_right, List.filterMap_cons, if_true, List.filterMap_nil, List.mem_cons, List.not_mem_nil, or_false] at hs
    rcases hs with rfl | rfl | rfl <;> (unfold BandOk; norm_num)
  · intro s hs c hc
    have hm : BandOk 48000 s ∧ Moderate 48000 s := by
      simp only [enabledBands, Params.addStage, Params.new, List.nil_append, List.cons_append, List.zip_cons_cons,
        List.zip_nil_right, List.filterMap_cons, if_true, List.filterMap_nil, List.mem_cons, List.not_mem_nil, or_false] at hs
      rcases hs with rfl | rfl | rfl
      · unfold BandOk Moderate; norm_num
      · refine ⟨by unfold BandOk; norm_num, .inl ?_⟩
        show factor |(-20 : ℝ)| ≤ 198 / 100 * 10
        rw [abs_of_neg (by norm_num)]
        unfold factor
        norm_num
      · unfold BandOk Moderate; norm_num
    obtain ⟨c', e1, e2, -⟩ := C80_moderate hm.1 hm.2
    rw [Option.some.inj (hc.symm.trans e1)]
    exact e2

/-- **C80 (checks).** An enabled band with a frequency outside `(0, rate / 2)` or a quality factor that is not positive, or
a sampling rate that is not positive, stops the program. -/
theorem C80_checks {p : Params} {rate : ℝ} (h : rate ≤ 0 ∨ ∃ s ∈ enabledBands p, ¬ BandOk rate s) :
    (∃ e, getCoefficients p rate = .error e) ∧ ∀ fs, ∃ e, gainMagnitudes p rate fs = .error e := by
  have : ∃ e, getCoefficients p rate = .error e := by
    rcases h with h | h
    · exact ⟨.check, by unfold getCoefficients; rw [if_neg (not_lt.2 h)]⟩
    · exact coefficients_reject h
  refine ⟨this, fun fs => ?_⟩
  obtain ⟨e, he⟩ := this
  exact ⟨e, by unfold gainMagnitudes; rw [he]⟩

example : ∃ s ∈ enabledBands (Params.new.addStage ⟨.peak, 24000, 1, 3⟩), ¬ BandOk 48000 s :=
  ⟨⟨.peak, 24000, 1, 3⟩, List.mem_cons_self, by unfold BandOk; norm_num⟩

/-- **C80 (`ClearAllGains`).** All gains become zero, lowpass and highpass filters are disabled, kinds, frequencies, quality
factors and the bypass flags of shelves and peaks are unchanged. -/
theorem C80_clear {p : Params} (h : Reach p) : p.clearAllGains.gain = 0 ∧ p.clearAllGains.total = p.total ∧
    ∀ (i : ℕ) (s : Band) (on : Bool), p.stages[i]? = some s → p.enabled[i]? = some on →
      p.clearAllGains.stages[i]? = some ⟨s.kind, s.frequency, s.quality, 0⟩ ∧
      p.clearAllGains.enabled[i]? = some (on && (decide (HasGain s))) := by
  refine ⟨rfl, (clearLoop_length _ _).1, fun i s on hs ho => ?_⟩
  obtain ⟨e1, e2⟩ := clearLoop_get _ _ (reach_lengths h) i s on hs ho
  refine ⟨e1, e2.trans ?_⟩
  obtain ⟨k, f, Q, g⟩ := s
  cases k <;> simp [HasGain]

/-- **C80 (`ClearAllGains` leaves the signal unchanged).** For every equalizer with at least one stage whose enabled shelves
and peaks have accepted settings, the filter made from the coefficients after `ClearAllGains` returns its input, for
every input. -/
theorem C80_clear_identity {p : Params} {rate : ℝ} (h : Reach p) (hr : 0 < rate) (hp : p.stages ≠ [])
    (hb : ∀ s ∈ enabledBands p, HasGain s → BandOk rate s) :
    ∃ cs fs, getCoefficients p.clearAllGains rate = .ok cs ∧ Biquad.cascadeInit (cs.map Stage.coeffs) = some fs ∧
      ∀ xs : List ℝ, (Biquad.cascadeBlock fs xs).2 = xs := by
  have hb' : ∀ s ∈ enabledBands p.clearAllGains, BandOk rate s ∧ HasGain s ∧ s.gain = 0 := by
    intro s hs
    rw [clear_bands, List.mem_filterMap] at hs
    obtain ⟨⟨t, on⟩, hx, he⟩ := hs
    dsimp only at he
    split_ifs at he with hc
    have hg : HasGain t := by
      obtain ⟨k, f, Q, g⟩ := t
      obtain ⟨-, h1, h2⟩ := hc
      cases k <;> simp [HasGain] at *
    have hok := hb t (by
      unfold enabledBands
      rw [List.mem_filterMap]
      exact ⟨(t, on), hx, by rw [if_pos hc.1]⟩) hg
    rw [← Option.some.inj he]
    exact ⟨hok, hg, rfl⟩
  have hl := reach_lengths (Reach.clear h)
  have hne : p.clearAllGains.stages ≠ [] := by
    intro h0
    have := (clearLoop_length p.stages p.enabled).1
    rw [show (clearLoop p.stages p.enabled).1 = [] from h0, List.length_nil] at this
    exact hp (List.length_eq_zero_iff.1 this.symm)
  obtain ⟨cs, e1, e2, e3⟩ := loop_flat (rate := rate) p.clearAllGains.stages p.clearAllGains.enabled [] (by simp) hb'
  have hcs : cs ≠ [] := e3 (Or.inr (by
    intro hz
    match hs : p.clearAllGains.stages, ho : p.clearAllGains.enabled with
    | [], _ => exact hne hs
    | _ :: _, [] => rw [hs, ho] at hl; simp at hl
    | _ :: _, _ :: _ => rw [hs, ho] at hz; simp at hz))
  obtain ⟨fs, g1, g2⟩ := flat_output e2
  refine ⟨cs, fs, ?_, g1, g2⟩
  unfold getCoefficients
  rw [if_pos hr, e1]
  match cs, hcs with
  | c :: cs, _ =>
    dsimp only
    rw [show dbToLinear p.clearAllGains.gain = 1 from factor_zero, adjustGain_one]

example : ∃ p, Reach p ∧ p.stages ≠ [] ∧ (∀ s ∈ enabledBands p, HasGain s → BandOk 48000 s) ∧ p.gain = 3 :=
  ⟨((Params.new.addStage ⟨.highpass, 40, 1, 0⟩).addStage ⟨.peak, 1000, 1 / 2, 6⟩).setGain 3,
    .setGain _ (.addStage _ (.addStage _ .new)), by simp [Params.addStage, Params.setGain], by
      intro s hs _
      simp only [enabledBands, Params.addStage, Params.setGain, Params.new, List.nil_append, List.cons_append,
        List.zip_cons_cons, List.zip_nil_right, List.filterMap_cons, if_true, List.filterMap_nil, List.mem_cons,
        List.not_mem_nil, or_false] at hs
      rcases hs with rfl | rfl <;> (unfold BandOk; norm_num), rfl⟩

/-- **C80, violation of the documented order.** The header says that bypassed stages become identity stages "such that
the order of the filter is always the same". `Simplify`, called on every append, removes them: the number of stages of the
cascade is the number of enabled bands (but at least one). -/
theorem C80_order {p : Params} {rate : ℝ} (h : Reach p) (hr : 0 < rate) (hp : p.stages ≠ [])
    (hb : ∀ s ∈ enabledBands p, BandOk rate s)
    (h2 : ∀ s ∈ enabledBands p, ∀ c, design rate s = some c → SecondOrder c) :
    ∃ cs, getCoefficients p rate = .ok cs ∧ cs.length = max 1 (enabledBands p).length := by
  obtain ⟨ds, hd⟩ := exists_designs hb h2
  obtain ⟨cs, e1, e2, -⟩ := response_full hr hp (reach_lengths h) hb hd
  exact ⟨cs, e1, e2⟩

/-- A parameter object with two equal peaks, and the same with one of them bypassed. -/
noncomputable def twoPeaks (on : Bool) : Params :=
  { (Params.new.addStage ⟨.peak, 12000, 2, 6⟩).addStage ⟨.peak, 12000, 2, 6⟩ with enabled := [true, on] }

theorem twoPeaks_reach (on : Bool) : Reach (twoPeaks on) :=
  .setEnabled 1 on (.addStage _ (.addStage _ .new)) rfl

theorem factor_six : factor 6 ≤ 2 := by
  unfold factor
  have h : ((10 : ℝ) ^ ((6 : ℝ) / 20)) ^ (10 : ℕ) = 10 ^ (3 : ℕ) := by
    rw [← Real.rpow_natCast, ← Real.rpow_mul (by norm_num), ← Real.rpow_natCast]
    norm_num
  have h2 : ((10 : ℝ) ^ ((6 : ℝ) / 20)) ^ (10 : ℕ) ≤ 2 ^ (10 : ℕ) := by rw [h]; norm_num
  exact le_of_pow_le_pow_left₀ (by norm_num) (by norm_num) h2

theorem peak_ok {g Q : ℝ} (hQ : 1 ≤ Q) (h : factor |g| ≤ Q) :
    BandOk 48000 ⟨.peak, 12000, Q, g⟩ ∧ Moderate 48000 ⟨.peak, 12000, Q, g⟩ :=
  ⟨by unfold BandOk; dsimp only; refine ⟨by norm_num, by norm_num, by linarith⟩, .inl (by dsimp only; linarith)⟩

/-- **C80, violation.** Bypassing a stage changes the number of stages of the filter. -/
theorem C80_order_violation : ∃ p q p' q', Reach p ∧ Reach q ∧ p.setEnabled 1 false = .ok q ∧
    getCoefficients p 48000 = .ok p' ∧ getCoefficients q 48000 = .ok q' ∧ p'.length = 2 ∧ q'.length = 1 := by
  have h6 : factor |(6 : ℝ)| ≤ 2 := by rw [abs_of_pos (by norm_num)]; exact factor_six
  have hok := peak_ok (g := 6) (Q := 2) (by norm_num) h6
  have hall : ∀ on, ∀ s ∈ enabledBands (twoPeaks on), s = ⟨.peak, 12000, 2, 6⟩ := by
    intro on s hs
    cases on <;>
    · simp [twoPeaks, enabledBands, Params.addStage, Params.new] at hs
      exact hs
  have hsec : ∀ on, ∀ s ∈ enabledBands (twoPeaks on), ∀ c, design 48000 s = some c → SecondOrder c := by
    intro on s hs c hc
    rw [hall on s hs] at hc
    obtain ⟨c', e1, e2, -⟩ := C80_moderate hok.1 hok.2
    rw [Option.some.inj (hc.symm.trans e1)]
    exact e2
  obtain ⟨p', e1, e2⟩ := C80_order (rate := 48000) (twoPeaks_reach true) (by norm_num) (by simp [twoPeaks, Params.addStage])
    (fun s hs => by rw [hall true s hs]; exact hok.1) (hsec true)
  obtain ⟨q', g1, g2⟩ := C80_order (rate := 48000) (twoPeaks_reach false) (by norm_num) (by simp [twoPeaks, Params.addStage])
    (fun s hs => by rw [hall false s hs]; exact hok.1) (hsec false)
  exact ⟨twoPeaks true, twoPeaks false, p', q', twoPeaks_reach true, twoPeaks_reach false, rfl, e1, g1, e2, g2⟩

/-- **C80, violation.** An equalizer without stages has no identity filter: `GetCoefficients` reads outside an empty
vector. -/
theorem C80_empty_violation : Reach Params.new ∧ ∀ rate, 0 < rate → getCoefficients Params.new rate = .error .undefined := by
  refine ⟨.new, fun rate hr => ?_⟩
  unfold getCoefficients
  rw [if_pos hr]
  rfl

/-! ## C81 -/

/-- **C81 (only gains change).** Whenever the fit of the gains returns, kinds, frequencies, quality factors and bypass flags
are unchanged, and the result does not depend on the gains before the call. -/
theorem C81_only_gains {fs target : List ℝ} {it : ℕ} {thr rate : ℝ} {p : Params} :
    (∀ p', matchGains fs target it thr rate p = .ok p' → SameButGains p p') ∧
    ∀ q, SameButGains p q → matchGains fs target it thr rate p = matchGains fs target it thr rate q :=
  ⟨fun _ h => matchGains_same h, fun _ h => matchGains_congr h⟩

/-- **C81 (one step is a least-squares problem with one solution).** For stages of degree two at the current gains there is
exactly one vector of new gains. -/
theorem C81_step {n : ℕ} {rate : ℝ} {fs target : List ℝ} {p : Params} {g : Fin (n + 1) → ℝ} {ds : List (Stage ℝ)}
    (h : DesignsWith rate p g ds) : ∃! g', Fits rate fs target p g g' := by
  refine ⟨fun k => solve (levels rate fs ds g) (fun i => target.getD i.val 0) k * g k, ?_, ?_⟩
  · exact ⟨ds, h, _, fun k => rfl, solve_le _ _⟩
  · rintro g' ⟨ds', hd', w, hw, hmin⟩
    have : ds' = ds := by
      apply List.ext_getElem (by rw [hd'.1, h.1])
      intro i h1 h2
      have hi : i < n := by rw [← h.1]; exact h2
      have hs : i < p.stages.length := by rw [h.2.1]; exact hi
      obtain ⟨a1, -⟩ := h.2.2 ⟨i, hi⟩ _ _ (List.getElem?_eq_getElem hs) (List.getElem?_eq_getElem h2)
      obtain ⟨a2, -⟩ := hd'.2.2 ⟨i, hi⟩ _ _ (List.getElem?_eq_getElem hs) (List.getElem?_eq_getElem h1)
      exact Option.some.inj (a2.symm.trans a1)
    subst this
    funext k
    rw [hw k, solve_unique _ _ hmin]

/-- **C81 (the fit), partial.** For an equalizer of shelves and peaks with accepted settings, all enabled, the fit of the
gains starts from 6 dB everywhere, takes at most `max_iterations` steps, each the solution of the regularised least-squares
problem at the gains of the step before, and stops early when no gain changes by the threshold or more; the result is the
equalizer with the last gains. Missing: stages of degree less than two (premise `SecondOrder` in `DesignsWith`). -/
theorem C81_fit_partial {n : ℕ} {fs target : List ℝ} {rate thr : ℝ} {p : Params} {gs : ℕ → Fin (n + 1) → ℝ} {N M : ℕ}
    (h : Reach p) (hlen : fs.length = target.length) (hr : 0 < rate) (he : ∀ on ∈ p.enabled, on = true)
    (hg : ∀ s ∈ p.stages, HasGain s ∧ BandOk rate s) (hn : 0 < n) (hnt : n = p.total)
    (hstart : ∀ k, gs 0 k = 6) (hf : ∀ i < N, Fits rate fs target p (gs i) (gs (i + 1))) (hNM : N ≤ M)
    (hgo : ∀ i, i + 1 < N → ∃ k, thr ≤ |gs (i + 1) k - gs i k|)
    (hend : N = M ∨ ∃ i, i + 1 = N ∧ ∀ k, |gs (i + 1) k - gs i k| < thr) :
    ∃ p', matchGains fs target M thr rate p = .ok p' ∧ SameButGains p p' ∧ GainsAre p' (gs N) := by
  have hl := reach_lengths h
  have hnum : p.numEnabled = n := by
    rw [numEnabled_eq, hnt]
    unfold Params.total
    rw [hl, List.count_eq_length]
    exact fun b hb => (he b hb).symm
  have hrun := matchLoop_run (gs := gs) hr hl he hn hnt hg hf hNM hgo hend N 0 (by omega)
  have h0 : gs 0 = fun _ => 6 := funext hstart
  have key : matchGains fs target M thr rate p = .ok (withGains p (gs N)) := by
    rw [matchGains_eq hlen (by rw [hnum, hnt])]
    subst hnum
    rcases hrun with h | ⟨j, h1, h2, -⟩
    · rw [h0] at h
      exact h
    · omega
  refine ⟨withGains p (gs N), key, matchGains_same key, withGains_length hnt, rfl, ?_⟩
  intro k s hs
  rw [withGains_get k] at hs
  obtain ⟨s0, -, rfl⟩ := Option.map_eq_some_iff.1 hs
  rfl

/-- **C81, violation.** "Note also that the enabled/disabled status of a filter is currently ignored" (and this function
names no restriction): with one disabled stage the program stops. -/
theorem C81_disabled_violation {fs target : List ℝ} {it : ℕ} {thr rate : ℝ} {p : Params} (h : Reach p)
    (hd : false ∈ p.enabled) : matchGains fs target it thr rate p = .error .check := by
  apply matchGains_check
  intro hn
  have := all_enabled (reach_lengths h) hn false hd
  simp at this

example : Reach (twoPeaks false) ∧ false ∈ (twoPeaks false).enabled := ⟨twoPeaks_reach false, by simp [twoPeaks]⟩

/-- **C81, finding.** With no iterations allowed the gains are not those of the equalizer but 6 dB everywhere. -/
theorem C81_no_iterations {fs target : List ℝ} {thr rate : ℝ} {p : Params} (h : Reach p)
    (hlen : fs.length = target.length) (he : ∀ on ∈ p.enabled, on = true) :
    ∃ p', matchGains fs target 0 thr rate p = .ok p' ∧ p'.gain = 6 ∧ ∀ s ∈ p'.stages, s.gain = 6 := by
  have hl := reach_lengths h
  have hnum : p.numEnabled = p.total := by
    rw [numEnabled_eq]
    unfold Params.total
    rw [hl, List.count_eq_length]
    exact fun b hb => (he b hb).symm
  refine ⟨_, matchGains_eq hlen hnum, rfl, ?_⟩
  intro s hs
  obtain ⟨i, hi, rfl⟩ := List.mem_iff_getElem.1 hs
  have hi' : i < p.numEnabled := by rw [← withGains_length (g := fun _ : Fin (p.numEnabled + 1) => (6 : ℝ)) hnum]; exact hi
  have := withGains_get (p := p) (g := fun _ : Fin (p.numEnabled + 1) => (6 : ℝ)) ⟨i, hi'⟩
  rw [List.getElem?_eq_getElem hi] at this
  obtain ⟨s0, -, e⟩ := Option.map_eq_some_iff.1 this.symm
  rw [← e]

/-! ### The regularisation is too strong for small gains -/

/-- A peak of quality 2 at 12 kHz. -/
noncomputable def onePeak (g : ℝ) : Params := Params.new.addStage ⟨.peak, 12000, 2, g⟩

/-- Gains after the first iteration for a target of 0.01 dB. -/
noncomputable def gain1 : ℝ := 6 * (1 / 100) / (6 * 6 + 6 * 6 + 1 / 10 ^ 4) * 6

/-- Gains after the second iteration. -/
noncomputable def gain2 : ℝ := gain1 * (1 / 100) / (gain1 * gain1 + gain1 * gain1 + 1 / 10 ^ 4) * gain1

theorem gain1_pos : 0 < gain1 := by unfold gain1; norm_num

theorem gain1_le : gain1 ≤ 1 / 200 := by unfold gain1; norm_num

theorem gain2_pos : 0 < gain2 := by
  have := gain1_pos
  unfold gain2
  positivity

theorem gain2_le : gain2 ≤ 1 / 600 := by
  have h0 := gain1_pos
  have h1 := gain1_le
  unfold gain2
  have : 0 < gain1 * gain1 + gain1 * gain1 + 1 / 10 ^ 4 := by positivity
  rw [div_mul_eq_mul_div, div_le_iff₀ this]
  nlinarith

theorem peak_small {g : ℝ} (h0 : 0 ≤ g) (h : g ≤ 6) :
    BandOk 48000 ⟨.peak, 12000, 2, g⟩ ∧ Moderate 48000 ⟨.peak, 12000, 2, g⟩ := by
  apply peak_ok (by norm_num)
  rw [abs_of_nonneg h0]
  exact le_trans (factor_mono h) factor_six

/-- One step for a single peak and a single frequency at its centre. -/
theorem fits_single {p : Params} {g x t : ℝ} (hp : p.stages = [⟨.peak, 12000, 2, x⟩]) (h0 : 0 < g) (h6 : g ≤ 6) :
    Fits (n := 1) 48000 [12000] [t] p (fun _ => g) fun _ => g * t / (g * g + g * g + 1 / 10 ^ 4) * g := by
  have hs := peak_small h0.le h6
  obtain ⟨c, e1, e2, -, -, -, e3⟩ := C80_moderate hs.1 hs.2
  refine ⟨[c], ⟨rfl, by rw [hp]; rfl, ?_⟩, fun _ => g * t / (g * g + g * g + 1 / 10 ^ 4), fun k => rfl, ?_⟩
  · intro k s c' hk hc
    have hk0 : k.val = 0 := by omega
    rw [hk0, hp] at hk
    rw [hk0] at hc
    simp only [List.getElem?_cons_zero, Option.some.injEq] at hk hc
    subst hk hc
    exact ⟨e1, e2⟩
  · have hlev : levels (n := 1) 48000 [12000] [c] (fun _ => g) = fun _ _ => g := by
      funext i k
      unfold levels
      by_cases hk : k.val < 1
      · have hk0 : k.val = 0 := by omega
        have hi0 : i.val = 0 := by have := i.2; simp only [List.length_cons, List.length_nil] at this; omega
        rw [if_pos hk, hk0, hi0]
        show decibels ‖response c (radians 12000 48000)‖ = g
        rw [e3 (by norm_num)]
        exact decibels_factor g
      · rw [if_neg hk]
    rw [hlev]
    intro v
    have hD : 0 < g * g + g * g + 1 / 10 ^ 4 := by positivity
    have key := cost_expand (m := [(12000 : ℝ)].length) (n := 2) (fun _ _ => g) (fun i => [t].getD i.val 0)
      (w := fun _ => g * t / (g * g + g * g + 1 / 10 ^ 4)) ?_ v
    · rw [show cost (n := 1 + 1) (fun _ _ => g) (fun i : Fin [(12000 : ℝ)].length => [t].getD i.val 0) v = _ from key]
      have p2 : 0 ≤ ∑ i : Fin [(12000 : ℝ)].length, (∑ k : Fin 2, g * (v k - g * t / (g * g + g * g + 1 / 10 ^ 4))) ^ 2 :=
        Finset.sum_nonneg fun i _ => sq_nonneg _
      have p3 : 0 ≤ ∑ k : Fin 2, (v k - g * t / (g * g + g * g + 1 / 10 ^ 4)) ^ 2 := Finset.sum_nonneg fun k _ => sq_nonneg _
      linarith
    · intro k
      simp only [List.length_cons, List.length_nil, Nat.reduceAdd, Finset.univ_unique, Finset.sum_singleton, Fin.sum_univ_two]
      show g * (g * (g * t / _) + g * (g * t / _) - t) + _ = 0
      field_simp
      ring

theorem single_gain {p : Params} {x y : ℝ} (hp : Reach p) (hs : p.stages = [⟨.peak, 12000, 2, x⟩]) (ho : p.enabled = [true])
    (hg : p.gain = y) (h0 : 0 ≤ x) (h6 : x ≤ 6) : gainMagnitudes p 48000 [12000] = .ok [factor (x + y)] := by
  have hb : enabledBands p = [⟨.peak, 12000, 2, x⟩] := by
    unfold enabledBands
    rw [hs, ho]
    rfl
  have hm := peak_small h0 h6
  obtain ⟨c, e1, e2, -⟩ := C80_moderate hm.1 hm.2
  obtain ⟨cs, ds, -, -, d1, -, d2⟩ := C80_response_partial (rate := 48000) hp (by norm_num) (by rw [hs]; simp)
    (by intro s h; rw [hb, List.mem_singleton] at h; rw [h]; exact hm.1)
    (by
      intro s h c' hc
      rw [hb, List.mem_singleton] at h
      rw [h, e1] at hc
      rw [← Option.some.inj hc]
      exact e2)
  rw [hb] at d1
  cases d1 with
  | cons h1 h2 =>
    cases h2
    rw [d2]
    congr 1
    simp only [List.map_cons, List.map_nil, List.prod_cons, List.prod_nil, mul_one]
    rw [norm_mul, h1.2.2.2 (by norm_num), Complex.norm_real, Real.norm_of_nonneg (factor_pos _).le, hg]
    show [factor y * factor x] = _
    rw [← factor_add, add_comm]

/-- **C81, violation of "least squares".** A single peak and a target of 0.01 dB at its centre: exact fits exist, but the
regularisation, relative to gains that are already small in the second iteration, leaves less than half of the target. -/
theorem C81_least_squares_violation : ∃ p p' q g, Reach p ∧ SameButGains p q ∧
    gainMagnitudes q 48000 [12000] = .ok [factor (1 / 100)] ∧ matchGainsDefault [12000] [1 / 100] 48000 p = .ok p' ∧
    gainMagnitudes p' 48000 [12000] = .ok [g] ∧ 0 < decibels g ∧ decibels g < 1 / 200 := by
  have hreach : Reach (onePeak 0) := .addStage _ .new
  have h1 := gain1_pos
  have h1' := gain1_le
  have h2 := gain2_pos
  have h2' := gain2_le
  obtain ⟨p', e1, e2, e3, e4, e5⟩ := C81_fit_partial (n := 1) (fs := [12000]) (target := [1 / 100]) (rate := 48000) (thr := 1 / 5)
    (p := onePeak 0) (gs := fun i _ => if i = 0 then 6 else if i = 1 then gain1 else gain2) (N := 2) (M := 2) hreach rfl
    (by norm_num) (by simp [onePeak, Params.addStage, Params.new])
    (by
      intro s hs
      simp only [onePeak, Params.addStage, Params.new, List.nil_append, List.mem_singleton] at hs
      rw [hs]
      exact ⟨Or.inr (Or.inl rfl), (peak_small le_rfl (by norm_num)).1⟩)
    (by norm_num) rfl (fun k => rfl)
    (by
      intro i hi
      interval_cases i
      · exact fits_single (p := onePeak 0) (x := 0) rfl (by norm_num) le_rfl
      · exact fits_single (p := onePeak 0) (x := 0) rfl h1 (by show gain1 ≤ 6; linarith))
    le_rfl
    (by
      intro i hi
      have : i = 0 := by omega
      subst this
      refine ⟨0, ?_⟩
      show 1 / 5 ≤ |gain1 - 6|
      rw [abs_of_neg (by linarith)]
      linarith)
    (Or.inl rfl)
  have hstages : p'.stages = [⟨.peak, 12000, 2, gain2⟩] := by
    match hp : p'.stages, e3 with
    | [s], _ =>
      have hg := e5 0 s (by rw [hp]; rfl)
      have ht := e2.1
      rw [hp] at ht
      simp only [onePeak, Params.addStage, Params.new, List.nil_append, List.map_cons, List.map_nil, List.cons.injEq,
        Prod.mk.injEq, and_true] at ht
      obtain ⟨k, f, Q, g⟩ := s
      obtain ⟨a1, a2, a3⟩ := ht
      dsimp only at a1 a2 a3 hg
      subst a1 a2 a3 hg
      rfl
  have hen : p'.enabled = [true] := e2.2.symm
  have hr' : Reach p' := .matchGains _ _ _ _ _ hreach e1
  refine ⟨onePeak 0, p', onePeak (1 / 100), factor (gain2 + gain2), hreach, ⟨rfl, rfl⟩, ?_, e1,
    single_gain hr' hstages hen e4 h2.le (by linarith), ?_, ?_⟩
  · have := single_gain (p := onePeak (1 / 100)) (x := 1 / 100) (y := 0) (.addStage _ .new) rfl rfl rfl (by norm_num) (by norm_num)
    rwa [add_zero] at this
  · rw [decibels_factor]; linarith
  · rw [decibels_factor]; linarith

/-! ## C82 -/

/-- **C82 (the objective has no memory).** The search evaluates its objective function on the parameters that the evaluation
before left. The result is a function of the point alone. -/
theorem C82_no_memory {fs target : List ℝ} {rate : ℝ} {f : FitParams} {p : Params} :
    (∀ x r q, objective fs target rate f p x = .ok (r, q) → SameBands p q) ∧
    ∀ q, SameBands p q → ∀ x : ℕ → ℝ,
      objective fs target rate f p (fun i => x i.val) = objective fs target rate f q (fun i => x i.val) := by
  refine ⟨?_, fun q h x => objective_congr h x⟩
  intro x r q h
  have h1 := setShape_bands p x
  have h2 := sbg_bands (matchGains_same (objective_ok h).1)
  exact ⟨h1.1.trans h2.1, h1.2.trans h2.2⟩

/-- **C82 (fit of all parameters).** Whenever `FitParametricEqualizer` returns: kinds, their number and the bypass flags are
unchanged; every frequency and every quality factor is within the bounds; the gains are those that the fit of the gains
sets; the value returned is the root-mean-square difference in decibels between the magnitude of the response of the
equalizer it leaves and the target; and it is at most the difference that the fit of the gains alone reaches with the
frequencies and quality factors before the call, if they are within the bounds. -/
theorem C82_fit {p p' : Params} {e : NelderMead.Env (2 * p.total) ℝ} (he : e.Ok) {fs target : List ℝ} {rate r : ℝ}
    {f : FitParams} {x : Fin (2 * p.total + 1) → NelderMead.Point (2 * p.total) ℝ}
    {v : Fin (2 * p.total + 1) → WithTop ℝ} {a : Fin (2 * p.total + 1)}
    (h : fit p e fs target rate f x v a = .ok (r, p')) :
    SameBands p p' ∧
    (∀ s ∈ p'.stages, f.minFrequency ≤ s.frequency ∧ s.frequency ≤ f.maxFrequency ∧ f.minQuality ≤ s.quality ∧
      s.quality ≤ f.maxQuality) ∧
    matchGains fs target f.innerIterations f.innerThreshold rate p' = .ok p' ∧
    (∃ gs, gainMagnitudes p' rate fs = .ok gs ∧ (∀ g ∈ gs, g ≠ 0) ∧ r = rms (gs.map decibels) target) ∧
    ((∀ s ∈ p.stages, f.minFrequency ≤ s.frequency ∧ s.frequency ≤ f.maxFrequency ∧ f.minQuality ≤ s.quality ∧
      s.quality ≤ f.maxQuality) →
      ∃ p0 gs, matchGains fs target f.innerIterations f.innerThreshold rate p = .ok p0 ∧
        gainMagnitudes p0 rate fs = .ok gs ∧ r ≤ rms (gs.map decibels) target) := by
  obtain ⟨h1, h2, h3, h4, y, h5, h6, h7⟩ := fit_ok he h
  obtain ⟨o1, o2⟩ := objective_ok h5
  have hlen := matchGains_lengths o1
  obtain ⟨gs, g1, g2, -, g3⟩ := rmsError_ok hlen o2
  have hsame := matchGains_same o1
  refine ⟨C82_no_memory.1 y r p' h5, ?_, ?_, ⟨gs, g1, g2, g3⟩, ?_⟩
  · intro s hs
    have hmem : (s.kind, s.frequency, s.quality) ∈ (setShape p y).stages.map fun s => (s.kind, s.frequency, s.quality) := by
      rw [hsame.1]
      exact List.mem_map_of_mem (f := fun s : Band => (s.kind, s.frequency, s.quality)) hs
    obtain ⟨s', hs', hss⟩ := List.mem_map.1 hmem
    simp only [Prod.mk.injEq] at hss
    obtain ⟨-, hf, hq⟩ := hss
    unfold setShape at hs'
    obtain ⟨i, hi⟩ := (List.mem_ofFn' _ _).1 hs'
    dsimp only at hi
    rw [← hf, ← hq, ← hi]
    dsimp only
    have b1 := h6 ⟨i.val, by omega⟩
    have b2 := h6 ⟨p.total + i.val, by omega⟩
    unfold boundOf at b1 b2
    rw [if_pos i.2, if_pos i.2] at b1
    rw [if_neg (by dsimp only; omega), if_neg (by dsimp only; omega)] at b2
    exact ⟨(Real.log_le_iff_le_exp h3).1 b1.1, (Real.le_log_iff_exp_le h4).1 b1.2, b2.1, b2.2⟩
  · rw [← matchGains_congr hsame, o1]
  · intro hbox
    obtain ⟨r0, p0, q1, q2⟩ := h7 (by
      intro i
      unfold shapeOf boundOf
      by_cases hi : i.val < p.total
      · rw [dif_pos hi, if_pos hi, if_pos hi]
        have := hbox _ (List.getElem_mem (l := p.stages) hi)
        have hpos := h2 _ (List.getElem_mem (l := p.stages) hi)
        exact ⟨(Real.log_le_log_iff h3 hpos).2 this.1, (Real.log_le_log_iff hpos h4).2 this.2.1⟩
      · rw [dif_neg hi, if_neg hi, if_neg hi]
        have hi2 : i.val - p.total < p.stages.length := by have := i.2; unfold Params.total at *; omega
        have := hbox _ (List.getElem_mem (l := p.stages) hi2)
        exact ⟨this.2.2.1, this.2.2.2⟩)
    obtain ⟨o3, o4⟩ := objective_ok q1
    rw [setShape_shapeOf h2] at o3
    obtain ⟨gs0, k1, -, -, k2⟩ := rmsError_ok hlen o4
    exact ⟨p0, gs0, o3, k1, by rw [← k2]; exact q2⟩

/-- **C82 (it returns).** If the fit of the gains and the error are defined for all frequencies and quality factors within
the bounds, `FitParametricEqualizer` returns. -/
theorem C82_returns {p : Params} {e : NelderMead.Env (2 * p.total) ℝ} (he : e.Ok) {fs target : List ℝ} {rate : ℝ}
    {f : FitParams} (hp : 0 < p.total) (hs : ∀ s ∈ p.stages, 0 < s.frequency) (hf0 : 0 < f.minFrequency)
    (hf : f.minFrequency < f.maxFrequency) (hq : f.minQuality ≤ f.maxQuality)
    (hdef : ∀ q, SameBands p q → (∀ s ∈ q.stages, f.minFrequency ≤ s.frequency ∧ s.frequency ≤ f.maxFrequency ∧
      f.minQuality ≤ s.quality ∧ s.quality ≤ f.maxQuality) → ∃ q' gs,
        matchGains fs target f.innerIterations f.innerThreshold rate q = .ok q' ∧
        gainMagnitudes q' rate fs = .ok gs ∧ (∀ g ∈ gs, g ≠ 0) ∧ fs ≠ [])
    (x : Fin (2 * p.total + 1) → NelderMead.Point (2 * p.total) ℝ) (v : Fin (2 * p.total + 1) → WithTop ℝ)
    (a : Fin (2 * p.total + 1)) : ∃ r p', fit p e fs target rate f x v a = .ok (r, p') := by
  obtain ⟨t, y, t1, t2, -, -, t5⟩ := fit_run he (fs := fs) (target := target) (rate := rate) hp hs hf0 hf hq x v a
  have hok : ∀ z ∈ t, ∃ r, objective fs target rate f p z = .ok r := by
    intro z hz
    obtain ⟨q', gs, k1, k2, k3, k4⟩ := hdef (setShape p z) (setShape_bands p z) (by
      intro s hs'
      unfold setShape at hs'
      obtain ⟨i, hi⟩ := (List.mem_ofFn' _ _).1 hs'
      dsimp only at hi
      rw [← hi]
      dsimp only
      have b1 := t1 z hz ⟨i.val, by omega⟩
      have b2 := t1 z hz ⟨p.total + i.val, by omega⟩
      unfold boundOf at b1 b2
      rw [if_pos i.2, if_pos i.2] at b1
      rw [if_neg (by dsimp only; omega), if_neg (by dsimp only; omega)] at b2
      exact ⟨(Real.log_le_iff_le_exp hf0).1 b1.1, (Real.le_log_iff_exp_le (by linarith)).1 b1.2, b2.1, b2.2⟩)
    unfold objective
    rw [k1]
    dsimp only
    unfold rmsError
    rw [k2]
    dsimp only
    unfold allDb
    rw [if_neg (by rintro ⟨g, hg, h0⟩; exact k3 g hg h0)]
    dsimp only
    rw [if_neg (by
      intro h
      exact k4 (List.length_eq_zero_iff.1 h))]
    exact ⟨_, rfl⟩
  have hnone : firstFailure fs target rate f p t = none := by
    have : ∀ l : List (NelderMead.Point (2 * p.total) ℝ), (∀ z ∈ l, ∃ r, objective fs target rate f p z = .ok r) →
        firstFailure fs target rate f p l = none := by
      intro l
      induction l with
      | nil => intro _; rfl
      | cons z l ih =>
        intro hl
        obtain ⟨r, hr⟩ := hl z (by simp)
        rw [firstFailure, ih fun w hw => hl w (by simp [hw])]
        dsimp only
        rw [hr]
    exact this t hok
  obtain ⟨⟨r, p'⟩, hr⟩ := hok y t2
  exact ⟨r, p', by rw [t5, hnone]; exact hr⟩

/-- A case that meets the premises of `C82_returns`: one peak, frequencies between 11 and 13 kHz at a sampling rate of
48 kHz, quality factors between 2 and 3, gains left at 6 dB. -/
example : ∃ (p : Params) (f : FitParams), Reach p ∧ 0 < p.total ∧ (∀ s ∈ p.stages, 0 < s.frequency) ∧ 0 < f.minFrequency ∧
    f.minFrequency < f.maxFrequency ∧ f.minQuality ≤ f.maxQuality ∧
    ∀ q, SameBands p q → (∀ s ∈ q.stages, f.minFrequency ≤ s.frequency ∧ s.frequency ≤ f.maxFrequency ∧
      f.minQuality ≤ s.quality ∧ s.quality ≤ f.maxQuality) → ∃ q' gs,
        matchGains [12000] [3] f.innerIterations f.innerThreshold 48000 q = .ok q' ∧
        gainMagnitudes q' 48000 [12000] = .ok gs ∧ (∀ g ∈ gs, g ≠ 0) ∧ ([12000] : List ℝ) ≠ [] := by
  refine ⟨onePeak 0, ⟨11000, 13000, 2, 3, 100, 1 / 10, 0, 0, 0⟩, .addStage _ .new, by decide, ?_, by norm_num, by norm_num,
    by norm_num, ?_⟩
  · intro s hs
    simp only [onePeak, Params.addStage, Params.new, List.nil_append, List.mem_singleton] at hs
    rw [hs]
    norm_num
  · intro q hq hbox
    obtain ⟨g, ss, os⟩ := q
    obtain ⟨h1, h2⟩ := hq
    dsimp only at h1 h2 hbox
    have hos : os = [true] := h2.symm
    subst hos
    match ss, h1 with
    | [⟨k, fr, Q, g'⟩], h1 =>
      have hk : k = .peak := by
        have : [Kind.peak] = [k] := h1
        exact (List.cons.inj this).1.symm
      subst hk
      obtain ⟨b1, b2, b3, b4⟩ := hbox _ (List.mem_singleton_self _)
      dsimp only at b1 b2 b3 b4
      have hok : BandOk 48000 ⟨.peak, fr, Q, 6⟩ := ⟨by dsimp only; linarith, by dsimp only; linarith, by dsimp only; linarith⟩
      have hmod : Moderate 48000 ⟨.peak, fr, Q, 6⟩ :=
        .inl (by
          show factor |(6 : ℝ)| ≤ 198 / 100 * Q
          rw [abs_of_pos (by norm_num)]
          have := le_trans factor_six b3
          linarith)
      obtain ⟨c, e1, e2, -⟩ := C80_moderate hok hmod
      have hd : Designs 48000 (enabledBands ⟨6, [⟨.peak, fr, Q, 6⟩], [true]⟩) [c] := .cons ⟨e1, e2⟩ .nil
      obtain ⟨cs, -, -, -, -, r⟩ := response_full (p := ⟨6, [⟨.peak, fr, Q, 6⟩], [true]⟩) (rate := 48000) (by norm_num)
        (by simp) rfl (by
          intro s hs
          have : s = ⟨.peak, fr, Q, 6⟩ := List.mem_singleton.1 hs
          rw [this]
          exact hok) hd
      refine ⟨⟨6, [⟨.peak, fr, Q, 6⟩], [true]⟩, _, matchGains_eq rfl rfl, r [12000], ?_, by simp⟩
      intro x hx
      obtain ⟨f, -, rfl⟩ := List.mem_map.1 hx
      obtain ⟨c', k1, k2⟩ := design_known hok
      have hcc : c = c' := Option.some.inj (e1.symm.trans k1)
      subst hcc
      have := k2.nonzero (Or.inr (Or.inl rfl)) (radians f 48000)
      simp only [List.map_cons, List.map_nil, List.prod_cons, List.prod_nil, mul_one]
      exact mul_ne_zero (factor_pos _).ne' (norm_ne_zero_iff.2 this)

/-- **C82, violation.** The status of a filter is not ignored: with a disabled stage the program stops. -/
theorem C82_disabled_violation {p : Params} (h : Reach p) (hd : false ∈ p.enabled) {e : NelderMead.Env (2 * p.total) ℝ}
    (he : e.Ok) {fs target : List ℝ} {rate : ℝ} {f : FitParams}
    {x : Fin (2 * p.total + 1) → NelderMead.Point (2 * p.total) ℝ} {v : Fin (2 * p.total + 1) → WithTop ℝ}
    {a : Fin (2 * p.total + 1)} : ¬ ∃ r p', fit p e fs target rate f x v a = .ok (r, p') := by
  rintro ⟨r, p', hfit⟩
  obtain ⟨-, -, h3, -⟩ := C82_fit he hfit
  have hsame := (C82_fit he hfit).1
  have hn : p'.numEnabled ≠ p'.total := by
    intro hn
    have hl := reach_lengths h
    have hl' : p.stages.length = p'.stages.length := by
      have := congrArg List.length hsame.1
      simpa using this
    have := all_enabled (p := p') (by rw [← hl', ← hsame.2, hl]) hn false (by rw [← hsame.2]; exact hd)
    simp at this
  rw [matchGains_check hn] at h3
  simp at h3

/-- **C82, violation.** The default bounds allow frequencies up to 24 kHz, and the header names no relation to the sampling
rate. At 48 kHz a filter that starts at 22 kHz, within the bounds, makes the program stop: a vertex of the first simplex
is moved to 24 kHz, which the design of the filter rejects. -/
theorem C82_default_bounds_violation : ∃ p, Reach p ∧ (∀ s ∈ p.stages, BandOk 48000 s ∧ HasGain s ∧
      FitParams.default.minFrequency ≤ s.frequency ∧ s.frequency ≤ FitParams.default.maxFrequency ∧
      FitParams.default.minQuality ≤ s.quality ∧ s.quality ≤ FitParams.default.maxQuality) ∧
    ∀ (e : NelderMead.Env (2 * p.total) ℝ), e.Ok → ∀ fs target x v a,
      ∃ err, fit p e fs target 48000 FitParams.default x v a = .error err := by
  refine ⟨Params.new.addStage ⟨.peak, 22000, 1, 0⟩, .addStage _ .new, ?_, ?_⟩
  · intro s hs
    simp only [Params.addStage, Params.new, List.nil_append, List.mem_singleton] at hs
    rw [hs]
    unfold BandOk FitParams.default HasGain
    norm_num
  · intro e he fs target x v a
    have hst : (Params.new.addStage ⟨.peak, 22000, 1, 0⟩).stages = [⟨.peak, 22000, 1, 0⟩] := rfl
    obtain ⟨t, y, -, -, t3, -, t5⟩ := fit_run he (fs := fs) (target := target) (rate := 48000) (f := FitParams.default)
      (by decide) (by
        intro s hs
        rw [hst, List.mem_singleton] at hs
        rw [hs]
        norm_num) (by unfold FitParams.default; norm_num) (by unfold FitParams.default; norm_num)
      (by unfold FitParams.default; norm_num) x v a
    have hmem := t3 1 (by decide)
    obtain ⟨err, herr⟩ := firstFailure_some (fs := fs) (target := target) (rate := 48000) (f := FitParams.default) hmem (by
      have hbad : ∃ s ∈ (setShape (Params.new.addStage ⟨.peak, 22000, 1, 0⟩)
          (vertex (Params.new.addStage ⟨.peak, 22000, 1, 0⟩) FitParams.default 1)).stages, s.frequency = 24000 := by
        refine ⟨_, (List.mem_ofFn' _ _).2 ⟨⟨0, by decide⟩, rfl⟩, ?_⟩
        show Real.exp (vertex _ _ 1 ⟨0, _⟩) = 24000
        have hv : vertex (Params.new.addStage ⟨.peak, 22000, 1, 0⟩) FitParams.default 1 ⟨0, by decide⟩ =
            min (max (Real.log 22000 + 1 / 10) (Real.log 1)) (Real.log 24000) := rfl
        rw [hv, min_eq_right, Real.exp_log (by norm_num)]
        refine le_trans ?_ (le_max_left _ _)
        have h1 : Real.log 24000 = Real.log 22000 + Real.log (24000 / 22000) := by
          rw [← Real.log_mul (by norm_num) (by norm_num)]
          norm_num
        rw [h1]
        have h2 : Real.log (24000 / 22000) ≤ 24000 / 22000 - 1 := Real.log_le_sub_one_of_pos (by norm_num)
        have h3 : (24000 : ℝ) / 22000 - 1 ≤ 1 / 10 := by norm_num
        linarith
      generalize hq : setShape (Params.new.addStage ⟨.peak, 22000, 1, 0⟩)
          (vertex (Params.new.addStage ⟨.peak, 22000, 1, 0⟩) FitParams.default 1) = q at hbad
      cases hm : matchGains fs target FitParams.default.innerIterations FitParams.default.innerThreshold 48000 q with
      | error err =>
        refine ⟨err, ?_⟩
        unfold objective
        rw [hq, hm]
      | ok q' =>
        exfalso
        obtain ⟨s, hs, hf⟩ := hbad
        obtain ⟨err, herr⟩ := matchGains_reject (p := q) (fs := fs) (target := target) (rate := 48000)
          (it := FitParams.default.innerIterations) (thr := FitParams.default.innerThreshold)
          (by unfold FitParams.default; decide) (by rw [← hq]; rfl)
          ⟨s, hs, by unfold BandOk; rw [hf]; norm_num⟩
        rw [hm] at herr
        simp at herr)
    exact ⟨err, by rw [t5, herr]⟩

end Verif.ParametricEqualizer
