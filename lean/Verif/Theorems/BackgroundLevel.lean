import Verif.Proof.BackgroundLevel
import Mathlib.Analysis.Real.Pi.Bounds

/-!
# C34: background level detector

`fast` and `slow` are the fast and slow envelope of the input, `prev` the background estimate
(`MostRecentBackgroundLevelEstimate`), `counter` the remaining length of a rejected transient.
`runSamples (step o.consts) o.chan xs` is the sample loop of `ProcessBlock` on the envelope samples
`xs` (pairs of fast and slow values).
-/

namespace Verif.BackgroundLevel
open Verif.Biquad Verif.Envelope Verif.FilterDesign Verif.Stream

variable {cfg : Ladder.Config} {old new : Params} {rate : ℝ} {w : List (Coeffs ℝ)}
  {r : Resampler.Cfg ℝ} {o o' : Obj}

/-! ## Initialisation -/

/-- **C34.** Which calls of `Init` succeed, for any prefilter with nonzero leading coefficients: the
cutoffs of the new parameters must be between zero and half the envelope rate, the envelope rate not
above the sample rate, the time constant above its documented limit; but of the sensitivity nothing
is required of the *new* parameters. `old` are the parameters of the object before the call. -/
theorem C34_init_succeeds_iff (hw : ∀ k ∈ w, k.a0 ≠ 0) :
    (∃ o, init cfg old new rate w r = some o) ↔
      old.Checked ∧ new.envelopeRate ≤ rate ∧
      (0 < new.fastCutoff ∧ new.fastCutoff < new.envelopeRate / 2) ∧
      (0 < new.slowCutoff ∧ new.slowCutoff < new.envelopeRate / 2) ∧
      1 / (2 * Real.pi * new.envelopeRate) < new.timeConstant := by
  constructor
  · rintro ⟨o, h⟩
    obtain ⟨env, c, slow, h1, h2, h3, h4, h5, -⟩ := init_spec h
    obtain ⟨k1, k2, k3⟩ := detector_init_params h1
    unfold lowpass at h2
    split_ifs at h2 with h7
    exact ⟨h5, k1, ⟨k3, k2⟩, ⟨h7.2.1, h7.1⟩, h4⟩
  · rintro ⟨h1, h2, ⟨h3, h4⟩, ⟨h5, h6⟩, h7⟩
    obtain ⟨d, hd⟩ := detector_init_ok hw r h2 h4 h3
    obtain ⟨c, f, hc, hf⟩ := slow_init cfg h5 h6
    refine ⟨?_, ?_⟩
    rotate_left
    · unfold init
      rw [if_pos h1, hd]
      simp only [Option.bind_eq_bind, Option.bind_some, hc, hf]
      unfold Obj.setTimeConstant
      rw [if_pos h7]
      rfl

theorem checked_default : Params.default.Checked := by
  unfold Params.Checked Params.default; norm_num

theorem init_default_like (hw : ∀ k ∈ w, k.a0 ≠ 0) (hr : 100 ≤ rate) (hold : old.Checked)
    (s t : ℝ) : ∃ o, init cfg old { Params.default with sensitivity := s, rejectionTime := t }
      rate w r = some o := by
  rw [C34_init_succeeds_iff hw]
  refine ⟨hold, hr, ?_, ?_, ?_⟩
  · simp only [Params.default]; norm_num
  · simp only [Params.default]; norm_num
  · simp only [Params.default]
    have := Real.pi_gt_three
    rw [div_lt_one (by positivity)]
    linarith

/-- **C34 is false of the code (validation).** `Init` checks the parameters the object *had*
(`params_`, background_level_detector.cc:31-38) instead of its argument. So a default-constructed
detector accepts sensitivities outside the documented `(0, 1]`, and the object so made then rejects
(aborts on) the next `Init`, however valid its argument. -/
theorem C34_init_validation_violation (hw : ∀ k ∈ w, k.a0 ≠ 0) (hr : 100 ≤ rate) {s : ℝ}
    (hs : ¬ (0 < s ∧ s ≤ 1)) :
    ∃ o, init cfg Params.default { Params.default with sensitivity := s } rate w r = some o ∧
      o.params.sensitivity = s ∧
      ∀ new rate' w' r', init cfg o.params new rate' w' r' = none := by
  obtain ⟨o, ho⟩ := init_default_like (cfg := cfg) (r := r) hw hr checked_default s
    Params.default.rejectionTime
  refine ⟨o, ho, ?_, ?_⟩
  · obtain ⟨_, _, _, -, -, -, -, -, rfl⟩ := init_spec ho; rfl
  · intro new rate' w' r'
    unfold init
    rw [if_neg]
    obtain ⟨_, _, _, -, -, -, -, -, rfl⟩ := init_spec ho
    rintro ⟨-, -, -, -, h5, h6⟩
    exact hs ⟨h5, h6⟩

/-- Hypotheses of `C34_init_validation_violation` are met, e.g. for the sensitivity 2. -/
example : ∃ o, init cfg Params.default { Params.default with sensitivity := 2 } 48000
    [⟨1, 0, 0, 1, 0, 0⟩] r = some o ∧ o.params.sensitivity = 2 ∧
      init cfg o.params Params.default 48000 [⟨1, 0, 0, 1, 0, 0⟩] r = none := by
  obtain ⟨o, h1, h2, h3⟩ := C34_init_validation_violation (cfg := cfg) (r := r) (rate := 48000)
    (w := [⟨1, 0, 0, 1, 0, 0⟩]) (s := 2) (by simp) (by norm_num) (by norm_num)
  exact ⟨o, h1, h2, h3 _ _ _ _⟩

/-! ## The estimate -/

/-- **C34.** After `Init` and any history of calls, at any sample of any block, the estimate moves
only between itself and the smaller of the fast and the slow envelope; `MostRecent…` is the last
sample of the estimate. -/
theorem C34_moves_between (hi : init cfg old new rate w r = some o) {ops : List Op}
    (ho : o.run cfg ops = some o') (before : List (ℝ × ℝ)) (fast slow : ℝ) :
    let s := (runSamples (step o'.consts) o'.chan before).1
    let next := step o'.consts s (fast, slow)
    next.2 = next.1.prev ∧
      min s.prev (min fast slow) ≤ next.1.prev ∧ next.1.prev ≤ max s.prev (min fast slow) :=
  step_between (run_good ops (init_good hi) ho).1.ok _ _

theorem process_chan {x : List ℝ} (h : o.processBlock cfg x = some o') :
    ∃ xs, o'.chan = (runSamples (step o.consts) o.chan xs).1 := by
  simp only [Obj.processBlock, Option.bind_eq_bind, Option.bind_eq_some_iff, Option.pure_def,
    Option.some.injEq] at h
  obtain ⟨e, -, rfl⟩ := h
  exact ⟨_, rfl⟩

theorem toInt_range {x R : ℝ} (h0 : 0 ≤ x) (h1 : x ≤ R) : 0 ≤ toInt x ∧ toInt x ≤ ⌊R⌋ := by
  unfold toInt
  rw [if_pos h0]
  exact ⟨Int.floor_nonneg.2 h0, Int.floor_le_floor h1⟩

/-- **C34.** With rejection times of at least zero, of at most `R` envelope samples, the transient
counter stays between 0 and `R` (in particular the C++ `int` does not overflow), whatever the
history of calls. -/
theorem C34_counter_range (hi : init cfg old new rate w r = some o) {R : ℝ} (ops : List Op)
    (ht : ∀ t, t = new.rejectionTime ∨ Op.setRejectionTime t ∈ ops →
      0 ≤ t ∧ t * new.envelopeRate ≤ R)
    (ho : o.run cfg ops = some o') : 0 ≤ o'.chan.counter ∧ (o'.chan.counter : ℝ) ≤ R := by
  have hg := init_good hi
  have hrate : o.params.envelopeRate = new.envelopeRate := by
    obtain ⟨_, _, _, -, -, -, -, -, rfl⟩ := init_spec hi; rfl
  have h0 := toInt_range (mul_nonneg (ht _ (.inl rfl)).1 (hrate ▸ hg.rate).le) (ht _ (.inl rfl)).2
  have hR : 0 ≤ ⌊R⌋ := h0.1.trans h0.2
  have key : ∀ (ops : List Op) (o o' : Obj), o.Good → o.params.envelopeRate = new.envelopeRate →
      (∀ t, Op.setRejectionTime t ∈ ops → 0 ≤ t ∧ t * new.envelopeRate ≤ R) →
      (0 ≤ o.rejection ∧ o.rejection ≤ ⌊R⌋) → (0 ≤ o.chan.counter ∧ o.chan.counter ≤ ⌊R⌋) →
      o.run cfg ops = some o' → 0 ≤ o'.chan.counter ∧ o'.chan.counter ≤ ⌊R⌋ := by
    intro ops
    induction ops with
    | nil => intro o o' _ _ _ _ hc hr; cases hr; exact hc
    | cons op ops ih =>
      intro o o' hg he ht hrej hc hr
      obtain ⟨o1, h1, h2⟩ := run_cons.1 hr
      obtain ⟨g1, e1⟩ := apply_good hg h1
      have hrest : ∀ t, Op.setRejectionTime t ∈ ops → 0 ≤ t ∧ t * new.envelopeRate ≤ R :=
        fun t h => ht t (List.mem_cons_of_mem _ h)
      have main : (0 ≤ o1.rejection ∧ o1.rejection ≤ ⌊R⌋) ∧
          (0 ≤ o1.chan.counter ∧ o1.chan.counter ≤ ⌊R⌋) := by
        cases op with
        | process x =>
          refine ⟨?_, ?_⟩
          · simp only [Obj.apply, Obj.processBlock, Option.bind_eq_bind, Option.bind_eq_some_iff,
              Option.pure_def, Option.some.injEq] at h1
            obtain ⟨e, -, rfl⟩ := h1
            exact hrej
          · obtain ⟨xs, e⟩ := process_chan h1
            rw [e]
            exact run_counter (c := o.consts) hrej xs _ hc
        | reset => simp only [Obj.apply, Option.some.injEq] at h1; subst h1; exact ⟨hrej, le_rfl, hR⟩
        | setSlowCutoff hz =>
          simp only [Obj.apply, Obj.setSlowCutoff] at h1
          split_ifs at h1
          simp only [Option.bind_eq_bind, Option.bind_eq_some_iff,
            Option.pure_def, Option.some.injEq] at h1
          obtain ⟨c, -, l, -, rfl⟩ := h1
          exact ⟨hrej, hc⟩
        | setTimeConstant t =>
          obtain ⟨-, e⟩ := setTimeConstant_good hg.rate h1
          rw [e]; exact ⟨hrej, hc⟩
        | setSensitivity v =>
          simp only [Obj.apply, Option.some.injEq] at h1; subst h1; exact ⟨hrej, hc⟩
        | setRejectionTime t =>
          simp only [Obj.apply, Option.some.injEq] at h1; subst h1
          refine ⟨?_, hc⟩
          have := ht t List.mem_cons_self
          refine toInt_range (mul_nonneg this.1 hg.rate.le) ?_
          rw [he]; exact this.2
      exact ih o1 o' g1 (e1.trans he) hrest main.1 main.2 h2
  have h1 := key ops o o' hg hrate (fun t h => ht t (.inr h))
    (by obtain ⟨_, _, _, -, -, -, -, -, rfl⟩ := init_spec hi; exact h0)
    (by obtain ⟨_, _, _, -, -, -, -, -, rfl⟩ := init_spec hi; exact ⟨le_rfl, hR⟩) ho
  exact ⟨h1.1, Int.le_floor.1 h1.2⟩

/-! ## Transients -/

theorem hold_run {c : Consts} : ∀ (xs : List (ℝ × ℝ)) (s : Chan), s.burnIn = false →
    (xs.length : ℤ) ≤ s.counter → (xs.length : ℤ) ≤ c.rejection →
    (∀ x ∈ xs, c.factor * x.2 < x.1 ∨ s.prev - 1 / 10000 ≤ x.1) →
    (∀ y ∈ (runSamples (step c) s xs).2, y = s.prev) ∧ (runSamples (step c) s xs).1.prev = s.prev
  | [], _, _, _, _, _ => by simp [runSamples]
  | x :: xs, s, hb, h1, h2, hx => by
    simp only [List.mem_cons, forall_eq_or_imp] at hx
    simp only [List.length_cons, Nat.cast_add, Nat.cast_one] at h1 h2
    have e : ∃ n, step c s x = (⟨s.prev, n, false⟩, s.prev) ∧ (xs.length : ℤ) ≤ n := by
      by_cases ht : c.factor * x.2 < x.1
      · exact ⟨_, step_transient hb (by omega) ht, by omega⟩
      · exact ⟨_, step_hold hb (by omega) (le_of_not_gt ht) (hx.1.resolve_left ht), by omega⟩
    obtain ⟨n, e, hn⟩ := e
    obtain ⟨r1, r2⟩ := hold_run xs ⟨s.prev, n, false⟩ rfl hn (by omega) hx.2
    simp only [runSamples, e, List.mem_cons, forall_eq_or_imp, true_and]
    exact ⟨r1, r2⟩

/-- **C34.** Transients are rejected: outside the burn-in stage, from a sample whose fast envelope
exceeds the slow one divided by the sensitivity, the estimate does not move for the rejection
interval (`rejection` samples including this one), unless the estimate exceeds the instantaneous
level by more than `1e-4`. -/
theorem C34_transient_rejected (before : List (ℝ × ℝ))
    (hb : (runSamples (step o.consts) o.chan before).1.burnIn = false)
    {fast slow : ℝ} (hx : slow / o.params.sensitivity < fast) (xs : List (ℝ × ℝ))
    (hl : (xs.length : ℤ) < o.rejection)
    (hxs : ∀ x ∈ xs, (runSamples (step o.consts) o.chan before).1.prev - 1 / 10000 ≤ x.1) :
    ∀ y ∈ (runSamples (step o.consts) (runSamples (step o.consts) o.chan before).1
        ((fast, slow) :: xs)).2,
      y = (runSamples (step o.consts) o.chan before).1.prev := by
  generalize (runSamples (step o.consts) o.chan before).1 = s at *
  have ht : o.consts.factor * slow < fast := by
    have : o.consts.factor * slow = slow / o.params.sensitivity := by
      simp only [Obj.consts]; ring
    rw [this]; exact hx
  have hl' : (xs.length : ℤ) < o.consts.rejection := hl
  have e := step_transient (c := o.consts) (s := s) (x := (fast, slow)) hb (by omega) ht
  obtain ⟨r1, -⟩ := hold_run (c := o.consts) xs ⟨s.prev, o.consts.rejection - 1, false⟩ rfl
    (by dsimp only; omega) (by omega) (fun x hx => .inr (hxs x hx))
  simp only [runSamples, e, List.mem_cons, forall_eq_or_imp, true_and]
  exact r1

theorem countdown_run {c : Consts} : ∀ (xs : List (ℝ × ℝ)) (s : Chan), s.burnIn = false →
    (xs.length : ℤ) ≤ s.counter →
    (∀ x ∈ xs, x.1 ≤ c.factor * x.2 ∧ s.prev - 1 / 10000 ≤ x.1) →
    (runSamples (step c) s xs).1 = ⟨s.prev, s.counter - xs.length, false⟩
  | [], s, hb, _, _ => by cases s; simp_all [runSamples]
  | x :: xs, s, hb, h1, hx => by
    simp only [List.mem_cons, forall_eq_or_imp] at hx
    simp only [List.length_cons, Nat.cast_add, Nat.cast_one] at h1
    simp only [runSamples, step_hold hb (by omega) hx.1.1 hx.1.2]
    rw [countdown_run xs ⟨s.prev, s.counter - 1, false⟩ rfl (by dsimp only; omega) hx.2]
    simp only [List.length_cons, Nat.cast_add, Nat.cast_one, Chan.mk.injEq, and_true, true_and]
    omega

/-- **C34.** … and only for that long: once `rejection - 1` further samples have passed without a
new transient, or as soon as the estimate exceeds the instantaneous level by more than `1e-4`, the
estimate follows the smaller envelope again, by the fraction `1 - exp(-1 / (time constant * rate))`
of the difference. (A new transient within the interval starts it again.) -/
theorem C34_transient_ends (before : List (ℝ × ℝ))
    (hb : (runSamples (step o.consts) o.chan before).1.burnIn = false)
    {fast slow : ℝ} (hx : slow / o.params.sensitivity < fast) (xs : List (ℝ × ℝ))
    (hl : (xs.length : ℤ) < o.rejection)
    (hxs : ∀ x ∈ xs, x.1 ≤ x.2 / o.params.sensitivity ∧
      (runSamples (step o.consts) o.chan before).1.prev - 1 / 10000 ≤ x.1)
    {f v : ℝ} (hf : f ≤ v / o.params.sensitivity)
    (hend : (xs.length : ℤ) + 1 = o.rejection ∨
      f < (runSamples (step o.consts) o.chan before).1.prev - 1 / 10000) :
    let s := (runSamples (step o.consts) o.chan before).1
    (runSamples (step o.consts) s ((fast, slow) :: xs ++ [(f, v)])).1.prev =
      s.prev + o.coeff * (min f v - s.prev) := by
  intro s
  change s.burnIn = false at hb
  change ∀ x ∈ xs, x.1 ≤ x.2 / o.params.sensitivity ∧ s.prev - 1 / 10000 ≤ x.1 at hxs
  change (xs.length : ℤ) + 1 = o.rejection ∨ f < s.prev - 1 / 10000 at hend
  have hk : ∀ u : ℝ, o.consts.factor * u = u / o.params.sensitivity := by
    intro u; simp only [Obj.consts]; ring
  have hl' : (xs.length : ℤ) < o.consts.rejection := hl
  have hre : o.consts.rejection = o.rejection := rfl
  have e := step_transient (c := o.consts) (s := s) (x := (fast, slow)) hb (by omega)
    (by rw [hk]; exact hx)
  have e2 := countdown_run (c := o.consts) xs ⟨s.prev, o.consts.rejection - 1, false⟩ rfl
    (by dsimp only; omega) (fun x hx => ⟨by rw [hk]; exact (hxs x hx).1, (hxs x hx).2⟩)
  rw [List.cons_append, runSamples]
  simp only [e, runSamples_append, e2]
  simp only [runSamples]
  rw [step_follow rfl (by rw [hk]; exact hf)]
  · rw [min_comm]; rfl
  · dsimp only
    rcases hend with h | h
    · left; omega
    · right; exact h

/-- **C34.** The burn-in stage: it begins with `Init` and `Reset`; while it lasts no sample is
rejected, and the estimate follows ten times as fast as afterwards (the time constant is a tenth);
it ends with the first sample from which the estimate is more than `1e-4` above the fast envelope,
and does not come back. -/
theorem C34_burn_in (hi : init cfg old new rate w r = some o) {ops : List Op}
    (ho : o.run cfg ops = some o') (before : List (ℝ × ℝ)) (fast slow : ℝ) :
    (o.chan.burnIn = true ∧ (o'.reset cfg).chan.burnIn = true) ∧
    (let s := (runSamples (step o'.consts) o'.chan before).1
     let next := (step o'.consts s (fast, slow)).1
     (s.burnIn = true → next.counter = 0 ∧
        next.prev = s.prev + o'.burnCoeff * (min fast slow - s.prev) ∧
        (next.burnIn = true ↔ s.prev - 1 / 10000 ≤ fast)) ∧
     (s.burnIn = false → next.burnIn = false)) := by
  refine ⟨⟨?_, rfl⟩, ?_, ?_⟩
  · obtain ⟨_, _, _, -, -, -, -, -, rfl⟩ := init_spec hi; rfl
  · intro hb
    obtain ⟨h1, h2, h3⟩ := step_burnIn (c := o'.consts) hb (fast, slow)
    refine ⟨h1, ?_, h3⟩
    rw [min_comm]
    exact h2
  · intro hb
    exact step_burnIn_false _ hb _

/-- **C34.** The coefficients are those of the time constant in force, at all times. -/
theorem C34_coefficients (hi : init cfg old new rate w r = some o) (ops : List Op)
    (ho : o.run cfg ops = some o') :
    o'.params.envelopeRate = new.envelopeRate ∧
    1 / (2 * Real.pi * new.envelopeRate) < o'.params.timeConstant ∧
    o'.coeff = 1 - Real.exp (-1 / (o'.params.timeConstant * new.envelopeRate)) ∧
    o'.burnCoeff = 1 - Real.exp (-10 / (o'.params.timeConstant * new.envelopeRate)) := by
  have h10 : ∀ t : ℝ, firstOrderCoefficient (t / 10) new.envelopeRate =
      1 - Real.exp (-10 / (t * new.envelopeRate)) := by
    intro t
    unfold firstOrderCoefficient
    congr 2
    rw [div_mul_eq_mul_div, div_div_eq_mul_div]
    norm_num
  have key : ∀ (ops : List Op) (o o' : Obj), o.Good →
      (o.params.envelopeRate = new.envelopeRate ∧
      1 / (2 * Real.pi * new.envelopeRate) < o.params.timeConstant ∧
      o.coeff = firstOrderCoefficient o.params.timeConstant new.envelopeRate ∧
      o.burnCoeff = firstOrderCoefficient (o.params.timeConstant / 10) new.envelopeRate) →
      o.run cfg ops = some o' →
      (o'.params.envelopeRate = new.envelopeRate ∧
      1 / (2 * Real.pi * new.envelopeRate) < o'.params.timeConstant ∧
      o'.coeff = firstOrderCoefficient o'.params.timeConstant new.envelopeRate ∧
      o'.burnCoeff = firstOrderCoefficient (o'.params.timeConstant / 10) new.envelopeRate) := by
    intro ops
    induction ops with
    | nil => intro o o' _ h hr; cases hr; exact h
    | cons op ops ih =>
      intro o o' hg h hr
      obtain ⟨o1, h1, h2⟩ := run_cons.1 hr
      refine ih o1 o' (apply_good hg h1).1 ?_ h2
      cases op with
      | process x =>
        simp only [Obj.apply, Obj.processBlock, Option.bind_eq_bind, Option.bind_eq_some_iff,
          Option.pure_def, Option.some.injEq] at h1
        obtain ⟨e, -, rfl⟩ := h1
        exact h
      | reset => simp only [Obj.apply, Option.some.injEq] at h1; subst h1; exact h
      | setSlowCutoff hz =>
        simp only [Obj.apply, Obj.setSlowCutoff] at h1
        split_ifs at h1
        simp only [Option.bind_eq_bind, Option.bind_eq_some_iff,
          Option.pure_def, Option.some.injEq] at h1
        obtain ⟨c, -, l, -, rfl⟩ := h1
        exact h
      | setTimeConstant t =>
        simp only [Obj.apply, Obj.setTimeConstant] at h1
        split_ifs at h1 with h3
        cases h1
        obtain ⟨e, -⟩ := h
        dsimp only
        rw [e] at h3 ⊢
        exact ⟨rfl, h3, rfl, rfl⟩
      | setSensitivity v => simp only [Obj.apply, Option.some.injEq] at h1; subst h1; exact h
      | setRejectionTime t => simp only [Obj.apply, Option.some.injEq] at h1; subst h1; exact h
  have h := key ops o o' (init_good hi) (by
    obtain ⟨_, _, _, -, -, -, ht, -, rfl⟩ := init_spec hi
    exact ⟨rfl, ht, rfl, rfl⟩) ho
  rw [← h10]
  exact h

/-- **C34.** Convergence from `Init` or `Reset`: while both envelopes are the constant `L ≥ 0`, the
estimate after `n` samples is `L (1 - exp(-10 n / (time constant * rate)))`. -/
theorem C34_constant_level (hi : init cfg old new rate w r = some o) {L : ℝ} (hL : 0 ≤ L) (n : ℕ) :
    (runSamples (step o.consts) o.chan (List.replicate n (L, L))).1.prev =
      L * (1 - Real.exp (-(10 * n) / (new.timeConstant * new.envelopeRate))) := by
  obtain ⟨-, -, -, hb⟩ := C34_coefficients hi [] (o' := o) rfl
  have hp : o.params.timeConstant = new.timeConstant := by
    obtain ⟨_, _, _, -, -, -, -, -, rfl⟩ := init_spec hi; rfl
  rw [hp] at hb
  have hs : o.chan = ⟨0, 0, true⟩ := by
    obtain ⟨_, _, _, -, -, -, -, -, rfl⟩ := init_spec hi; rfl
  rw [hs]
  have hok := (init_good hi).ok
  have key : ∀ n : ℕ, (runSamples (step o.consts) ⟨0, 0, true⟩ (List.replicate n (L, L))).1 =
      ⟨L * (1 - (1 - o.burnCoeff) ^ n), 0, true⟩ := by
    intro n
    induction n with
    | zero => simp [runSamples]
    | succ n ih =>
      rw [List.replicate_succ', runSamples_append, ih]
      simp only [runSamples]
      obtain ⟨h1, h2, h3⟩ := step_burnIn (c := o.consts)
        (s := ⟨L * (1 - (1 - o.burnCoeff) ^ n), 0, true⟩) rfl (L, L)
      have hle : L * (1 - (1 - o.burnCoeff) ^ n) - 1 / 10000 ≤ L := by
        have : 0 ≤ (1 - o.burnCoeff) ^ n := pow_nonneg (by linarith [show o.burnCoeff < 1 from hok.4]) n
        nlinarith
      have e2 : (step o.consts ⟨L * (1 - (1 - o.burnCoeff) ^ n), 0, true⟩ (L, L)).1.prev =
        L * (1 - (1 - o.burnCoeff) ^ n) + o.burnCoeff * (min L L -
          L * (1 - (1 - o.burnCoeff) ^ n)) := h2
      have e3 := h3.2 hle
      cases hq : (step o.consts ⟨L * (1 - (1 - o.burnCoeff) ^ n), 0, true⟩ (L, L)).1 with
      | mk a b c =>
        rw [hq] at h1 e2 e3
        simp only at h1 e2 e3
        rw [h1, e2, e3]
        simp only [min_self, Chan.mk.injEq, and_true]
        ring
  rw [key n, hb]
  dsimp only
  rw [sub_sub_cancel, ← Real.exp_nat_mul]
  congr 3
  ring

/-- **C34.** Bounds: with a slow cutoff below a quarter of the envelope rate, whatever the envelope
of the input since `Init` (it is nonnegative), the estimate is between zero and the largest value of
the envelope so far, and the reported levels are at least -240 dB. -/
theorem C34_range (hi : init cfg old new rate w r = some o)
    (h4 : 4 * new.slowCutoff < new.envelopeRate) {B : ℝ} (fast : List ℝ)
    (hf : ∀ x ∈ fast, 0 ≤ x ∧ x ≤ B) (hB : 0 ≤ B) :
    let o' := o.processEnvelope cfg fast
    (0 ≤ o'.chan.prev ∧ o'.chan.prev ≤ B) ∧
      ∀ y ∈ o'.backgroundDb, -240 ≤ y ∧ y ≤ toDb B := by
  intro o'
  obtain ⟨p, g, hp0, hp1, hg, hs⟩ := slow_of_init hi h4
  have hover := slow_overdamped hp0 hp1 hg
  have hslow := runSamples_range hover (m := 0) (M := B) fast resetState
    (hover.reset_range ⟨le_rfl, hB⟩) hf
  rw [← hs] at hslow
  have hc : o.chan = ⟨0, 0, true⟩ := by
    obtain ⟨_, _, _, -, -, -, -, -, rfl⟩ := init_spec hi; rfl
  have hrun := run_range (init_good hi).ok (m := 0) (M := B)
    (fast.zip (runSamples (Ladder.processSample cfg) o.slow fast).2) o.chan
    (by rw [hc]; exact ⟨le_rfl, hB⟩) (by
      intro x hx
      obtain ⟨a, b⟩ := x
      obtain ⟨h1, h2⟩ := List.of_mem_zip hx
      exact ⟨(hf a h1).1, (hslow b h2).1, (min_le_left _ _).trans (hf a h1).2⟩)
  refine ⟨hrun.1, ?_⟩
  intro y hy
  simp only [o', Obj.processEnvelope, List.mem_map] at hy
  obtain ⟨z, hz, rfl⟩ := hy
  obtain ⟨z0, zB⟩ := hrun.2 z hz
  have hl : 0 < Real.log 10 := Real.log_pos (by norm_num)
  unfold toDb
  constructor
  · have h1 : Real.log (1 / 10 ^ 12) ≤ Real.log (z + 1 / 10 ^ 12) :=
      Real.log_le_log (by norm_num) (by linarith)
    rw [one_div, Real.log_inv, Real.log_pow] at h1
    push_cast at h1
    rw [div_mul_eq_mul_div, le_div_iff₀ hl]
    linarith
  · refine mul_le_mul_of_nonneg_left ?_ (by positivity)
    exact Real.log_le_log (by positivity) (by linarith)

/-! ## Blocks and `Reset` -/

/-- `ProcessBlock` on consecutive blocks; collects what the two getters return after each. -/
noncomputable def Obj.processAll (cfg : Ladder.Config) (o : Obj) : List (List ℝ) →
    Option (Obj × List (List ℝ) × List (List ℝ))
  | [] => some (o, [], [])
  | x :: xs => do
    let o1 ← o.processBlock cfg x
    let (o2, fs, bs) ← o1.processAll cfg xs
    return (o2, o1.fastDb :: fs, o1.backgroundDb :: bs)

theorem processEnvelope_append (o : Obj) (e : Detector) (u v : List ℝ) :
    ({ (o.processEnvelope cfg u) with envelope := e }).processEnvelope cfg v =
      { ({ o with envelope := e }).processEnvelope cfg (u ++ v) with
        fastDb := v.map toDb
        backgroundDb := (({ (o.processEnvelope cfg u) with
          envelope := e }).processEnvelope cfg v).backgroundDb } ∧
    (({ o with envelope := e }).processEnvelope cfg (u ++ v)).backgroundDb =
      (o.processEnvelope cfg u).backgroundDb ++
        (({ (o.processEnvelope cfg u) with
          envelope := e }).processEnvelope cfg v).backgroundDb := by
  have hz : (u ++ v).zip (runSamples (Ladder.processSample cfg) o.slow (u ++ v)).2 =
      u.zip (runSamples (Ladder.processSample cfg) o.slow u).2 ++
        v.zip (runSamples (Ladder.processSample cfg)
          (runSamples (Ladder.processSample cfg) o.slow u).1 v).2 := by
    rw [runSamples_append]
    exact List.zip_append (by simp)
  constructor
  · unfold Obj.processEnvelope
    dsimp only
    rw [hz, runSamples_append, runSamples_append]
    rfl
  · unfold Obj.processEnvelope
    dsimp only
    rw [hz]
    simp only [Obj.consts]
    rw [runSamples_append]
    simp

/-- **C34.** Block-split invariance: cutting the input differently changes neither the concatenated
instantaneous and background levels nor the state. -/
theorem C34_blocks (h : o.envelope.Ok) (x : List ℝ) (bs : List (List ℝ)) :
    ∃ o1 fs ls o2, o.processAll cfg (x :: bs) = some (o1, fs, ls) ∧
      o.processBlock cfg (x :: bs).flatten = some o2 ∧
      o2.fastDb = fs.flatten ∧ o2.backgroundDb = ls.flatten ∧
      o2 = { o1 with fastDb := o2.fastDb, backgroundDb := o2.backgroundDb } := by
  induction bs generalizing o x with
  | nil =>
    obtain ⟨d1, u, -, -, h1, -⟩ := Detector.process_append h x []
    obtain ⟨q, hq⟩ : ∃ q, q = ({ o with envelope := d1 }).processEnvelope cfg u := ⟨_, rfl⟩
    refine ⟨q, [q.fastDb], [q.backgroundDb], q, ?_, ?_, ?_, ?_, rfl⟩
    · simp only [Obj.processAll, Obj.processBlock, h1, Option.bind_eq_bind, Option.bind_some,
        Option.pure_def, hq]
    · simp [Obj.processBlock, h1, hq]
    · simp
    · simp
  | cons b bs ih =>
    obtain ⟨d1, u, d2, v, h1, h2, h3, k1, k2⟩ := Detector.process_append h x (b :: bs).flatten
    have hp : o.processBlock cfg x = some (({ o with envelope := d1 }).processEnvelope cfg u) := by
      simp [Obj.processBlock, h1]
    obtain ⟨o1, fs, ls, o2, e1, e2, e3, e4, e5⟩ :=
      ih (o := ({ o with envelope := d1 }).processEnvelope cfg u) k1 b
    have hq : o.processBlock cfg (x :: b :: bs).flatten =
        some (({ o with envelope := d2 }).processEnvelope cfg (u ++ v)) := by
      rw [List.flatten_cons]
      simp only [Obj.processBlock, h3, Option.bind_eq_bind, Option.bind_some, Option.pure_def]
    have hr : (({ o with envelope := d1 }).processEnvelope cfg u).processBlock cfg (b :: bs).flatten
        = some (({ (({ o with envelope := d1 }).processEnvelope cfg u) with
            envelope := d2 }).processEnvelope cfg v) := by
      have : (({ o with envelope := d1 }).processEnvelope cfg u).envelope = d1 := rfl
      simp only [Obj.processBlock, this, h2, Option.bind_eq_bind, Option.bind_some, Option.pure_def]
    rw [hr] at e2
    cases e2
    obtain ⟨a1, a2⟩ := processEnvelope_append (cfg := cfg) ({ o with envelope := d1 }) d2 u v
    dsimp only at a1 a2
    refine ⟨o1, (({ o with envelope := d1 }).processEnvelope cfg u).fastDb :: fs,
      (({ o with envelope := d1 }).processEnvelope cfg u).backgroundDb :: ls,
      ({ o with envelope := d2 }).processEnvelope cfg (u ++ v), ?_, hq, ?_, ?_, ?_⟩
    rotate_left 1
    · exact List.map_append.trans (congrArg₂ (· ++ ·) rfl e3) |>.trans (List.flatten_cons).symm
    · exact (a2.trans (congrArg₂ (· ++ ·) rfl e4)).trans (List.flatten_cons).symm
    · rw [a1] at e5
      have := congrArg (fun q : Obj => ({ q with
        fastDb := (({ o with envelope := d2 }).processEnvelope cfg (u ++ v)).fastDb
        backgroundDb := (({ o with envelope := d2 }).processEnvelope cfg (u ++ v)).backgroundDb } : Obj)) e5
      exact this
    · simp only [Obj.processAll, hp, Option.bind_eq_bind, Option.bind_some, Option.pure_def]
      simp only [Obj.processAll, Option.bind_eq_bind, Option.pure_def] at e1
      rw [e1]
      rfl

/-- **C34.** `Reset` after processing any blocks restores the state after `Init` (all of it but the
envelope detector's most recent value, which this class neither reads nor exposes). -/
theorem C34_reset (hi : init cfg old new rate w r = some o) (blocks : List (List ℝ))
    (ho : o.run cfg (blocks.map Op.process) = some o') :
    ∃ m, o'.reset cfg = { o with envelope := { o.envelope with mostRecent := m } } := by
  have key : ∀ (blocks : List (List ℝ)) (a : Obj),
      a.slow.smoothing = 0 → a.run cfg (blocks.map Op.process) = some o' →
      ∃ m st, o' = { a with
          envelope := o'.envelope, slow := { a.slow with state := st }, chan := o'.chan,
          fastDb := o'.fastDb, backgroundDb := o'.backgroundDb } ∧
        o'.envelope.reset = { a.envelope.reset with mostRecent := m } := by
    intro blocks
    induction blocks with
    | nil =>
      intro a _ h
      cases h
      exact ⟨_, _, rfl, rfl⟩
    | cons x xs ih =>
      intro a hs h
      rw [List.map_cons, run_cons] at h
      obtain ⟨a1, h1, h2⟩ := h
      simp only [Obj.apply, Obj.processBlock, Option.bind_eq_bind, Option.bind_eq_some_iff,
        Option.pure_def, Option.some.injEq] at h1
      obtain ⟨⟨d, f⟩, hd, rfl⟩ := h1
      obtain ⟨st, e⟩ := ladder_run_state (cfg := cfg) f hs
      obtain ⟨m1, e1⟩ := detector_reset_process hd
      obtain ⟨m, st', e2, e3⟩ := ih _ (by
        simp only [Obj.processEnvelope]; rw [e]; exact hs) h2
      refine ⟨m, st', ?_, ?_⟩
      · rw [e2]
        simp only [Obj.processEnvelope]
        rw [e]
      · rw [e3]
        simp only [Obj.processEnvelope]
        rw [e1]
  obtain ⟨env, c, slow, h1, h2, h3, ht, -, he⟩ := init_spec hi
  obtain ⟨m, st, e1, e2⟩ := key blocks o (by rw [he]; rfl) ho
  refine ⟨m, ?_⟩
  unfold Obj.reset
  rw [e2, e1]
  have hfix : Ladder.reset cfg { o.slow with state := st } = o.slow := by rw [he]; rfl
  dsimp only
  rw [hfix]
  rw [he]
  dsimp only
  rw [detector_reset_reset]

/-! ## Contract violations -/

/-- **C34 is false of the code (acceptance of loud noises).** "Loud noises longer than
`transient_rejection_time` will be accepted as a new louder background level"
(background_level_detector.h:78-79). Every sample that counts as transient starts the interval
again; with the sensitivity 1, which is allowed, a constant envelope `L` counts as transient for
ever, since the slow envelope stays below it. After any signal `before` of envelope values at most
`L` that ended the burn-in stage, the estimate never moves again, however long the level `L` lasts;
and there are such signals, with an estimate below `L`. -/
theorem C34_acceptance_violation (hi : init cfg old new rate w r = some o)
    (h4 : 4 * new.slowCutoff < new.envelopeRate) (hs1 : new.sensitivity = 1)
    (ht : 1 ≤ new.rejectionTime * new.envelopeRate) :
    (∀ (L : ℝ) (before : List ℝ), 0 < L → (∀ x ∈ before, x ≤ L) →
      (o.processEnvelope cfg before).chan.burnIn = false →
      ∀ n, (o.processEnvelope cfg (before ++ List.replicate n L)).chan.prev =
        (o.processEnvelope cfg before).chan.prev) ∧
    ∃ (L : ℝ) (before : List ℝ), 0 < L ∧ (∀ x ∈ before, 0 ≤ x ∧ x ≤ L) ∧
      (o.processEnvelope cfg before).chan.burnIn = false ∧
      (o.processEnvelope cfg before).chan.prev < L := by
  obtain ⟨p, g, hp0, hp1, hg, hs⟩ := slow_of_init hi h4
  have hover := slow_overdamped hp0 hp1 hg
  have hcf : o.consts.factor = 1 := by
    obtain ⟨_, _, _, -, -, -, -, -, rfl⟩ := init_spec hi
    simp [Obj.consts, hs1]
  have hrej : 1 ≤ o.consts.rejection := by
    obtain ⟨_, _, _, -, -, -, -, -, rfl⟩ := init_spec hi
    simp only [Obj.consts, toInt]
    rw [if_pos (by linarith)]
    exact Int.le_floor.2 (by exact_mod_cast ht)
  constructor
  · intro L before hL hbef hb n
    induction n with
    | zero => simp
    | succ n ih =>
      rw [← ih]
      have hz : ∀ n : ℕ, (o.processEnvelope cfg (before ++ List.replicate n L)).chan.burnIn = false := by
        intro n
        have hzip := (processEnvelope_append (cfg := cfg) o o.envelope before (List.replicate n L)).1
        have := congrArg (fun q : Obj => q.chan.burnIn) hzip
        dsimp only at this
        rw [← this]
        exact run_burnIn_false _ _ _ hb
      have hz0 := hz n
      generalize hl : before ++ List.replicate n L = l at *
      have hlist : before ++ List.replicate (n + 1) L = l ++ [L] := by
        rw [List.replicate_succ', ← List.append_assoc, hl]
      rw [hlist]
      have hlL : ∀ x ∈ l ++ [L], x ≤ L := by
        intro x hx
        rw [← hl] at hx
        simp only [List.mem_append, List.mem_replicate, List.mem_singleton] at hx
        rcases hx with (h | h) | h
        · exact hbef x h
        · exact h.2.le
        · exact h.le
      have hlt := run_lt (M := L) hover hp0 (l ++ [L]) resetState (by simpa [resetState] using hL)
        (by simpa [resetState] using hL) (by simpa [resetState] using hL) hlL
      have hsl := hs (l ++ [L])
      rw [← hsl] at hlt
      rw [runSamples_append] at hlt
      simp only [runSamples] at hlt
      have hlast := hlt _ (List.mem_append_right _ (List.mem_singleton_self _))
      unfold Obj.processEnvelope at hz0 ⊢
      dsimp only at hz0 ⊢
      rw [runSamples_append, List.zip_append (by simp), runSamples_append]
      simp only [runSamples, List.zip_cons_cons, List.zip_nil_right]
      rw [step_transient hz0 (by omega) (by rw [hcf, one_mul]; exact hlast)]
  · have hok := (init_good hi).ok
    have hg0 : 0 < g := by
      rw [hg]
      have : 0 < (1 - p) * (1 - p) := mul_pos (by linarith) (by linarith)
      linarith
    have hg1 : g < 1 := by rw [hg]; nlinarith
    obtain ⟨b, hbdef⟩ : ∃ b, b = o.consts.burnCoeff := ⟨_, rfl⟩
    have hb0 : 0 < b := hbdef ▸ hok.3
    have hb1 : b < 1 := hbdef ▸ hok.4
    have hbg : 0 < b * g := mul_pos hb0 hg0
    have hbg1 : b * g < 1 := by nlinarith
    obtain ⟨L, hL⟩ : ∃ L, L = 1 / (b * g) := ⟨_, rfl⟩
    have hL0 : 0 < L := by rw [hL]; positivity
    have hbL : b * (g * L) = 1 := by rw [hL]; field_simp
    have hL1 : 1 < L := by rw [hL, lt_div_iff₀ hbg]; linarith
    have hchan : o.chan = ⟨0, 0, true⟩ := by
      obtain ⟨_, _, _, -, -, -, -, -, rfl⟩ := init_spec hi; rfl
    obtain ⟨v, hv⟩ : ∃ v, (runSamples (Ladder.processSample cfg) o.slow [L, 0]).2 = [g * L, v] := by
      rw [hs]
      have hfirst : (Biquad.step (⟨g, 2 * g, g, -(2 * p), p * p⟩ : Biquad.Filter ℝ) resetState L).2 =
          g * L := by simp only [Biquad.step, resetState]; ring
      exact ⟨_, by simp only [runSamples]; rw [hfirst]⟩
    have hvpos : 0 ≤ v := by
      have := runSamples_range hover (m := 0) (M := L) [L, 0] resetState
        (hover.reset_range ⟨le_rfl, hL0.le⟩) (by simp [hL0.le])
      rw [← hs, hv] at this
      exact (this v (by simp)).1
    have h1 : step o.consts ⟨0, 0, true⟩ (L, g * L) = (⟨1, 0, true⟩, 1) := by
      obtain ⟨a1, a2, a3⟩ := step_burnIn (c := o.consts) (s := ⟨0, 0, true⟩) rfl (L, g * L)
      have a3' := a3.2 (by dsimp only; linarith)
      have hm : min (g * L) L = g * L := min_eq_left (by nlinarith)
      dsimp only at a2
      rw [hm, ← hbdef, sub_zero, zero_add, hbL] at a2
      have a2' : (step o.consts ⟨0, 0, true⟩ (L, g * L)).1.prev = 1 := a2
      cases hq : step o.consts ⟨0, 0, true⟩ (L, g * L) with
      | mk c y =>
        rw [hq] at a1 a2 a3' a2'
        cases c
        simp_all
    have h2 : (step o.consts ⟨1, 0, true⟩ (0, v)).1.burnIn = false ∧
        (step o.consts ⟨1, 0, true⟩ (0, v)).1.prev < 1 := by
      obtain ⟨a1, a2, a3⟩ := step_burnIn (c := o.consts) (s := ⟨1, 0, true⟩) rfl (0, v)
      constructor
      · rw [← Bool.not_eq_true, a3]; norm_num
      · have a2' : (step o.consts ⟨1, 0, true⟩ (0, v)).1.prev = _ := a2
        rw [a2', ← hbdef]
        dsimp only
        rw [min_eq_right hvpos]; linarith
    refine ⟨L, [L, 0], hL0, by simp [hL0.le], ?_, ?_⟩
    · unfold Obj.processEnvelope
      dsimp only
      rw [hv, hchan]
      simp only [List.zip_cons_cons, List.zip_nil_right, runSamples, h1]
      exact h2.1
    · unfold Obj.processEnvelope
      dsimp only
      rw [hv, hchan]
      simp only [List.zip_cons_cons, List.zip_nil_right, runSamples, h1]
      exact h2.2.trans hL1

theorem stuck_run {c : Consts} : ∀ (xs : List (ℝ × ℝ)) (s : Chan), s.burnIn = false →
    s.counter < 0 → (∀ x ∈ xs, x.1 ≤ c.factor * x.2 ∧ s.prev - 1 / 10000 ≤ x.1) →
    (runSamples (step c) s xs).1 = ⟨s.prev, s.counter - xs.length, false⟩
  | [], s, hb, _, _ => by cases s; simp_all [runSamples]
  | x :: xs, s, hb, h1, hx => by
    simp only [List.mem_cons, forall_eq_or_imp] at hx
    simp only [runSamples, step_hold hb (by omega) hx.1.1 hx.1.2]
    rw [stuck_run xs ⟨s.prev, s.counter - 1, false⟩ rfl (by dsimp only; omega) hx.2]
    simp only [List.length_cons, Nat.cast_add, Nat.cast_one, Chan.mk.injEq, and_true, true_and]
    omega

/-- **C34 is false of the code (unchecked rejection time).** `SetTransientRejectionTime` ("must be
positive") and `Init` accept negative times. Then one transient freezes the estimate for as long as
the level does not fall below it, and the counter runs away from zero without bound (a C++ `int`
eventually overflows). -/
theorem C34_rejection_time_violation {t : ℝ} (ht : t * o.params.envelopeRate ≤ -1)
    (hb : o.chan.burnIn = false) {fast slow : ℝ} (hx : slow / o.params.sensitivity < fast)
    (xs : List (ℝ × ℝ)) (hxs : ∀ x ∈ xs, x.1 ≤ x.2 / o.params.sensitivity ∧
      o.chan.prev - 1 / 10000 ≤ x.1) :
    ∃ o1 : Obj, o.apply cfg (.setRejectionTime t) = some o1 ∧
      (runSamples (step o1.consts) o1.chan ((fast, slow) :: xs)).1.prev = o.chan.prev ∧
      (runSamples (step o1.consts) o1.chan ((fast, slow) :: xs)).1.counter ≤ -1 - xs.length := by
  refine ⟨_, rfl, ?_⟩
  have hrej : (o.setRejectionTime t).consts.rejection ≤ -1 := by
    simp only [Obj.consts, Obj.setRejectionTime, toInt]
    rw [if_neg (by linarith)]
    exact Int.ceil_le.2 (by exact_mod_cast ht)
  have hk : ∀ u : ℝ, (o.setRejectionTime t).consts.factor * u = u / o.params.sensitivity := by
    intro u; simp only [Obj.consts, Obj.setRejectionTime]; ring
  have hch : (o.setRejectionTime t).chan = o.chan := rfl
  generalize (o.setRejectionTime t).consts = c at *
  rw [hch]
  simp only [runSamples]
  rw [step_transient hb (by omega) (by rw [hk]; exact hx)]
  rw [stuck_run xs _ rfl (by dsimp only; omega) (fun x hx => by rw [hk]; exact hxs x hx)]
  dsimp only
  exact ⟨rfl, by omega⟩

/-- **C34 is false of the code (unchecked sensitivity).** `SetTransientSensitivity` ("must be on the
range (0, 1]") accepts negative values, which freeze the estimate for ever: every sample with
nonnegative slow and positive fast envelope then counts as transient. -/
theorem C34_sensitivity_violation {v : ℝ} (hv : v < 0) (hr : o.rejection ≠ 0)
    (hb : o.chan.burnIn = false) (xs : List (ℝ × ℝ)) (hxs : ∀ x ∈ xs, 0 < x.1 ∧ 0 ≤ x.2) :
    ∃ o1 : Obj, o.apply cfg (.setSensitivity v) = some o1 ∧
      (runSamples (step o1.consts) o1.chan xs).1.prev = o.chan.prev := by
  refine ⟨_, rfl, ?_⟩
  have hf : (o.setSensitivity v).consts.factor < 0 := one_div_neg.2 hv
  have hr' : (o.setSensitivity v).consts.rejection ≠ 0 := hr
  have hch : (o.setSensitivity v).chan = o.chan := rfl
  generalize (o.setSensitivity v).consts = c at *
  rw [hch]
  have key : ∀ (xs : List (ℝ × ℝ)) (s : Chan), s.burnIn = false → (∀ x ∈ xs, 0 < x.1 ∧ 0 ≤ x.2) →
      (runSamples (step c) s xs).1.prev = s.prev := by
    intro xs
    induction xs with
    | nil => intro s _ _; rfl
    | cons x xs ih =>
      intro s hb hx
      simp only [List.mem_cons, forall_eq_or_imp] at hx
      simp only [runSamples]
      rw [step_transient hb hr' (by nlinarith [hx.1.1, hx.1.2])]
      exact ih _ rfl hx.2
  exact key xs o.chan hb hxs

/-! ## The hypotheses are met -/

/-- The default parameters at 48 kHz satisfy the hypotheses of `C34_range`, `C34_constant_level`,
`C34_counter_range` and, with sensitivity 1, of `C34_acceptance_violation`. -/
example : (∃ o, init cfg Params.default Params.default 48000 [⟨1, 0, 0, 1, 0, 0⟩] r = some o) ∧
    (∃ o, init cfg Params.default { Params.default with sensitivity := 1 } 48000
      [⟨1, 0, 0, 1, 0, 0⟩] r = some o) ∧
    4 * Params.default.slowCutoff < Params.default.envelopeRate ∧
    1 ≤ Params.default.rejectionTime * Params.default.envelopeRate := by
  refine ⟨?_, ?_, ?_, ?_⟩
  · exact init_default_like (by simp) (by norm_num) checked_default _ _
  · exact init_default_like (by simp) (by norm_num) checked_default _ _
  all_goals simp only [Params.default]; norm_num

end Verif.BackgroundLevel
