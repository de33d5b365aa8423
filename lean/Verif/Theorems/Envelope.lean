import Verif.Proof.Envelope
import Verif.Theorems.Resampler
import Verif.Theorems.Biquad

/-!
# C32: envelope followers

The attack/release envelope is used by the dynamic range control; its time constants are
interpolated by a lowpass at `interpolation_rate_hz` (200 Hz by default). The theorems assume that the
sample rate is at least six times this (1200 Hz); the code accepts sample rates down to twice it.
-/

namespace Verif.Envelope
open Verif.Biquad Verif.Stream

section AttackReleaseEnvelope
variable {attack release hz rate : ℝ}

/-- **C32.** After every history of samples, parameter changes and resets, the next output lies
between the previous output and the magnitude of the sample (it moves toward the input and never
overshoots), the envelope is nonnegative, and it is not larger than the largest magnitude seen. -/
theorem C32_range (ha : 0 < attack) (hl : 0 < release) (h0 : 0 < hz) (h1 : 6 * hz ≤ rate)
    (ops : List Op) (hv : ∀ o ∈ ops, match o with
      | .setAttack t => 0 < t | .setRelease t => 0 < t | _ => True) :
    ∃ s, AttackRelease.make attack release hz rate = some s ∧
      0 ≤ (s.run ops).envelope ∧
      (∀ B, 0 ≤ B → (∀ x, Op.output x ∈ ops → |x| ≤ B) → (s.run ops).envelope ≤ B) ∧
      ∀ x, ((s.run ops).output x).2 = ((s.run ops).apply (.output x)).envelope ∧
        min (s.run ops).envelope |x| ≤ ((s.run ops).output x).2 ∧
        ((s.run ops).output x).2 ≤ max (s.run ops).envelope |x| := by
  obtain ⟨s, p, q, hs, hg, hr, -⟩ := make_good ha hl h0 h1
  have hv' : ∀ o ∈ ops, o.Valid := by
    intro o ho; have := hv o ho; cases o <;> simpa [Op.Valid] using this
  have env0 : s.envelope = 0 := by rw [hr]; rfl
  have key : ∀ (ops : List Op) (s : AttackRelease), Good p q s → 0 ≤ s.envelope →
      (∀ o ∈ ops, o.Valid) → 0 ≤ (s.run ops).envelope ∧
      ∀ B, s.envelope ≤ B → (∀ x, Op.output x ∈ ops → |x| ≤ B) → (s.run ops).envelope ≤ B := by
    intro ops
    induction ops with
    | nil => intro s _ h _; exact ⟨h, fun B hB _ => hB⟩
    | cons o ops ih =>
      intro s hg h hv
      simp only [List.mem_cons, forall_eq_or_imp] at hv
      have step : 0 ≤ (s.apply o).envelope ∧
          ∀ B, s.envelope ≤ B → (∀ x, Op.output x ∈ o :: ops → |x| ≤ B) →
            (s.apply o).envelope ≤ B := by
        cases o with
        | output x =>
          obtain ⟨h1, h2⟩ := hg.output_range x
          refine ⟨le_trans (le_min h (abs_nonneg x)) h1, fun B hB hx => ?_⟩
          exact h2.trans (max_le hB (hx x (by simp)))
        | setAttack t => exact ⟨h, fun B hB _ => hB⟩
        | setRelease t => exact ⟨h, fun B hB _ => hB⟩
        | reset => exact ⟨le_rfl, fun B hB _ => h.trans hB⟩
      obtain ⟨k1, k2⟩ := ih (s.apply o) (hg.apply hv.1) step.1 hv.2
      exact ⟨k1, fun B hB hx => k2 B (step.2 B hB hx) fun x hx' => hx x (by simp [hx'])⟩
  obtain ⟨k1, k2⟩ := key ops s hg env0.ge hv'
  refine ⟨s, hs, k1, fun B hB hx => k2 B (by rw [env0]; exact hB) hx, fun x => ⟨rfl, ?_⟩⟩
  exact (hg.run ops hv').output_range x

/-- **C32.** The envelope is monotone in the input: if two clients make the same calls except that
the second one's samples have larger magnitudes, then the second one's envelope is never smaller. -/
theorem C32_monotone (ha : 0 < attack) (hl : 0 < release) (h0 : 0 < hz) (h1 : 6 * hz ≤ rate)
    (ops ops' : List Op) (hv : ∀ o ∈ ops, match o with
      | .setAttack t => 0 < t | .setRelease t => 0 < t | _ => True)
    (hl : List.Forall₂ Op.LouderEq ops ops') :
    ∃ s, AttackRelease.make attack release hz rate = some s ∧
      (s.run ops).envelope ≤ (s.run ops').envelope := by
  obtain ⟨s, p, q, hs, hg, -⟩ := make_good ha ‹0 < release› h0 h1
  refine ⟨s, hs, ?_⟩
  have hv' : ∀ o ∈ ops, o.Valid := by
    intro o ho; have := hv o ho; cases o <;> simpa [Op.Valid] using this
  have key : ∀ {ops ops' : List Op}, List.Forall₂ Op.LouderEq ops ops' → (∀ o ∈ ops, o.Valid) →
      ∀ s t : AttackRelease, Good p q s → SameParams s t → s.envelope ≤ t.envelope →
        (s.run ops).envelope ≤ (t.run ops').envelope := by
    intro ops ops' h
    induction h with
    | nil => intro _ s t _ _ h; exact h
    | cons hx _ ih =>
      intro hv s t hg hp he
      simp only [List.mem_cons, forall_eq_or_imp] at hv
      obtain ⟨k1, k2⟩ := louder_step hg hp he hx
      exact ih hv.2 _ _ (hg.apply hv.1) k1 k2
  exact key hl hv' s s hg ⟨rfl, rfl, rfl, rfl, rfl, rfl⟩ le_rfl

/-- The documented follower with fixed coefficients: attack when the magnitude is above the
envelope, release otherwise. -/
noncomputable def Spec.follow (a r : ℝ) (e x : ℝ) : ℝ :=
  if e < |x| then e + a * (|x| - e) else e + r * (|x| - e)

theorem settled_run {p q : ℝ} : ∀ (xs : List ℝ) {s : AttackRelease}, Good p q s → Settled s →
    (s.run (xs.map Op.output)) =
      { s with envelope := xs.foldl (Spec.follow s.attack s.release) s.envelope }
  | [], s, _, _ => rfl
  | x :: xs, s, hg, hs => by
    have e := settled_output hg hs x
    have hg' : Good p q (s.apply (.output x)) := hg.apply trivial
    have hs' : Settled (s.apply (.output x)) := by
      simp only [AttackRelease.apply, e]; exact ⟨hs.attackState, hs.releaseState⟩
    have := settled_run xs hg' hs'
    simp only [List.map_cons, AttackRelease.run, List.foldl_cons] at this ⊢
    rw [this]
    simp only [AttackRelease.apply, e]
    congr 2
    unfold Spec.follow
    split_ifs <;> first | rfl | (exfalso; linarith)

/-- **C32.** After construction, and after `Reset` (whatever happened before), processing samples
without changing parameters is the documented follower with the coefficients
`1 - exp(-1 / (time constant * rate))` of the parameters set last. -/
theorem C32_fixed_parameters (ha : 0 < attack) (hl : 0 < release) (h0 : 0 < hz)
    (h1 : 6 * hz ≤ rate) (before : List Op) (hv : ∀ o ∈ before, match o with
      | .setAttack t => 0 < t | .setRelease t => 0 < t | _ => True) (a' r' : ℝ) (ha' : 0 < a')
    (hr' : 0 < r') (xs : List ℝ) :
    ∃ s, AttackRelease.make attack release hz rate = some s ∧
      (s.run (xs.map Op.output)).envelope =
        xs.foldl (Spec.follow (1 - Real.exp (-1 / (attack * rate)))
          (1 - Real.exp (-1 / (release * rate)))) 0 ∧
      (s.run (before ++ [.setAttack a', .setRelease r', .reset] ++ xs.map Op.output)).envelope =
        xs.foldl (Spec.follow (1 - Real.exp (-1 / (a' * rate)))
          (1 - Real.exp (-1 / (r' * rate)))) 0 := by
  obtain ⟨s, p, q, hs, hg, hr, e1, e2, e3⟩ := make_good ha hl h0 h1
  have hv' : ∀ o ∈ before, o.Valid := by
    intro o ho; have := hv o ho; cases o <;> simpa [Op.Valid] using this
  refine ⟨s, hs, ?_, ?_⟩
  · rw [settled_run xs hg (by rw [hr]; exact reset_settled s)]
    simp only [e1, e2, firstOrderCoefficient]
    rw [hr]; rfl
  · have hg2 := ((hg.run before hv').apply (o := .setAttack a') ha').apply
      (o := .setRelease r') hr'
    have hg3 := hg2.apply (o := .reset) trivial
    have h2 := settled_run xs hg3 (reset_settled _)
    have hrate : (s.run before).rate = rate := by
      rw [← e3]
      clear h2 hg3 hg2 hv hv' e1 e2 e3 hr hg hs
      induction before generalizing s with
      | nil => rfl
      | cons o os ih =>
        have e : s.run (o :: os) = (s.apply o).run os := rfl
        rw [e, ih]; cases o <;> rfl
    have e : s.run (before ++ [.setAttack a', .setRelease r', .reset] ++ xs.map Op.output) =
        ((((s.run before).apply (.setAttack a')).apply (.setRelease r')).apply .reset).run
          (xs.map Op.output) := by
      simp [AttackRelease.run, List.foldl_append]
    rw [e, h2]
    simp only [AttackRelease.apply, AttackRelease.reset, AttackRelease.setRelease,
      AttackRelease.setAttack, hrate, firstOrderCoefficient]

/-- **C32.** Time constants: from reset, a constant input of magnitude `c` makes the envelope
`c (1 - exp(-n / (attack * rate)))` after `n` samples (so `1 - 1/e` of its final value after one time
constant), and silence of `k` samples afterwards makes it decay by `exp(-k / (release * rate))`. -/
theorem C32_time_constants (ha : 0 < attack) (hl : 0 < release) (h0 : 0 < hz)
    (h1 : 6 * hz ≤ rate) (x : ℝ) (n k : ℕ) :
    ∃ s, AttackRelease.make attack release hz rate = some s ∧
      (s.run (List.replicate n (.output x) ++ List.replicate k (.output 0))).envelope =
        |x| * (1 - Real.exp (-n / (attack * rate))) * Real.exp (-k / (release * rate)) := by
  obtain ⟨s, hs, e, -⟩ := C32_fixed_parameters ha hl h0 h1 [] (by simp) 1 1 one_pos one_pos
    (List.replicate n x ++ List.replicate k 0)
  refine ⟨s, hs, ?_⟩
  rw [List.map_append, List.map_replicate, List.map_replicate] at e
  rw [e, List.foldl_append]
  have hr : 0 < rate := by linarith
  have hup : ∀ n : ℕ, (List.replicate n x).foldl (Spec.follow (1 - Real.exp (-1 / (attack * rate)))
      (1 - Real.exp (-1 / (release * rate)))) 0 =
        |x| * (1 - Real.exp (-n / (attack * rate))) := by
    intro n
    induction n with
    | zero => simp
    | succ n ih =>
      rw [List.replicate_succ', List.foldl_append, ih, List.foldl_cons, List.foldl_nil]
      have ex : Real.exp (-(n + 1 : ℕ) / (attack * rate)) =
          Real.exp (-n / (attack * rate)) * Real.exp (-1 / (attack * rate)) := by
        rw [← Real.exp_add]; congr 1; push_cast; ring
      have hpos := Real.exp_pos (-n / (attack * rate))
      rw [ex]
      unfold Spec.follow
      rcases (abs_nonneg x).eq_or_lt with h | h
      · rw [← h]; simp
      · rw [if_pos (by nlinarith)]; ring
  rw [hup n]
  generalize hE : |x| * (1 - Real.exp (-n / (attack * rate))) = E
  have hE0 : 0 ≤ E := by
    rw [← hE]
    apply mul_nonneg (abs_nonneg x)
    have : Real.exp (-n / (attack * rate)) ≤ 1 := by
      rw [Real.exp_le_one_iff]
      exact div_nonpos_of_nonpos_of_nonneg (by simp) (by positivity)
    linarith
  induction k with
  | zero => simp
  | succ k ih =>
    have ih' := ih (by
      have := C32_fixed_parameters (hz := hz) ha hl h0 h1 [] (by simp) 1 1 one_pos one_pos
        (List.replicate n x ++ List.replicate k 0)
      obtain ⟨s', hs', e', -⟩ := this
      rw [hs] at hs'
      obtain rfl := Option.some.inj hs'
      rw [List.map_append, List.map_replicate, List.map_replicate] at e'
      rw [e'])
    rw [List.replicate_succ', List.foldl_append, ih', List.foldl_cons, List.foldl_nil]
    have ex : Real.exp (-(k + 1 : ℕ) / (release * rate)) =
        Real.exp (-k / (release * rate)) * Real.exp (-1 / (release * rate)) := by
      rw [← Real.exp_add]; congr 1; push_cast; ring
    have hpos := Real.exp_pos (-k / (release * rate))
    rw [ex]
    unfold Spec.follow
    rw [abs_zero, if_neg (by nlinarith [mul_nonneg hE0 hpos.le])]; ring

/-- The default parameters at 48 kHz meet the hypotheses. -/
example : ∃ s, AttackRelease.make 0.05 0.2 200 48000 = some s ∧
    (s.run [.output 1, .setAttack 0.01, .output (-2), .output 0]).envelope ≤ 2 := by
  obtain ⟨s, h1, -, h2, -⟩ := C32_range (attack := 0.05) (release := 0.2) (hz := 200)
    (rate := 48000) (by norm_num) (by norm_num) (by norm_num) (by norm_num)
    [.output 1, .setAttack 0.01, .output (-2), .output 0] (by simp; norm_num)
  refine ⟨s, h1, h2 2 (by norm_num) ?_⟩
  simp

end AttackReleaseEnvelope

/-! ## `EnvelopeDetector` -/

/-- Consecutive `ProcessBlock` calls. -/
noncomputable def Detector.run (d : Detector) : List (List ℝ) → Option (Detector × List (List ℝ))
  | [] => some (d, [])
  | x :: xs => do
    let (d, y) ← d.processBlock x
    let (d, ys) ← d.run xs
    return (d, y :: ys)

theorem cascade_append (fs : List (Biquad.Filter ℝ × (ℝ × ℝ))) (a b : List ℝ) :
    cascadeBlock fs (a ++ b) = ((cascadeBlock (cascadeBlock fs a).1 b).1,
      (cascadeBlock fs a).2 ++ (cascadeBlock (cascadeBlock fs a).1 b).2) := by
  simp only [← runSamples_cascadeStep]
  exact runSamples_append _ _ _ _

/-- A usable resampler, with a state that `ProcessSamples` can go on from. -/
def Detector.Ok (d : Detector) : Prop :=
  (∃ h a b r, Resampler.Built d.resampler h a b r ∧ Resampler.GoodFactor a b r) ∧
    Resampler.StateOk d.resampler d.resamplerState

theorem resample_append {c : Resampler.Cfg ℝ} {h : ℚ → ℝ} {a b r : ℕ}
    (hB : Resampler.Built c h a b r) (hG : Resampler.GoodFactor a b r) {s : Resampler.St ℝ}
    (hs : Resampler.StateOk c s) (x y : List ℝ) :
    ∃ u s1 v s2, Resampler.process c s x = some (u, s1) ∧ Resampler.process c s1 y = some (v, s2) ∧
      Resampler.process c s (x ++ y) = some (u ++ v, s2) ∧ Resampler.StateOk c s1 ∧
      Resampler.StateOk c s2 := by
  obtain ⟨u, s1, h1, k1⟩ := (Resampler.C08_states_stay_valid hB hG (M := ℝ)).2.2 s x hs
  obtain ⟨v, s2, h2, k2⟩ := (Resampler.C08_states_stay_valid hB hG (M := ℝ)).2.2 s1 y k1
  obtain ⟨yss, ys, s', e1, e2, e3⟩ := Resampler.C08_block_invariance hB hG s hs [x, y]
  simp only [Resampler.runBlocks, h1, h2, Option.bind_eq_bind, Option.bind_some,
    Option.pure_def, Option.some.injEq, Prod.mk.injEq] at e1
  obtain ⟨rfl, rfl⟩ := e1
  refine ⟨u, s1, v, s2, h1, h2, ?_, k1, k2⟩
  simp only [List.flatten_cons, List.flatten_nil, List.append_nil] at e2 e3
  rw [e2, ← e3]

/-- The smoothed squared prefiltered signal of a block. -/
noncomputable def Detector.smoothed (d : Detector) (x : List ℝ) : (ℝ × ℝ) × List ℝ :=
  runSamples (Biquad.step d.smoother) d.smootherState
    ((cascadeBlock d.prefilter x).2.map fun v => v ^ 2)

/-- The object after a block for which the resampler returned `ys` and went to state `r`. -/
noncomputable def Detector.next (d : Detector) (x ys : List ℝ) (r : Resampler.St ℝ) : Detector :=
  { d with
    prefilter := (cascadeBlock d.prefilter x).1
    smootherState := (d.smoothed x).1
    resamplerState := r
    mostRecent := if (ys.map fun v => √|v|).length > 0 then (ys.map fun v => √|v|).getLastD 0
      else d.mostRecent }

theorem Detector.process_same {d : Detector} (he : d.envelopeRate = d.rate) (x : List ℝ) :
    d.processBlock x = some (d.next x (d.smoothed x).2 d.resamplerState,
      (d.smoothed x).2.map fun v => √|v|) := by
  unfold Detector.processBlock
  simp only [if_pos he, Option.bind_eq_bind, Option.bind_some, Option.pure_def]
  rfl

theorem Detector.process_other {d : Detector} (he : d.envelopeRate ≠ d.rate) {x ys : List ℝ}
    {r : Resampler.St ℝ}
    (h : Resampler.process d.resampler d.resamplerState (d.smoothed x).2 = some (ys, r)) :
    d.processBlock x = some (d.next x ys r, ys.map fun v => √|v|) := by
  unfold Detector.processBlock
  unfold Detector.smoothed at h
  simp only [if_neg he, h, Option.bind_eq_bind, Option.bind_some, Option.pure_def]
  rfl

theorem Detector.smoothed_append (d : Detector) (x y ys : List ℝ) (r : Resampler.St ℝ) :
    d.smoothed (x ++ y) = (((d.next x ys r).smoothed y).1,
      (d.smoothed x).2 ++ ((d.next x ys r).smoothed y).2) := by
  unfold Detector.smoothed Detector.next
  simp only [cascade_append, List.map_append, runSamples_append]
  rfl

theorem Detector.next_append (d : Detector) (x y u v : List ℝ) (r r' : Resampler.St ℝ) :
    (d.next x u r).next y v r' = d.next (x ++ y) (u ++ v) r' := by
  have last : ∀ (u v : List ℝ) (z : ℝ),
      (if (u ++ v).length > 0 then (u ++ v).getLastD 0 else z) =
        if v.length > 0 then v.getLastD 0 else if u.length > 0 then u.getLastD 0 else z := by
    intro u v z
    rcases List.eq_nil_or_concat v with rfl | ⟨v', w, rfl⟩
    · simp
    · rw [if_pos (by simp), if_pos (by simp)]
      simp [← List.append_assoc]
  have h := congrArg Prod.fst (d.smoothed_append x y u r)
  have h2 := congrArg Prod.fst (cascade_append d.prefilter x y)
  dsimp only at h h2
  rw [Detector.next, Detector.next.eq_1 d (x ++ y), h, h2, List.map_append, last]
  rfl

theorem Detector.process_append {d : Detector} (h : d.Ok) (x y : List ℝ) :
    ∃ d1 u d2 v, d.processBlock x = some (d1, u) ∧ d1.processBlock y = some (d2, v) ∧
      d.processBlock (x ++ y) = some (d2, u ++ v) ∧ d1.Ok ∧ d2.Ok := by
  obtain ⟨⟨k, a, b, r, hB, hG⟩, hs⟩ := h
  by_cases he : d.envelopeRate = d.rate
  · refine ⟨_, _, _, _, d.process_same he x,
      Detector.process_same (d := d.next x (d.smoothed x).2 d.resamplerState) he y, ?_,
      ⟨⟨k, a, b, r, hB, hG⟩, hs⟩, ⟨⟨k, a, b, r, hB, hG⟩, hs⟩⟩
    rw [d.process_same he, d.next_append, ← List.map_append,
      d.smoothed_append x y (d.smoothed x).2 d.resamplerState]
    rfl
  · obtain ⟨u, s1, v, s2, h1, h2, h3, k1, k2⟩ := resample_append hB hG hs
      (d.smoothed x).2 ((d.next x [] d.resamplerState).smoothed y).2
    have e : ∀ ys r, (d.next x ys r).smoothed y = (d.next x [] d.resamplerState).smoothed y :=
      fun _ _ => rfl
    refine ⟨d.next x u s1, _, (d.next x u s1).next y v s2, _, d.process_other he h1,
      Detector.process_other (d := d.next x u s1) he h2, ?_,
      ⟨⟨k, a, b, r, hB, hG⟩, k1⟩, ⟨⟨k, a, b, r, hB, hG⟩, k2⟩⟩
    rw [d.next_append, ← List.map_append]
    refine d.process_other he ?_
    rw [d.smoothed_append x y [] d.resamplerState, h3]

/-- **C32.** Block-split invariance of the envelope detector, for all rates: cutting the input
differently changes neither the concatenated output nor the object (in particular not
`MostRecentRmsEnvelopeValue`). -/
theorem C32_detector_blocks {d : Detector} (h : d.Ok) (x : List ℝ) (bs : List (List ℝ)) :
    ∃ d1 ys, d.run (x :: bs) = some (d1, ys) ∧
      d.processBlock (x :: bs).flatten = some (d1, ys.flatten) := by
  induction bs generalizing d x with
  | nil =>
    obtain ⟨d1, u, -, -, h1, -⟩ := Detector.process_append h x []
    exact ⟨d1, [u], by simp [Detector.run, h1], by simp [h1]⟩
  | cons b bs ih =>
    obtain ⟨d1, u, d2, v, h1, h2, h3, k1, k2⟩ := Detector.process_append h x (b :: bs).flatten
    obtain ⟨d3, ys, e1, e2⟩ := ih k1 b
    rw [h2] at e2
    simp only [Option.some.injEq, Prod.mk.injEq] at e2
    obtain ⟨rfl, rfl⟩ := e2
    refine ⟨d2, u :: ys, ?_, ?_⟩
    · rw [Detector.run]; simp only [h1, e1, Option.bind_eq_bind, Option.bind_some, Option.pure_def]
    · rw [List.flatten_cons, h3, List.flatten_cons]

/-- Every initialised detector with a usable resampler meets the hypothesis of
`C32_detector_blocks`. -/
theorem C32_detector_init {rate cutoff envelopeRate : ℝ} {coeffs : List (Coeffs ℝ)}
    {c : Resampler.Cfg ℝ} {d : Detector} {h : ℚ → ℝ} {a b r : ℕ}
    (hd : Detector.init rate cutoff envelopeRate coeffs c = some d)
    (hB : Resampler.Built c h a b r) (hG : Resampler.GoodFactor a b r) : d.Ok := by
  unfold Detector.init at hd
  split_ifs at hd with h0
  simp only [Option.bind_eq_bind, Option.bind_eq_some_iff, Option.pure_def,
    Option.some.injEq] at hd
  obtain ⟨pre, h1, f, h2, rfl⟩ := hd
  exact ⟨⟨h, a, b, r, hB, hG⟩, Resampler.reset_ok (hB.wf hG)⟩

theorem detector_overdamped {rate cutoff : ℝ} (h0 : 0 < cutoff) (h1 : 4 * cutoff ≤ rate) :
    ∃ f p q, lowpassFilter rate cutoff (1 / 2) = some f ∧ Overdamped f p q := by
  have hr : 0 < rate := by linarith
  have hpi := Real.pi_pos
  exact lowpass_overdamped (rate := rate) (m := cutoff) (Q := 1 / 2) h0
    (by linarith) (by norm_num) le_rfl (by
      have e : √(1 / ((1 : ℝ) / 2) ^ 2 - 4) = 0 := by norm_num
      rw [e]
      have hx : Real.pi * cutoff / rate ≤ Real.pi / 4 := by
        rw [div_le_div_iff₀ hr (by norm_num)]; nlinarith
      have hx0 : 0 ≤ Real.pi * cutoff / rate := by positivity
      refine computeK_ge h0 hr (by linarith) (by norm_num) ?_
      have : Real.tan (Real.pi * cutoff / rate) ≤ 1 := by
        rw [← Real.tan_pi_div_four]
        exact Real.strictMonoOn_tan.monotoneOn ⟨by linarith, by linarith⟩
          ⟨by linarith, by linarith⟩ hx
      norm_num
      exact this)

/-- **C32.** With equal rates and a cutoff of at most a quarter of the sample rate, the detector
returns as many samples as it gets, they are the square roots of the (nonnegative) smoothed power of
the prefiltered signal, hence between the smallest and the largest magnitude of the prefiltered
signal and zero (the state before the first sample); and the most recent value is the last one. -/
theorem C32_detector_range {rate cutoff : ℝ} {coeffs : List (Coeffs ℝ)} {c : Resampler.Cfg ℝ}
    (h0 : 0 < cutoff) (h1 : 4 * cutoff ≤ rate) (ha : ∀ k ∈ coeffs, k.a0 ≠ 0) :
    ∃ d pre, Detector.init rate cutoff rate coeffs c = some d ∧ cascadeInit coeffs = some pre ∧
      ∀ x : List ℝ, ∃ d' y, d.processBlock x = some (d', y) ∧ y.length = x.length ∧
        (∀ v ∈ y, 0 ≤ v) ∧
        (∀ B, 0 ≤ B → (∀ u ∈ (cascadeBlock pre x).2, |u| ≤ B) → ∀ v ∈ y, v ≤ B) ∧
        (y ≠ [] → y.getLast? = some d'.mostRecent) := by
  have hr : 0 < rate := by linarith
  have hpre : ∃ pre, cascadeInit coeffs = some pre := by
    unfold cascadeInit
    clear h0 h1 hr
    induction coeffs with
    | nil => exact ⟨[], rfl⟩
    | cons k ks ih =>
      simp only [List.mem_cons, forall_eq_or_imp] at ha
      obtain ⟨p, hp⟩ := ih ha.2
      refine ⟨(⟨1 / k.a0 * k.b0, 1 / k.a0 * k.b1, 1 / k.a0 * k.b2, 1 / k.a0 * k.a1,
        1 / k.a0 * k.a2⟩, resetState) :: p, ?_⟩
      rw [List.mapM_cons, hp]
      simp [Biquad.init, ha.1]
  obtain ⟨pre, hpre⟩ := hpre
  have hpi := Real.pi_pos
  obtain ⟨f, p, q, hf, ho⟩ := detector_overdamped h0 h1
  refine ⟨{
        rate := rate, envelopeRate := rate, prefilter := pre, smoother := f,
        smootherState := resetState, resampler := c, resamplerState := Resampler.reset c,
        mostRecent := 0 }, pre, ?_, hpre, ?_⟩
  · unfold Detector.init
    rw [if_pos ⟨le_rfl, by linarith, h0⟩, hpre, hf]
    rfl
  intro x
  refine ⟨_, _, Detector.process_same rfl x, ?_, ?_, ?_, ?_⟩
  · rw [List.length_map, Detector.smoothed, runSamples_length, List.length_map,
      ← runSamples_cascadeStep, runSamples_length]
  · intro v hv
    simp only [List.mem_map] at hv
    obtain ⟨u, -, rfl⟩ := hv
    exact Real.sqrt_nonneg _
  · intro B hB hu v hv
    simp only [List.mem_map] at hv
    obtain ⟨u, hu', rfl⟩ := hv
    have := runSamples_range (m := 0) (M := B ^ 2) ho _ _
      (ho.reset_range ⟨le_rfl, by positivity⟩) (by
        intro w hw
        simp only [List.mem_map] at hw
        obtain ⟨t, ht, rfl⟩ := hw
        refine ⟨sq_nonneg t, ?_⟩
        rw [← sq_abs]
        exact pow_le_pow_left₀ (abs_nonneg t) (hu t ht) 2) u hu'
    rw [abs_of_nonneg this.1]
    exact Real.sqrt_le_iff.2 ⟨hB, this.2⟩
  · intro hne
    have hl : 0 < (List.map (fun v => √|v|) (Detector.smoothed
      { rate := rate, envelopeRate := rate, prefilter := pre, smoother := f,
        smootherState := resetState, resampler := c, resamplerState := Resampler.reset c,
        mostRecent := 0 } x).2).length := List.length_pos_iff.2 hne
    rw [Detector.next]
    dsimp only
    rw [if_pos hl]
    rcases List.eq_nil_or_concat (List.map (fun v => √|v|) (Detector.smoothed
      { rate := rate, envelopeRate := rate, prefilter := pre, smoother := f,
        smootherState := resetState, resampler := c, resamplerState := Resampler.reset c,
        mostRecent := 0 } x).2) with h | ⟨l, w, h⟩
    · exact absurd h hne
    · rw [h]; simp

/-- **C32 (violation).** `Reset` "clears the state of the filters and resampler" but leaves
`MostRecentRmsEnvelopeValue` at the last value of the previous signal: a reset detector differs from
a newly initialised one. -/
theorem C32_detector_reset_violation : ∃ d d' y d0,
    Detector.init 48000 100 48000 [] (Resampler.makeQ (fun _ => 1) 1 1 1) = some d ∧
    d.processBlock [1] = some (d', y) ∧ d'.reset = d0 ∧
    d.mostRecent = 0 ∧ 0 < d0.mostRecent := by
  obtain ⟨f, p, q, hf, ho⟩ := detector_overdamped (rate := 48000) (cutoff := 100) (by norm_num)
    (by norm_num)
  refine ⟨{
        rate := 48000, envelopeRate := 48000, prefilter := [], smoother := f,
        smootherState := resetState, resampler := Resampler.makeQ (fun _ => 1) 1 1 1,
        resamplerState := Resampler.reset (Resampler.makeQ (fun _ => 1) 1 1 1),
        mostRecent := 0 }, _, _, _, ?_, Detector.process_same rfl _, rfl, rfl, ?_⟩
  · unfold Detector.init
    rw [if_pos ⟨le_rfl, by norm_num, by norm_num⟩, hf]
    rfl
  · have h0 : 0 < f.ff0 := by
      rw [ho.ff0]
      have := ho.hp1; have := ho.hq1
      have : 0 < (1 - p) * (1 - q) := mul_pos (by linarith) (by linarith)
      linarith
    simp [Detector.reset, Detector.next, Detector.smoothed, cascadeBlock, runSamples, Biquad.step,
      resetState]
    exact h0.ne'

/-- Hypotheses of the detector theorems are met by the usual configurations. -/
example (x : List ℝ) : ∃ d d' y, Detector.init 48000 100 48000 []
    (Resampler.makeQ (fun _ => 1) 1 1 1) = some d ∧ d.processBlock x = some (d', y) ∧
    y.length = x.length := by
  obtain ⟨d, _, h1, -, h2⟩ := C32_detector_range (rate := 48000) (cutoff := 100) (coeffs := [])
    (c := Resampler.makeQ (fun _ => 1) 1 1 1) (by norm_num) (by norm_num) (by simp)
  obtain ⟨d', y, e1, e2, -⟩ := h2 x
  exact ⟨d, d', y, h1, e1, e2⟩

end Verif.Envelope
