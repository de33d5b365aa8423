import Verif.Model.BackgroundLevel
import Verif.Theorems.LadderResponse
import Verif.Theorems.Envelope

/-!
# Lemmas about the background level detector
-/

namespace Verif.BackgroundLevel
open Verif.Biquad Verif.Envelope Verif.FilterDesign Verif.Stream Verif.LinearFilter.Spec

/-- The critically damped lowpass the code designs: a double pole `p`. -/
theorem slow_design {rate m : ℝ} (h0 : 0 < m) (h1 : m < rate / 2) :
    ∃ p g : ℝ, lowpass rate m (1 / 2) = some ⟨[g, 2 * g, g], [1, -(2 * p), p * p]⟩ ∧
      g = (1 - p) * (1 - p) / 4 ∧ |p| < 1 ∧ (4 * m < rate → 0 < p) := by
  have hr : 0 < rate := by linarith
  have hK := computeK_pos hr h0.le h1
  have hpi := Real.pi_pos
  have hw : 0 < 2 * Real.pi * m := by positivity
  have hKw : 4 * m < rate → 2 * Real.pi * m < computeK m rate := by
    intro h4
    have hx : 0 < Real.pi * m / rate := by positivity
    have ht4 : Real.pi * m / rate < Real.pi / 4 := by
      rw [div_lt_div_iff₀ hr (by norm_num)]; nlinarith
    have htan := Real.tan_pos_of_pos_of_lt_pi_div_two hx (by linarith)
    have : Real.tan (Real.pi * m / rate) < 1 := by
      rw [← Real.tan_pi_div_four]
      exact Real.strictMonoOn_tan ⟨by linarith, by linarith⟩ ⟨by linarith, by linarith⟩ ht4
    unfold computeK
    split_ifs with h
    · have h5 := Real.pi_le_four
      nlinarith
    · rw [lt_div_iff₀ htan]
      nlinarith
  unfold lowpass
  rw [if_pos ⟨h1, h0, by norm_num⟩]
  unfold bilinearTransform
  dsimp only
  rw [if_pos ⟨rfl, rfl, hr, h0.le, h1⟩]
  generalize computeK m rate = K at *
  generalize 2 * Real.pi * m = w at *
  have hs : 0 < K + w := by linarith
  refine ⟨(K - w) / (K + w), w * w / ((K + w) * (K + w)), ?_, ?_, ?_, ?_⟩
  · have hd : 1 * K * K + w / (1 / 2) * K + w * w = (K + w) * (K + w) := by ring
    have hd0 : (K + w) * (K + w) ≠ 0 := by positivity
    have hd' : K * K + w * 2 * K + w * w = (K + w) * (K + w) := by ring
    simp only [FilterDesign.normalize, bilinearMap, List.getD_cons_zero, List.getD_cons_succ,
      List.map_cons, List.map_nil, Option.some.injEq, BiquadCascade.Stage.mk.injEq, List.cons.injEq, and_true]
    have e : 1 * (K * K) + w / (1 / 2) * K + w * w = (K + w) * (K + w) := by ring
    refine ⟨⟨?_, ?_, ?_⟩, ?_, ?_, ?_⟩ <;> simp [hd', div_self hd0] <;> field_simp <;> ring
  · field_simp; ring
  · rw [abs_lt, lt_div_iff₀ hs, div_lt_iff₀ hs]; constructor <;> linarith
  · intro h4
    exact div_pos (by linarith [hKw h4]) hs

/-- The reflection coefficients of the critically damped lowpass. -/
theorem slow_ladder {p g : ℝ} (hp : |p| < 1) :
    ∃ k v, Ladder.makeLadder [g, 2 * g, g] [1, -(2 * p), p * p] = some (2, k, v) ∧
      k 1 = p * p ∧ k 0 = -(2 * p) / (1 + p * p) := by
  rw [abs_lt] at hp
  refine ⟨_, _, by unfold Ladder.makeLadder; rw [if_neg (by simp)]; rfl, ?_, ?_⟩
  · simp [Ladder.makeLoop, Ladder.put]
  · simp [Ladder.makeLoop, Ladder.put]
    have h2 : p * p < 1 := by nlinarith
    have h1 : 0 < 1 - p * p * (p * p) := by nlinarith [mul_self_nonneg p]
    have h3 : 0 < 1 + p * p := by nlinarith [mul_self_nonneg p]
    rw [← div_eq_mul_inv, div_eq_div_iff h1.ne' h3.ne']
    ring

theorem slow_run {cfg : Ladder.Config} {p g : ℝ} (hp0 : 0 < p) (hp : p < 1) {f : Ladder.Filter}
    (hf : Ladder.initFromTransferFunction cfg [g, 2 * g, g] [1, -(2 * p), p * p] = some f)
    (xs : List ℝ) : (runSamples (Ladder.processSample cfg) f xs).2 =
      (runSamples (Biquad.step (⟨g, 2 * g, g, -(2 * p), p * p⟩ : Biquad.Filter ℝ)) resetState xs).2 := by
  obtain ⟨k, v, hm, k1, k0⟩ := slow_ladder (g := g) (p := p) (by rw [abs_lt]; constructor <;> linarith)
  have hk : ∀ i, i < 2 → |k i| < 1 ∧ k i ≠ 0 := by
    intro i hi
    have : i = 0 ∨ i = 1 := by omega
    have h3 : 0 < 1 + p * p := by positivity
    rcases this with rfl | rfl
    · rw [k0]
      refine ⟨?_, div_ne_zero (by linarith) h3.ne'⟩
      rw [abs_div, abs_neg, abs_of_pos (by linarith : 0 < 2 * p), abs_of_pos h3, div_lt_one h3]
      nlinarith [mul_pos (sub_pos.2 hp) (sub_pos.2 hp)]
    · rw [k1, abs_of_pos (by positivity)]
      exact ⟨by nlinarith, by positivity⟩
  have h1 := Ladder.C25_transfer_function hm (fun i hi => (hk i hi).1)
    (Or.inr fun i hi => (hk i hi).2) hf [xs]
  simp only [runBlocks, List.flatten_cons, List.flatten_nil, List.append_nil] at h1
  classical
  have h2 := step_diffEq (c := (⟨g, 2 * g, g, 1, -(2 * p), p * p⟩ : Coeffs ℝ))
    (f := ⟨g, 2 * g, g, -(2 * p), p * p⟩) (by simp [Biquad.init]) xs
  exact DiffEq.unique rfl isUnit_one h1 h2

theorem slow_overdamped {p g : ℝ} (hp0 : 0 < p) (hp : p < 1) (hg : g = (1 - p) * (1 - p) / 4) :
    Overdamped (⟨g, 2 * g, g, -(2 * p), p * p⟩ : Biquad.Filter ℝ) p p :=
  ⟨hp0.le, hp, hp0.le, hp, hg, rfl, rfl, by ring, rfl⟩

/-! ### The sample loop -/

/-- Coefficients as the setters compute them. -/
structure Consts.Ok (c : Consts) : Prop where
  h1 : 0 < c.coeff
  h2 : c.coeff < 1
  h3 : 0 < c.burnCoeff
  h4 : c.burnCoeff < 1

theorem classify_prev (c : Consts) (s : Chan) (u v : ℝ) : (classify c s u v).prev = s.prev := by
  unfold classify; split_ifs <;> rfl

theorem step_between {c : Consts} (h : c.Ok) (s : Chan) (x : ℝ × ℝ) :
    (step c s x).2 = (step c s x).1.prev ∧
    min s.prev (min x.1 x.2) ≤ (step c s x).2 ∧ (step c s x).2 ≤ max s.prev (min x.1 x.2) := by
  obtain ⟨h1, h2, h3, h4⟩ := h
  refine ⟨rfl, ?_⟩
  unfold step
  dsimp only
  obtain ⟨a, ha⟩ : ∃ a, a = if s.burnIn = true then c.burnCoeff else c.coeff := ⟨_, rfl⟩
  have ha0 : 0 < a ∧ a < 1 := by rw [ha]; split_ifs <;> constructor <;> assumption
  rw [← ha, min_comm x.2]
  generalize min x.1 x.2 = m
  split_ifs
  · dsimp only
    rw [classify_prev]
    rcases le_total s.prev m with hm | hm
    · rw [min_eq_left hm, max_eq_right hm]; constructor <;> nlinarith
    · rw [min_eq_right hm, max_eq_left hm]; constructor <;> nlinarith
  · dsimp only
    rw [classify_prev]
    exact ⟨min_le_left _ _, le_max_left _ _⟩

theorem step_counter {c : Consts} {R : ℤ} (h : 0 ≤ c.rejection ∧ c.rejection ≤ R) {s : Chan}
    (hs : 0 ≤ s.counter ∧ s.counter ≤ R) (x : ℝ × ℝ) :
    0 ≤ (step c s x).1.counter ∧ (step c s x).1.counter ≤ R := by
  have hc : 0 ≤ (classify c s x.1 x.2).counter ∧ (classify c s x.1 x.2).counter ≤ R := by
    unfold classify; split_ifs <;> first | exact h | exact hs | exact ⟨le_rfl, by simpa using (by omega : (0 : ℤ) ≤ R)⟩
  unfold step
  dsimp only
  split_ifs with h0 <;>
    first | exact hc | exact ⟨by dsimp only; omega, by dsimp only; omega⟩

theorem run_counter {c : Consts} {R : ℤ} (h : 0 ≤ c.rejection ∧ c.rejection ≤ R) :
    ∀ (xs : List (ℝ × ℝ)) (s : Chan), 0 ≤ s.counter ∧ s.counter ≤ R →
      0 ≤ (runSamples (step c) s xs).1.counter ∧ (runSamples (step c) s xs).1.counter ≤ R
  | [], _, hs => hs
  | x :: xs, s, hs => run_counter h xs _ (step_counter h hs x)

theorem run_range {c : Consts} (h : c.Ok) {m M : ℝ} :
    ∀ (xs : List (ℝ × ℝ)) (s : Chan), m ≤ s.prev ∧ s.prev ≤ M →
      (∀ x ∈ xs, m ≤ x.1 ∧ m ≤ x.2 ∧ min x.1 x.2 ≤ M) →
      (m ≤ (runSamples (step c) s xs).1.prev ∧ (runSamples (step c) s xs).1.prev ≤ M) ∧
      ∀ y ∈ (runSamples (step c) s xs).2, m ≤ y ∧ y ≤ M
  | [], _, hs, _ => ⟨hs, by simp [runSamples]⟩
  | x :: xs, s, hs, hx => by
    simp only [List.mem_cons, forall_eq_or_imp] at hx
    obtain ⟨e, h1, h2⟩ := step_between h s x
    have hb : m ≤ (step c s x).2 ∧ (step c s x).2 ≤ M :=
      ⟨le_trans (le_min hs.1 (le_min hx.1.1 hx.1.2.1)) h1, h2.trans (max_le hs.2 hx.1.2.2)⟩
    obtain ⟨r1, r2⟩ := run_range h xs (step c s x).1 (e ▸ hb) hx.2
    refine ⟨r1, ?_⟩
    simp only [runSamples, List.mem_cons, forall_eq_or_imp]
    exact ⟨hb, r2⟩

theorem step_burnIn_false (c : Consts) {s : Chan} (h : s.burnIn = false) (x : ℝ × ℝ) :
    (step c s x).1.burnIn = false := by
  have hc : (classify c s x.1 x.2).burnIn = false := by
    unfold classify; split_ifs <;> first | rfl | exact h
  unfold step; dsimp only; split_ifs <;> exact hc

theorem run_burnIn_false (c : Consts) : ∀ (xs : List (ℝ × ℝ)) (s : Chan), s.burnIn = false →
    (runSamples (step c) s xs).1.burnIn = false
  | [], _, h => h
  | x :: xs, _, h => run_burnIn_false c xs _ (step_burnIn_false c h x)

/-- Steps of a channel outside the burn-in stage. -/
theorem step_transient {c : Consts} {s : Chan} (hb : s.burnIn = false) (hr : c.rejection ≠ 0)
    {x : ℝ × ℝ} (hx : c.factor * x.2 < x.1) :
    step c s x = (⟨s.prev, c.rejection - 1, false⟩, s.prev) := by
  unfold step classify
  simp only [hb, Bool.false_eq_true, if_false, if_pos hx, gt_iff_lt, if_neg hr]

theorem step_hold {c : Consts} {s : Chan} (hb : s.burnIn = false) (hr : s.counter ≠ 0)
    {x : ℝ × ℝ} (hx : x.1 ≤ c.factor * x.2) (he : s.prev - 1 / 10000 ≤ x.1) :
    step c s x = (⟨s.prev, s.counter - 1, false⟩, s.prev) := by
  unfold step classify
  simp only [hb, Bool.false_eq_true, if_false, gt_iff_lt, if_neg hx.not_gt, if_neg he.not_gt,
    if_neg hr]

theorem step_follow {c : Consts} {s : Chan} (hb : s.burnIn = false)
    {x : ℝ × ℝ} (hx : x.1 ≤ c.factor * x.2) (h : s.counter = 0 ∨ x.1 < s.prev - 1 / 10000) :
    step c s x = (⟨s.prev + c.coeff * (min x.2 x.1 - s.prev), 0, false⟩,
      s.prev + c.coeff * (min x.2 x.1 - s.prev)) := by
  unfold step classify
  by_cases he : x.1 < s.prev - 1 / 10000
  · simp only [hb, Bool.false_eq_true, if_false, gt_iff_lt, if_neg hx.not_gt, if_pos he, if_true]
  · have h0 := h.resolve_right he
    simp only [hb, Bool.false_eq_true, if_false, gt_iff_lt, if_neg hx.not_gt, if_neg he, h0, if_true]

theorem step_burnIn {c : Consts} {s : Chan} (hb : s.burnIn = true) (x : ℝ × ℝ) :
    (step c s x).1.counter = 0 ∧
    (step c s x).2 = s.prev + c.burnCoeff * (min x.2 x.1 - s.prev) ∧
    ((step c s x).1.burnIn = true ↔ s.prev - 1 / 10000 ≤ x.1) := by
  unfold step classify
  by_cases he : x.1 < s.prev - 1 / 10000
  · simp only [hb, gt_iff_lt, if_pos he, if_true, true_and, Bool.false_eq_true, false_iff, not_le]
    exact he
  · simp only [hb, gt_iff_lt, if_neg he, if_true, true_and, true_iff]
    exact le_of_not_gt he

end Verif.BackgroundLevel

namespace Verif.BackgroundLevel
open Verif.Biquad Verif.Envelope Verif.FilterDesign Verif.Stream Verif.LinearFilter.Spec

/-! ### The object -/

/-- What every history of calls preserves. -/
structure Obj.Good (o : Obj) : Prop where
  rate : 0 < o.params.envelopeRate
  ok : o.consts.Ok

theorem setTimeConstant_good {o o' : Obj} (hr : 0 < o.params.envelopeRate) {t : ℝ}
    (h : o.setTimeConstant t = some o') : o'.Good ∧
      o' = { o with
        params := { o.params with timeConstant := t }
        burnCoeff := firstOrderCoefficient (t / 10) o.params.envelopeRate
        coeff := firstOrderCoefficient t o.params.envelopeRate } := by
  unfold Obj.setTimeConstant at h
  split_ifs at h with h0
  have ht : 0 < t := by
    refine lt_trans ?_ h0
    have := Real.pi_pos
    positivity
  cases h
  have h1 := firstOrder_range ht hr
  have h2 := firstOrder_range (t := t / 10) (by positivity) hr
  exact ⟨⟨hr, h1.1, h1.2, h2.1, h2.2⟩, rfl⟩

theorem apply_good {cfg : Ladder.Config} {o o' : Obj} (h : o.Good) {op : Op}
    (ha : o.apply cfg op = some o') : o'.Good ∧ o'.params.envelopeRate = o.params.envelopeRate := by
  obtain ⟨hr, hc⟩ := h
  cases op with
  | process x =>
    simp only [Obj.apply, Obj.processBlock, Option.bind_eq_bind, Option.bind_eq_some_iff,
      Option.pure_def, Option.some.injEq] at ha
    obtain ⟨e, -, rfl⟩ := ha
    exact ⟨⟨hr, hc⟩, rfl⟩
  | reset => simp only [Obj.apply, Option.some.injEq] at ha; subst ha; exact ⟨⟨hr, hc⟩, rfl⟩
  | setSlowCutoff hz =>
    simp only [Obj.apply, Obj.setSlowCutoff] at ha
    split_ifs at ha
    simp only [Option.bind_eq_bind, Option.bind_eq_some_iff,
      Option.pure_def, Option.some.injEq] at ha
    obtain ⟨c, -, l, -, rfl⟩ := ha
    exact ⟨⟨hr, hc⟩, rfl⟩
  | setTimeConstant t =>
    obtain ⟨h1, h2⟩ := setTimeConstant_good hr ha
    exact ⟨h1, by rw [h2]⟩
  | setSensitivity v =>
    simp only [Obj.apply, Option.some.injEq] at ha; subst ha
    exact ⟨⟨hr, hc.1, hc.2, hc.3, hc.4⟩, rfl⟩
  | setRejectionTime t =>
    simp only [Obj.apply, Option.some.injEq] at ha; subst ha
    exact ⟨⟨hr, hc.1, hc.2, hc.3, hc.4⟩, rfl⟩

theorem run_cons {cfg : Ladder.Config} {o o' : Obj} {op : Op} {ops : List Op} :
    o.run cfg (op :: ops) = some o' ↔ ∃ o1, o.apply cfg op = some o1 ∧ o1.run cfg ops = some o' := by
  unfold Obj.run
  rw [List.foldlM_cons]
  simp only [Option.bind_eq_bind, Option.bind_eq_some_iff]

theorem run_good {cfg : Ladder.Config} : ∀ (ops : List Op) {o o' : Obj}, o.Good →
    o.run cfg ops = some o' → o'.Good ∧ o'.params.envelopeRate = o.params.envelopeRate
  | [], o, o', h, hr => by cases hr; exact ⟨h, rfl⟩
  | op :: ops, o, o', h, hr => by
    obtain ⟨o1, h1, h2⟩ := run_cons.1 hr
    obtain ⟨g1, e1⟩ := apply_good h h1
    obtain ⟨g2, e2⟩ := run_good ops g1 h2
    exact ⟨g2, e2.trans e1⟩

/-- What `Init` produces. -/
theorem init_spec {cfg : Ladder.Config} {old new : Params} {rate : ℝ} {w : List (Coeffs ℝ)}
    {r : Resampler.Cfg ℝ} {o : Obj} (h : init cfg old new rate w r = some o) :
    ∃ env c slow, Detector.init rate new.fastCutoff new.envelopeRate w r = some env ∧
      lowpass new.envelopeRate new.slowCutoff (1 / 2) = some c ∧
      Ladder.initFromTransferFunction cfg c.b c.a = some slow ∧
      new.timeConstant > 1 / (2 * Real.pi * new.envelopeRate) ∧ old.Checked ∧ 
      o = {
        params := new, envelope := env.reset, slow := Ladder.reset cfg slow
        coeff := firstOrderCoefficient new.timeConstant new.envelopeRate
        burnCoeff := firstOrderCoefficient (new.timeConstant / 10) new.envelopeRate
        rejection := toInt (new.rejectionTime * new.envelopeRate)
        chan := ⟨0, 0, true⟩, fastDb := [], backgroundDb := [] } := by
  unfold init at h
  split_ifs at h with h0
  simp only [Option.bind_eq_bind, Option.bind_eq_some_iff,
      Option.pure_def, Option.some.injEq] at h
  obtain ⟨env, h1, c, h2, slow, h3, o1, h4, rfl⟩ := h
  unfold Obj.setTimeConstant at h4
  split_ifs at h4 with h5
  cases h4
  exact ⟨env, c, slow, h1, h2, h3, h5, h0, rfl⟩

theorem detector_init_params {rate cutoff er : ℝ} {w : List (Coeffs ℝ)} {r : Resampler.Cfg ℝ}
    {d : Detector} (h : Detector.init rate cutoff er w r = some d) :
    er ≤ rate ∧ cutoff < er / 2 ∧ 0 < cutoff := by
  unfold Detector.init at h
  split_ifs at h with h0
  exact h0

theorem init_good {cfg : Ladder.Config} {old new : Params} {rate : ℝ} {w : List (Coeffs ℝ)}
    {r : Resampler.Cfg ℝ} {o : Obj} (h : init cfg old new rate w r = some o) : o.Good := by
  obtain ⟨env, c, slow, h1, -, -, ht, -, rfl⟩ := init_spec h
  obtain ⟨-, h2, h3⟩ := detector_init_params h1
  have hr : 0 < new.envelopeRate := by linarith
  have h0 : 0 < new.timeConstant := by
    refine lt_trans ?_ ht
    have := Real.pi_pos
    positivity
  have k1 := firstOrder_range h0 hr
  have k2 := firstOrder_range (t := new.timeConstant / 10) (by positivity) hr
  exact ⟨hr, k1.1, k1.2, k2.1, k2.2⟩

theorem cascadeInit_ok {coeffs : List (Coeffs ℝ)} (ha : ∀ k ∈ coeffs, k.a0 ≠ 0) :
    open Classical in ∃ pre, cascadeInit coeffs = some pre := by
  unfold cascadeInit
  induction coeffs with
  | nil => exact ⟨[], rfl⟩
  | cons k ks ih =>
    simp only [List.mem_cons, forall_eq_or_imp] at ha
    obtain ⟨p, hp⟩ := ih ha.2
    refine ⟨(⟨1 / k.a0 * k.b0, 1 / k.a0 * k.b1, 1 / k.a0 * k.b2, 1 / k.a0 * k.a1,
      1 / k.a0 * k.a2⟩, resetState) :: p, ?_⟩
    rw [List.mapM_cons, hp]
    simp [Biquad.init, ha.1]

theorem slow_init (cfg : Ladder.Config) {rate m : ℝ} (h0 : 0 < m) (h1 : m < rate / 2) :
    ∃ c f, lowpass rate m (1 / 2) = some c ∧
      Ladder.initFromTransferFunction cfg c.b c.a = some f := by
  obtain ⟨p, g, h, -, hp, -⟩ := slow_design h0 h1
  obtain ⟨k, v, hm, -⟩ := slow_ladder (g := g) hp
  refine ⟨_, ?_, h, ?_⟩
  rotate_left
  · simp only [Ladder.initFromTransferFunction, hm, Option.bind_eq_bind, Option.bind_some]
    unfold Ladder.init
    rw [if_neg (by norm_num)]

theorem detector_init_ok {rate cutoff er : ℝ} {w : List (Coeffs ℝ)} (ha : ∀ k ∈ w, k.a0 ≠ 0)
    (r : Resampler.Cfg ℝ) (h1 : er ≤ rate) (h2 : cutoff < er / 2) (h3 : 0 < cutoff) :
    ∃ d, Detector.init rate cutoff er w r = some d := by
  obtain ⟨pre, hp⟩ := cascadeInit_ok ha
  obtain ⟨p, g, h, -, hp', -⟩ := slow_design (rate := rate) h3 (by linarith)
  unfold Detector.init
  rw [if_pos ⟨h1, h2, h3⟩, hp]
  simp only [lowpassFilter, h, Option.bind_eq_bind, Option.bind_some]
  simp [coeffsOf, Biquad.init]

/-- Strict upper bound on the output of a lowpass with positive poles. -/
theorem run_lt {f : Biquad.Filter ℝ} {p M : ℝ} (h : Overdamped f p p) (hp0 : 0 < p) :
    ∀ (xs : List ℝ) (s : ℝ × ℝ), s.1 * ((1 - p) * (1 - p)) < M → s.2 * ((1 - p) * (1 - p)) < M →
      (s.1 - p * s.2) * (1 - p) < M → (∀ x ∈ xs, x ≤ M) →
      ∀ y ∈ (runSamples (Biquad.step f) s xs).2, y < M
  | [], _, _, _, _, _ => by simp [runSamples]
  | x :: xs, (s1, s2), u1, u2, u3, hx => by
    simp only [List.mem_cons, forall_eq_or_imp] at hx
    have h' := h
    obtain ⟨-, hp1, -, -, f0, f1, f2, b1, b2⟩ := h'
    have hy : (Biquad.step f (s1, s2) x).2 =
        ((x + (p + p) * s1 - p * p * s2) + 2 * s1 + s2) * ((1 - p) * (1 - p)) / 4 := by
      simp only [Biquad.step, f0, f1, f2, b1, b2]; ring
    have hn : (Biquad.step f (s1, s2) x).1 = (x + (p + p) * s1 - p * p * s2, s1) := by
      simp only [Biquad.step, b1, b2, Prod.mk.injEq, and_true]; ring
    have r : (x + (p + p) * s1 - p * p * s2 - p * s1) * (1 - p) =
        (1 - p) * x + p * ((s1 - p * s2) * (1 - p)) := by ring
    have t : (x + (p + p) * s1 - p * p * s2) * ((1 - p) * (1 - p)) =
        (1 - p) * ((x + (p + p) * s1 - p * p * s2 - p * s1) * (1 - p)) +
          p * (s1 * ((1 - p) * (1 - p))) := by ring
    simp only at u1 u2 u3
    have r2 : (x + (p + p) * s1 - p * p * s2 - p * s1) * (1 - p) < M := by rw [r]; nlinarith
    have t2 : (x + (p + p) * s1 - p * p * s2) * ((1 - p) * (1 - p)) < M := by rw [t]; nlinarith
    intro y hy'
    simp only [runSamples, List.mem_cons] at hy'
    rcases hy' with rfl | hy'
    · rw [hy]; linarith
    · rw [hn] at hy'
      exact run_lt h hp0 xs _ t2 u1 r2 hx.2 y hy'

/-- The slow envelope of a signal with values in `[m, M]`, from the initial state. -/
theorem slow_of_init {cfg : Ladder.Config} {old new : Params} {rate : ℝ} {w : List (Coeffs ℝ)}
    {r : Resampler.Cfg ℝ} {o : Obj} (h : init cfg old new rate w r = some o)
    (h4 : 4 * new.slowCutoff < new.envelopeRate) :
    ∃ p g : ℝ, 0 < p ∧ p < 1 ∧ g = (1 - p) * (1 - p) / 4 ∧ ∀ xs : List ℝ,
      (runSamples (Ladder.processSample cfg) o.slow xs).2 =
      (runSamples (Biquad.step (⟨g, 2 * g, g, -(2 * p), p * p⟩ : Biquad.Filter ℝ))
        resetState xs).2 := by
  obtain ⟨env, c, slow, h1, h2, h3, ht, -, rfl⟩ := init_spec h
  obtain ⟨-, h5, h6⟩ := detector_init_params h1
  have hc : 0 < new.slowCutoff := by
    unfold lowpass at h2
    split_ifs at h2 with h7
    exact h7.2.1
  obtain ⟨p, g, e, hg, hp, hp0⟩ := slow_design hc (by linarith : new.slowCutoff < new.envelopeRate / 2)
  rw [e] at h2
  cases h2
  rw [abs_lt] at hp
  refine ⟨p, g, hp0 h4, hp.2, hg, fun xs => ?_⟩
  rw [← slow_run (hp0 h4) hp.2 h3]
  have hs : Ladder.reset cfg slow = slow := by
    obtain ⟨k, v, hm, -⟩ := slow_ladder (g := g) (p := p) (abs_lt.2 hp)
    simp only [Ladder.initFromTransferFunction, hm, Option.bind_eq_bind, Option.bind_some] at h3
    unfold Ladder.init at h3
    rw [if_neg (by norm_num)] at h3
    cases h3
    rfl
  dsimp only
  rw [hs]

/-! ### Reset -/

theorem ladder_run_state {cfg : Ladder.Config} : ∀ (xs : List ℝ) {f : Ladder.Filter},
    f.smoothing = 0 → ∃ st, (runSamples (Ladder.processSample cfg) f xs).1 = { f with state := st }
  | [], f, _ => ⟨f.state, rfl⟩
  | x :: xs, f, h => by
    obtain ⟨st, e⟩ := ladder_run_state (cfg := cfg) xs
      (f := { f with state := (Ladder.step f.order f.k f.c f.v f.state x).1 }) h
    refine ⟨st, ?_⟩
    rw [runSamples, Ladder.processSample_fixed h]
    exact e

theorem cascade_fst : ∀ (fs : List (Biquad.Filter ℝ × (ℝ × ℝ))) (xs : List ℝ),
    (cascadeBlock fs xs).1.map (fun p => (p.1, (resetState : ℝ × ℝ))) = fs.map fun p => (p.1, resetState)
  | [], _ => rfl
  | (f, s) :: fs, xs => by
    simp only [cascadeBlock, List.map_cons]
    rw [cascade_fst fs]

theorem detector_reset_process {d d' : Detector} {x y : List ℝ}
    (h : d.processBlock x = some (d', y)) :
    ∃ m, d'.reset = { d.reset with mostRecent := m } := by
  have key : ∃ ys r, d' = d.next x ys r := by
    by_cases he : d.envelopeRate = d.rate
    · rw [Detector.process_same he] at h
      simp only [Option.some.injEq, Prod.mk.injEq] at h
      exact ⟨_, _, h.1.symm⟩
    · cases hp : Resampler.process d.resampler d.resamplerState (d.smoothed x).2 with
      | none =>
        unfold Detector.smoothed at hp
        unfold Detector.processBlock at h
        simp only [if_neg he, hp, Option.bind_eq_bind, Option.bind_none] at h
        cases h
      | some v =>
        rw [Detector.process_other he (ys := v.1) (r := v.2) hp] at h
        simp only [Option.some.injEq, Prod.mk.injEq] at h
        exact ⟨_, _, h.1.symm⟩
  obtain ⟨ys, r, rfl⟩ := key
  refine ⟨(d.next x ys r).mostRecent, ?_⟩
  unfold Detector.reset Detector.next
  dsimp only
  rw [cascade_fst]

theorem detector_reset_reset (d : Detector) : d.reset.reset = d.reset := by
  unfold Detector.reset; simp

end Verif.BackgroundLevel
