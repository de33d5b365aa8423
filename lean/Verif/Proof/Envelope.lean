import Verif.Model.Envelope
import Verif.Proof.FilterDesign
import Verif.Proof.Stream
import Mathlib.Tactic.Linarith
import Mathlib.Tactic.FieldSimp
import Mathlib.Analysis.SpecialFunctions.Trigonometric.Bounds

/-!
# Lemmas about the envelope followers
-/

namespace Verif.Envelope
open Verif.Biquad Verif.BiquadCascade Verif.FilterDesign Verif.Stream

/-- A second-order lowpass with real nonnegative poles `p`, `q`, both zeros at -1, gain 1 at 0 Hz. -/
structure Overdamped (f : Biquad.Filter ℝ) (p q : ℝ) : Prop where
  hp : 0 ≤ p
  hp1 : p < 1
  hq : 0 ≤ q
  hq1 : q < 1
  ff0 : f.ff0 = (1 - p) * (1 - q) / 4
  ff1 : f.ff1 = 2 * f.ff0
  ff2 : f.ff2 = f.ff0
  fb1 : f.fb1 = -(p + q)
  fb2 : f.fb2 = p * q

/-- States reachable with inputs between `m` and `M`. -/
structure InRange (p q m M : ℝ) (s : ℝ × ℝ) : Prop where
  l1 : m ≤ s.1 * ((1 - p) * (1 - q))
  u1 : s.1 * ((1 - p) * (1 - q)) ≤ M
  l2 : m ≤ s.2 * ((1 - p) * (1 - q))
  u2 : s.2 * ((1 - p) * (1 - q)) ≤ M
  l3 : m ≤ (s.1 - p * s.2) * (1 - q)
  u3 : (s.1 - p * s.2) * (1 - q) ≤ M

theorem Overdamped.step_range {f : Biquad.Filter ℝ} {p q m M : ℝ} (h : Overdamped f p q) {s : ℝ × ℝ}
    (hs : InRange p q m M s) {x : ℝ} (hx : m ≤ x ∧ x ≤ M) :
    InRange p q m M (Biquad.step f s x).1 ∧ m ≤ (Biquad.step f s x).2 ∧
      (Biquad.step f s x).2 ≤ M := by
  obtain ⟨hp, hp1, hq, hq1, f0, f1, f2, b1, b2⟩ := h
  obtain ⟨l1, u1, l2, u2, l3, u3⟩ := hs
  obtain ⟨s1, s2⟩ := s
  simp only at l1 u1 l2 u2 l3 u3
  have hy : (Biquad.step f (s1, s2) x).2 =
      ((x + (p + q) * s1 - p * q * s2) + 2 * s1 + s2) * ((1 - p) * (1 - q)) / 4 := by
    simp only [Biquad.step, f0, f1, f2, b1, b2]; ring
  have hn : (Biquad.step f (s1, s2) x).1 = (x + (p + q) * s1 - p * q * s2, s1) := by
    simp only [Biquad.step, b1, b2, Prod.mk.injEq, and_true]; ring
  rw [hy, hn]
  -- the new state divided by its gain is a convex combination
  have r : (x + (p + q) * s1 - p * q * s2 - p * s1) * (1 - q) =
      (1 - q) * x + q * ((s1 - p * s2) * (1 - q)) := by ring
  have t : (x + (p + q) * s1 - p * q * s2) * ((1 - p) * (1 - q)) =
      (1 - p) * ((x + (p + q) * s1 - p * q * s2 - p * s1) * (1 - q)) +
        p * (s1 * ((1 - p) * (1 - q))) := by ring
  have r1 : m ≤ (x + (p + q) * s1 - p * q * s2 - p * s1) * (1 - q) := by rw [r]; nlinarith
  have r2 : (x + (p + q) * s1 - p * q * s2 - p * s1) * (1 - q) ≤ M := by rw [r]; nlinarith
  have t1 : m ≤ (x + (p + q) * s1 - p * q * s2) * ((1 - p) * (1 - q)) := by rw [t]; nlinarith
  have t2 : (x + (p + q) * s1 - p * q * s2) * ((1 - p) * (1 - q)) ≤ M := by rw [t]; nlinarith
  refine ⟨⟨t1, t2, l1, u1, r1, r2⟩, ?_, ?_⟩ <;> linarith

theorem Overdamped.steady_range {f : Biquad.Filter ℝ} {p q m M : ℝ} (h : Overdamped f p q) {v : ℝ}
    (hv : m ≤ v ∧ v ≤ M) : InRange p q m M (steadyState f v) := by
  obtain ⟨hp, hp1, hq, hq1, f0, f1, f2, b1, b2⟩ := h
  have e : f.fb1 + f.fb2 + 1 = (1 - p) * (1 - q) := by rw [b1, b2]; ring
  have h1 : 1 - p ≠ 0 := by linarith
  have h2 : 1 - q ≠ 0 := by linarith
  have e1 : v / ((1 - p) * (1 - q)) * ((1 - p) * (1 - q)) = v := by field_simp
  have e2 : (v / ((1 - p) * (1 - q)) - p * (v / ((1 - p) * (1 - q)))) * (1 - q) = v := by
    field_simp
  simp only [steadyState, e]
  constructor <;> simp only [e1, e2] <;> tauto

theorem Overdamped.reset_range {f : Biquad.Filter ℝ} {p q m M : ℝ} (_h : Overdamped f p q)
    (hv : m ≤ 0 ∧ 0 ≤ M) : InRange p q m M resetState := by
  constructor <;> simp [resetState] <;> tauto

theorem Overdamped.steady_step {f : Biquad.Filter ℝ} {p q : ℝ} (h : Overdamped f p q) (v : ℝ) :
    Biquad.step f (steadyState f v) v = (steadyState f v, v) := by
  obtain ⟨hp, hp1, hq, hq1, f0, f1, f2, b1, b2⟩ := h
  have e : f.fb1 + f.fb2 + 1 = (1 - p) * (1 - q) := by rw [b1, b2]; ring
  have h1 : 1 - p ≠ 0 := by linarith
  have h2 : 1 - q ≠ 0 := by linarith
  have e1 : v / ((1 - p) * (1 - q)) * ((1 - p) * (1 - q)) = v := by field_simp
  simp only [Biquad.step, steadyState, e]
  generalize v / ((1 - p) * (1 - q)) = u at e1
  simp only [f1, f2, f0, b1, b2, Prod.mk.injEq, and_true]
  refine ⟨?_, ?_⟩
  · linear_combination -e1
  · linear_combination (1 - (1 - p) * (1 - q) / 4) * e1

/-- The lowpass design with `Q ≤ 1/2` has real poles; they are nonnegative if the faster analog
pole is below the bilinear constant. -/
theorem lowpass_overdamped {rate m Q : ℝ} (h0 : 0 < m) (h1 : m < rate / 2) (hQ : 0 < Q)
    (hQ2 : Q ≤ 1 / 2)
    (hα : 2 * Real.pi * m * ((1 / Q + √(1 / Q ^ 2 - 4)) / 2) ≤ computeK m rate) :
    ∃ f p q, lowpassFilter rate m Q = some f ∧ Overdamped f p q := by
  have hr : 0 < rate := by linarith
  have hK := computeK_pos hr h0.le h1
  have hw : 0 < 2 * Real.pi * m := by have := Real.pi_pos; positivity
  unfold lowpassFilter lowpass
  rw [if_pos ⟨h1, h0, hQ⟩]
  unfold bilinearTransform
  dsimp only
  rw [if_pos ⟨rfl, rfl, hr, h0.le, h1⟩]
  generalize computeK m rate = K at *
  generalize 2 * Real.pi * m = w at *
  obtain ⟨d, hd⟩ : ∃ d, d = √(1 / Q ^ 2 - 4) := ⟨_, rfl⟩
  have hd2 : d ^ 2 = 1 / Q ^ 2 - 4 := by
    rw [hd, Real.sq_sqrt]
    have : 4 ≤ 1 / Q ^ 2 := by rw [le_div_iff₀ (by positivity)]; nlinarith
    linarith
  have hd0 : 0 ≤ d := hd ▸ Real.sqrt_nonneg _
  rw [← hd] at hα
  have hiQ : 1 / Q ^ 2 = (1 / Q) ^ 2 := by rw [div_pow, one_pow]
  have hQi : 0 < 1 / Q := one_div_pos.2 hQ
  have hdQ : d < 1 / Q := by
    have : d ^ 2 < (1 / Q) ^ 2 := by rw [hd2, hiQ]; linarith
    exact lt_of_pow_lt_pow_left₀ 2 hQi.le this
  obtain ⟨α, hα'⟩ : ∃ α, α = w * ((1 / Q + d) / 2) := ⟨_, rfl⟩
  obtain ⟨β, hβ'⟩ : ∃ β, β = w * ((1 / Q - d) / 2) := ⟨_, rfl⟩
  have hsum : w / Q = α + β := by rw [hα', hβ']; ring
  have hprod : w * w = α * β := by
    rw [hα', hβ']
    have : (1 / Q + d) * (1 / Q - d) = 4 := by nlinarith
    linear_combination (-(w ^ 2) / 4) * this
  have hβ0 : 0 < β := by rw [hβ']; apply mul_pos hw; linarith
  have hαβ : β ≤ α := by rw [hα', hβ']; apply mul_le_mul_of_nonneg_left _ hw.le; linarith
  have hα0 : 0 < α := by linarith
  rw [← hα'] at hα
  have hKα : 0 < K + α := by linarith
  have hKβ : 0 < K + β := by linarith
  have hden : K * K + w / Q * K + w * w = (K + α) * (K + β) := by rw [hsum, hprod]; ring
  have hden0 : K * K + w / Q * K + w * w ≠ 0 := by rw [hden]; positivity
  simp only [Option.bind_eq_bind, Option.bind_some]
  have ha : (coeffsOf (normalize ⟨bilinearMap [0, 0, w * w] K, bilinearMap [1, w / Q, w * w] K⟩)) =
      ⟨w * w / (K * K + w / Q * K + w * w), 2 * (w * w) / (K * K + w / Q * K + w * w),
        w * w / (K * K + w / Q * K + w * w), 1,
        2 * (w * w - K * K) / (K * K + w / Q * K + w * w),
        (K * K - w / Q * K + w * w) / (K * K + w / Q * K + w * w)⟩ := by
    simp [coeffsOf, FilterDesign.normalize, bilinearMap, div_self hden0]
  rw [ha]
  unfold Biquad.init
  dsimp only
  rw [if_neg one_ne_zero]
  refine ⟨_, (K - α) / (K + α), (K - β) / (K + β), rfl, ?_⟩
  have p1 : 1 - (K - α) / (K + α) = 2 * α / (K + α) := by field_simp; ring
  have q1 : 1 - (K - β) / (K + β) = 2 * β / (K + β) := by field_simp; ring
  have hp1 : 0 < 2 * α / (K + α) := by positivity
  have hq1 : 0 < 2 * β / (K + β) := by positivity
  rw [hden]
  refine ⟨div_nonneg (by linarith) hKα.le, by linarith, div_nonneg (by linarith) hKβ.le,
    by linarith, ?_, ?_, rfl, ?_, ?_⟩
  · dsimp only; rw [p1, q1, hprod]; field_simp; ring
  · dsimp only; field_simp
  · dsimp only; rw [hprod]; field_simp; ring
  · dsimp only; rw [hprod, hsum]; field_simp; ring

theorem computeK_ge {rate m c : ℝ} (h0 : 0 < m) (hr : 0 < rate)
    (ht : Real.pi * m / rate < Real.pi / 2)
    (hc0 : 0 ≤ c) (hc2 : c * Real.tan (Real.pi * m / rate) ≤ 1) :
    2 * Real.pi * m * c ≤ computeK m rate := by
  have hx : 0 < Real.pi * m / rate := by have := Real.pi_pos; positivity
  have htan := Real.tan_pos_of_pos_of_lt_pi_div_two hx ht
  have hpi := Real.pi_pos
  unfold computeK
  split_ifs with h
  · have := Real.lt_tan hx ht
    have h3 : c * (Real.pi * m / rate) ≤ 1 :=
      (mul_le_mul_of_nonneg_left this.le hc0).trans hc2
    have h4 : c * (Real.pi * m / rate) * rate ≤ 1 * rate := mul_le_mul_of_nonneg_right h3 hr.le
    rw [mul_assoc, div_mul_cancel₀ _ hr.ne'] at h4
    linarith
  · rw [le_div_iff₀ htan, mul_assoc]
    nlinarith [mul_pos hpi h0]

theorem smoother_overdamped {rate m : ℝ} (h0 : 0 < m) (h1 : 6 * m ≤ rate) :
    ∃ f p q, lowpassFilter rate m (49 / 100) = some f ∧ Overdamped f p q := by
  have hr : 0 < rate := by linarith
  have hpi := Real.pi_pos
  have hx : 0 ≤ Real.pi * m / rate := by positivity
  have hx6 : Real.pi * m / rate ≤ Real.pi / 6 := by
    rw [div_le_div_iff₀ hr (by norm_num)]; nlinarith
  refine lowpass_overdamped h0 (by linarith) (by norm_num) (by norm_num) ?_
  refine computeK_ge h0 hr (by linarith) (by positivity) ?_
  have ht : Real.tan (Real.pi * m / rate) ≤ 1 / √3 := by
    rw [← Real.tan_pi_div_six]
    exact Real.strictMonoOn_tan.monotoneOn ⟨by linarith, by linarith⟩
      ⟨by linarith, by linarith⟩ hx6
  have h3 : (17 : ℝ) / 10 ≤ √3 := by
    rw [Real.le_sqrt (by norm_num) (by norm_num)]; norm_num
  have ht2 : Real.tan (Real.pi * m / rate) ≤ 10 / 17 := by
    refine ht.trans ?_
    rw [div_le_div_iff₀ (by positivity) (by norm_num)]; linarith
  have hs : √(1 / ((49 : ℝ) / 100) ^ 2 - 4) ≤ 1 / 2 := by
    rw [Real.sqrt_le_left (by norm_num)]; norm_num
  have ht0 : 0 ≤ Real.tan (Real.pi * m / rate) :=
    Real.tan_nonneg_of_nonneg_of_le_pi_div_two hx (by linarith)
  have hs0 := Real.sqrt_nonneg (1 / ((49 : ℝ) / 100) ^ 2 - 4)
  have : (1 / ((49 : ℝ) / 100) + √(1 / (49 / 100) ^ 2 - 4)) / 2 ≤ 13 / 10 := by
    norm_num at hs ⊢; linarith
  calc _ ≤ 13 / 10 * (10 / 17 : ℝ) := mul_le_mul this ht2 ht0 (by norm_num)
    _ ≤ 1 := by norm_num

theorem firstOrder_range {t rate : ℝ} (ht : 0 < t) (hr : 0 < rate) :
    0 < firstOrderCoefficient t rate ∧ firstOrderCoefficient t rate < 1 := by
  unfold firstOrderCoefficient
  have h1 : -1 / (t * rate) < 0 := div_neg_of_neg_of_pos (by norm_num) (mul_pos ht hr)
  have h2 := Real.exp_lt_one_iff.2 h1
  have h3 := Real.exp_pos (-1 / (t * rate))
  constructor <;> linarith

/-! ### Attack/release -/

/-- The follower without parameter interpolation: move the fraction `a` or `r` of the way. -/
theorem follow_range {e r c : ℝ} (hc : 0 ≤ c ∧ c ≤ 1) :
    min e r ≤ e + c * (r - e) ∧ e + c * (r - e) ≤ max e r := by
  rcases le_total e r with h | h
  · rw [min_eq_left h, max_eq_right h]; constructor <;> nlinarith
  · rw [min_eq_right h, max_eq_left h]; constructor <;> nlinarith

theorem follow_mono {e e' r r' a b : ℝ} (ha : 0 ≤ a ∧ a ≤ 1) (hb : 0 ≤ b ∧ b ≤ 1)
    (he : e ≤ e') (hr : r ≤ r') :
    e + (if r > e then a else b) * (r - e) ≤ e' + (if r' > e' then a else b) * (r' - e') := by
  obtain ⟨ha0, ha1⟩ := ha
  obtain ⟨hb0, hb1⟩ := hb
  split_ifs with h1 h2 h2
  · nlinarith
  · push Not at h2; nlinarith
  · push Not at h1; nlinarith
  · nlinarith

/-- Invariant of every history. -/
structure Good (p q : ℝ) (s : AttackRelease) : Prop where
  rate : 0 < s.rate
  smoother : Overdamped s.smoother p q
  attack : 0 ≤ s.attack ∧ s.attack ≤ 1
  release : 0 ≤ s.release ∧ s.release ≤ 1
  attackState : InRange p q 0 1 s.attackState
  releaseState : InRange p q 0 1 s.releaseState

/-- The parameters of a call are positive. -/
def Op.Valid : Op → Prop
  | .output _ => True
  | .setAttack t => 0 < t
  | .setRelease t => 0 < t
  | .reset => True

theorem Good.apply {p q : ℝ} {s : AttackRelease} (h : Good p q s) {o : Op} (ho : o.Valid) :
    Good p q (s.apply o) := by
  obtain ⟨hr, hs, ha, hl, h1, h2⟩ := h
  cases o with
  | output x => exact ⟨hr, hs, ha, hl, (hs.step_range h1 ha).1, (hs.step_range h2 hl).1⟩
  | setAttack t =>
    have := firstOrder_range ho hr
    exact ⟨hr, hs, ⟨this.1.le, this.2.le⟩, hl, h1, h2⟩
  | setRelease t =>
    have := firstOrder_range ho hr
    exact ⟨hr, hs, ha, ⟨this.1.le, this.2.le⟩, h1, h2⟩
  | reset => exact ⟨hr, hs, ha, hl, hs.steady_range ha, hs.steady_range hl⟩

theorem Good.run {p q : ℝ} : ∀ (ops : List Op) {s : AttackRelease}, Good p q s →
    (∀ o ∈ ops, o.Valid) → Good p q (s.run ops)
  | [], _, h, _ => h
  | o :: ops, s, h, hv => by
    simp only [List.mem_cons, forall_eq_or_imp] at hv
    exact Good.run ops (h.apply hv.1) hv.2

theorem make_good {attack release hz rate : ℝ} (ha : 0 < attack) (hl : 0 < release) (h0 : 0 < hz)
    (h1 : 6 * hz ≤ rate) :
    ∃ s p q, AttackRelease.make attack release hz rate = some s ∧ Good p q s ∧
      s = s.reset ∧ s.attack = firstOrderCoefficient attack rate ∧
      s.release = firstOrderCoefficient release rate ∧ s.rate = rate := by
  obtain ⟨f, p, q, hf, ho⟩ := smoother_overdamped h0 h1
  have hr : 0 < rate := by linarith
  have ca := firstOrder_range ha hr
  have cl := firstOrder_range hl hr
  unfold AttackRelease.make
  rw [hf]
  exact ⟨_, p, q, rfl, ⟨hr, ho, ⟨ca.1.le, ca.2.le⟩, ⟨cl.1.le, cl.2.le⟩,
    ho.steady_range ⟨ca.1.le, ca.2.le⟩, ho.steady_range ⟨cl.1.le, cl.2.le⟩⟩, rfl, rfl, rfl, rfl⟩

theorem Good.output_range {p q : ℝ} {s : AttackRelease} (h : Good p q s) (x : ℝ) :
    min s.envelope |x| ≤ (s.output x).2 ∧ (s.output x).2 ≤ max s.envelope |x| := by
  have h1 := (h.smoother.step_range h.attackState h.attack).2
  have h2 := (h.smoother.step_range h.releaseState h.release).2
  unfold AttackRelease.output
  dsimp only
  apply follow_range
  split_ifs
  · exact h1
  · exact h2

/-- The part of the object that does not depend on the audio. -/
structure SameParams (s t : AttackRelease) : Prop where
  attack : s.attack = t.attack
  release : s.release = t.release
  rate : s.rate = t.rate
  smoother : s.smoother = t.smoother
  attackState : s.attackState = t.attackState
  releaseState : s.releaseState = t.releaseState

/-- Two calls that differ at most in that the second has a louder sample. -/
inductive Op.LouderEq : Op → Op → Prop
  | output {x y : ℝ} : |x| ≤ |y| → LouderEq (.output x) (.output y)
  | same (o : Op) : LouderEq o o

theorem louder_step {p q : ℝ} {s t : AttackRelease} (hs : Good p q s) (hp : SameParams s t)
    (he : s.envelope ≤ t.envelope) {o o' : Op} (ho : Op.LouderEq o o') :
    SameParams (s.apply o) (t.apply o') ∧ (s.apply o).envelope ≤ (t.apply o').envelope := by
  have key : ∀ x y : ℝ, |x| ≤ |y| → SameParams (s.apply (.output x)) (t.apply (.output y)) ∧
      (s.apply (.output x)).envelope ≤ (t.apply (.output y)).envelope := by
    intro x y hxy
    have h1 := (hs.smoother.step_range hs.attackState hs.attack).2
    have h2 := (hs.smoother.step_range hs.releaseState hs.release).2
    obtain ⟨p1, p2, p3, p4, p5, p6⟩ := hp
    refine ⟨⟨p1, p2, p3, p4, ?_, ?_⟩, ?_⟩
    · simp only [AttackRelease.apply, AttackRelease.output, p1, p4, p5]
    · simp only [AttackRelease.apply, AttackRelease.output, p2, p4, p6]
    · simp only [AttackRelease.apply, AttackRelease.output]
      rw [← p1, ← p2, ← p4, ← p5, ← p6]
      have := follow_mono h1 h2 he hxy
      convert this using 3
  cases ho with
  | output h => exact key _ _ h
  | same =>
    cases o with
    | output x => exact key x x le_rfl
    | setAttack u =>
      obtain ⟨p1, p2, p3, p4, p5, p6⟩ := hp
      exact ⟨⟨by simp only [AttackRelease.apply, AttackRelease.setAttack, p3], p2, p3, p4, p5, p6⟩,
        he⟩
    | setRelease u =>
      obtain ⟨p1, p2, p3, p4, p5, p6⟩ := hp
      exact ⟨⟨p1, by simp only [AttackRelease.apply, AttackRelease.setRelease, p3], p3, p4, p5, p6⟩,
        he⟩
    | reset =>
      obtain ⟨p1, p2, p3, p4, p5, p6⟩ := hp
      refine ⟨⟨p1, p2, p3, p4, ?_, ?_⟩, le_rfl⟩
      · simp only [AttackRelease.apply, AttackRelease.reset, p1, p4]
      · simp only [AttackRelease.apply, AttackRelease.reset, p2, p4]

/-- Freshly reset smoothers: the interpolated coefficients are the coefficients. -/
structure Settled (s : AttackRelease) : Prop where
  attackState : s.attackState = steadyState s.smoother s.attack
  releaseState : s.releaseState = steadyState s.smoother s.release

theorem reset_settled (s : AttackRelease) : Settled s.reset := ⟨rfl, rfl⟩

open Classical in
theorem settled_output {p q : ℝ} {s : AttackRelease} (h : Good p q s) (hs : Settled s) (x : ℝ) :
    s.output x = ({ s with envelope := s.envelope +
        (if |x| > s.envelope then s.attack else s.release) * (|x| - s.envelope) },
      s.envelope + (if |x| > s.envelope then s.attack else s.release) * (|x| - s.envelope)) := by
  unfold AttackRelease.output
  rw [hs.attackState, hs.releaseState, h.smoother.steady_step, h.smoother.steady_step]

/-! ### `EnvelopeDetector` -/

theorem runSamples_range {f : Biquad.Filter ℝ} {p q m M : ℝ} (h : Overdamped f p q) :
    ∀ (xs : List ℝ) (s : ℝ × ℝ), InRange p q m M s → (∀ x ∈ xs, m ≤ x ∧ x ≤ M) →
      ∀ y ∈ (runSamples (Biquad.step f) s xs).2, m ≤ y ∧ y ≤ M
  | [], _, _, _ => by simp [runSamples]
  | x :: xs, s, hs, hx => by
    simp only [List.mem_cons, forall_eq_or_imp] at hx
    obtain ⟨h1, h2⟩ := h.step_range hs hx.1
    intro y hy
    simp only [runSamples, List.mem_cons] at hy
    rcases hy with rfl | hy
    · exact h2
    · exact runSamples_range h xs _ h1 hx.2 y hy

end Verif.Envelope
