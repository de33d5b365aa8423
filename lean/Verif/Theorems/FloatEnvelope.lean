import Verif.Proof.FloatEnvelope
import Mathlib.Analysis.Real.Pi.Bounds
import Mathlib.Analysis.Complex.ExponentialBounds

/-!
# C105: the attack/release envelope in floating point

`rate` is the sample rate, `hz` the interpolation rate of `AttackReleaseEnvelopeParams`. The attack times used lie in
`[A1, A2]`, the release times in `[R1, R2]`.
-/

namespace Verif.FloatEnvelope
open Verif.Rounding Verif.Biquad Verif.Envelope

/-- The smallest and the largest value of the stored coefficient for time constants in `[T1, T2]`. -/
theorem stored_coefficient {T1 T2 t rate δ v : ℝ} (hr : 0 < rate) (h1 : 3 ≤ T1 * rate) (h2 : T2 * rate ≤ 2 ^ 58)
    (ht : T1 ≤ t ∧ t ≤ T2) (hδ : δ ≤ 1 / 2 ^ 30) (hs : Stored binary32 δ (firstOrderCoefficient t rate) v) :
    83 / 100 / (T2 * rate) ≤ v ∧ v ≤ 1001 / 1000 / (T1 * rate) := by
  have e := hs.error hδ
  have t1 : T1 * rate ≤ t * rate := mul_le_mul_of_nonneg_right ht.1 hr.le
  have t2 : t * rate ≤ T2 * rate := mul_le_mul_of_nonneg_right ht.2 hr.le
  have c1 : firstOrderCoefficient t rate ≤ 1 / (t * rate) := by
    unfold firstOrderCoefficient
    have := Real.add_one_le_exp (-1 / (t * rate))
    rw [neg_div] at this ⊢
    linarith
  have c2 : 5 / 6 * (1 / (t * rate)) ≤ firstOrderCoefficient t rate := by
    unfold firstOrderCoefficient
    rw [neg_div]
    have p : 0 < t * rate := by linarith
    have p1 : 1 / (t * rate) ≤ 1 / 3 := by
      rw [div_le_div_iff₀ p (by norm_num)]; linarith
    have p0 : 0 < 1 / (t * rate) := by positivity
    generalize 1 / (t * rate) = x at *
    -- exp x ≥ 1 + x + x² / 2
    have q := Real.quadratic_le_exp_of_nonneg p0.le
    have q0 : 0 < 1 + x + x ^ 2 / 2 := by positivity
    rw [Real.exp_neg]
    have : (Real.exp x)⁻¹ ≤ 1 - 5 / 6 * x := by
      rw [inv_le_comm₀ (Real.exp_pos x) (by linarith)]
      refine le_trans ?_ q
      rw [inv_le_comm₀ (by linarith) q0, inv_eq_one_div, div_le_iff₀ q0]
      nlinarith [mul_pos p0 p0]
    linarith
  have p : 0 < t * rate := by linarith
  have x1 : 1 / (T2 * rate) ≤ 1 / (t * rate) := one_div_le_one_div_of_le p t2
  have x2 : 1 / (t * rate) ≤ 1 / (T1 * rate) := one_div_le_one_div_of_le (by linarith) t1
  have x0 : 1 / 2 ^ 58 ≤ 1 / (T2 * rate) := one_div_le_one_div_of_le (by linarith) h2
  rw [show 83 / 100 / (T2 * rate) = 83 / 100 * (1 / (T2 * rate)) by ring,
    show 1001 / 1000 / (T1 * rate) = 1001 / 1000 * (1 / (T1 * rate)) by ring]
  generalize 1 / (T2 * rate) = a at *
  generalize 1 / (T1 * rate) = b at *
  generalize 1 / (t * rate) = x at *
  generalize firstOrderCoefficient t rate = c at *
  have η0 : (1 : ℝ) / 2 ^ 150 ≤ 1 / 2 ^ 58 / 10000 := by norm_num
  have a0 : 0 < a := lt_of_lt_of_le (by norm_num) x0
  have c0 : 0 < c := by linarith
  rw [abs_of_pos c0] at e
  obtain ⟨e1, e2⟩ := abs_le.1 e
  have : 21 / 20 * (1 / 2 ^ 24) * c ≤ 1 / 10000 * c := mul_le_mul_of_nonneg_right (by norm_num) c0.le
  constructor <;> linarith

/-- What the proof needs of a smoother whose inputs stay in `[m, M]`. -/
structure Conditions (g : Biquad.Filter ℝ) (p q D m M : ℝ) : Prop where
  poles : RealPoles g p q
  hD : D = (1 - p) * (1 - q)
  gain : |g.ff0 + g.ff1 + g.ff2 - D| ≤ 5 * (1 / 2 ^ 24)
  D100 : 100 * (1 / 2 ^ 24) ≤ D
  hm : 1 / 2 ^ 60 ≤ m
  hM : M ≤ 1 / 2
  ratio : 104 * (1 / 2 ^ 24) * M ≤ D * m

/-- The tangent that the design of the smoother uses. -/
theorem tangent_range {rate hz : ℝ} (h0 : 0 < hz) (h1 : 6 * hz ≤ rate) :
    3.14 * (hz / rate) ≤ Real.tan (Real.pi * hz / rate) ∧ Real.tan (Real.pi * hz / rate) ≤ 10 / 17 := by
  have hr : 0 < rate := by linarith
  have hpi := Real.pi_pos
  have hx : 0 < Real.pi * hz / rate := by positivity
  have hx6 : Real.pi * hz / rate ≤ Real.pi / 6 := by
    rw [div_le_div_iff₀ hr (by norm_num)]; nlinarith
  constructor
  · have := Real.lt_tan hx (by linarith)
    refine le_trans ?_ this.le
    rw [mul_div_assoc]
    exact mul_le_mul_of_nonneg_right Real.pi_gt_d2.le (by positivity)
  · have ht : Real.tan (Real.pi * hz / rate) ≤ 1 / √3 := by
      rw [← Real.tan_pi_div_six]
      exact Real.strictMonoOn_tan.monotoneOn ⟨by linarith, by linarith⟩
        ⟨by linarith, by linarith⟩ hx6
    have h3 : (17 : ℝ) / 10 ≤ √3 := by
      rw [Real.le_sqrt (by norm_num) (by norm_num)]; norm_num
    refine ht.trans ?_
    rw [div_le_div_iff₀ (by positivity) (by norm_num)]; linarith

/-- The conditions hold for the parameters of the theorem. -/
theorem conditions {rate hz δ T1 T2 : ℝ} (h0 : 0 < hz) (h1 : 6 * hz ≤ rate) (hδ : δ ≤ 1 / 2 ^ 30)
    (hT : T1 ≤ T2) (hT1 : 3 ≤ T1 * rate) (hT2 : T2 * rate ≤ 2 ^ 58) (hTr : T2 * rate ^ 2 ≤ 2 ^ 20 * T1 * hz ^ 2)
    {g : Biquad.Filter ℝ} (hg : StoredFilter binary32 δ (lowpassOf (Real.tan (Real.pi * hz / rate)) (2055209 / 4194304)) g) :
    ∃ p q D, (∀ T1 T2, T1 ≤ T2 → 3 ≤ T1 * rate → T2 * rate ≤ 2 ^ 58 → T2 * rate ^ 2 ≤ 2 ^ 20 * T1 * hz ^ 2 →
      Conditions g p q D (83 / 100 / (T2 * rate)) (1001 / 1000 / (T1 * rate))) := by
  have hr : 0 < rate := by linarith
  obtain ⟨t1, t2⟩ := tangent_range h0 h1
  have r0 : 0 < hz / rate := by positivity
  have rr : ∀ T1 T2, 3 ≤ T1 * rate → T2 * rate ^ 2 ≤ 2 ^ 20 * T1 * hz ^ 2 →
      T2 / T1 ≤ 2 ^ 20 * (hz / rate) ^ 2 := by
    intro T1 T2 h1 h2
    have : 0 < T1 := by
      by_contra hc
      push Not at hc
      nlinarith
    rw [div_pow, ← mul_div_assoc, div_le_div_iff₀ this (by positivity)]
    linarith
  have T0 : 0 < T1 := by
    by_contra hc
    push Not at hc
    nlinarith
  have r1 : 1 / 1024 ≤ hz / rate := by
    have a := rr T1 T2 hT1 hTr
    have b : 1 ≤ T2 / T1 := by rw [le_div_iff₀ T0]; linarith
    have c : (1 / 1024) ^ 2 ≤ (hz / rate) ^ 2 := by norm_num at a ⊢; linarith
    exact le_of_sq_le_sq c r0.le
  generalize Real.tan (Real.pi * hz / rate) = t at *
  obtain ⟨p, q, hp, hd, hb⟩ := stored_poles (by linarith) t2 hδ hg
  obtain ⟨D, hD⟩ : ∃ D, D = (1 - p) * (1 - q) := ⟨_, rfl⟩
  rw [← hD] at hd
  refine ⟨p, q, D, ?_⟩
  intro T1 T2 hT hT1 hT2 hTr
  have T0 : 0 < T1 := by
    by_contra hc
    push Not at hc
    nlinarith
  have k := rr T1 T2 hT1 hTr
  have kk : 1 ≤ T2 / T1 := by rw [le_div_iff₀ T0]; linarith
  obtain ⟨E, hE⟩ : ∃ E, E = 4 * t ^ 2 / (1 + t / (2055209 / 4194304) + t ^ 2) := ⟨_, rfl⟩
  rw [← hE] at hd hb
  have E1 : 15 * (hz / rate) ^ 2 ≤ E := by
    have tp : 0 < t := by linarith
    rw [hE, le_div_iff₀ (by positivity)]
    have a : 3.14 ^ 2 * (hz / rate) ^ 2 ≤ t ^ 2 := by
      rw [← mul_pow]; exact pow_le_pow_left₀ (by positivity) t1 2
    have b : 1 + t / (2055209 / 4194304) + t ^ 2 ≤ 2.55 := by
      have : t / (2055209 / 4194304) = 4194304 / 2055209 * t := by ring
      rw [this]; nlinarith
    have c := mul_le_mul_of_nonneg_left b (by positivity : 0 ≤ 15 * (hz / rate) ^ 2)
    norm_num at a c ⊢
    linarith
  have E2 : 15 * (T2 / T1) ≤ 2 ^ 20 * E := by linarith
  obtain ⟨d1, d2⟩ := abs_le.1 hd
  obtain ⟨b1, b2⟩ := abs_le.1 hb
  have D1 : 130 * (1 / 2 ^ 24) * (T2 / T1) ≤ D := by
    norm_num at E2 d1 ⊢
    linarith
  have T20 : 0 < T2 := by linarith
  refine ⟨hp, hD, ?_, ?_, ?_, ?_, ?_⟩
  · rw [abs_le]; constructor <;> linarith
  · have := mul_le_mul_of_nonneg_left kk (by norm_num : (0 : ℝ) ≤ 130 * (1 / 2 ^ 24))
    norm_num at this D1 ⊢
    linarith
  · rw [div_le_div_iff₀ (by norm_num) (by positivity)]
    norm_num at hT2 ⊢
    linarith
  · rw [div_le_iff₀ (by linarith)]
    linarith
  · have a : 104 * (1 / 2 ^ 24) * (1001 / 1000 / (T1 * rate)) = 104 * 1001 / 1000 * (1 / 2 ^ 24) * (T2 / T1) * (1 / (T2 * rate)) := by
      field_simp
    have b : D * (83 / 100 / (T2 * rate)) = 83 / 100 * D * (1 / (T2 * rate)) := by ring
    rw [a, b]
    apply mul_le_mul_of_nonneg_right _ (by positivity)
    have : 0 < T2 / T1 := by linarith
    norm_num at D1 ⊢
    linarith

/-- The error of the states of the smoothers. -/
noncomputable def slack (D M : ℝ) : ℝ := 7 * (4 * (1 / 2 ^ 24)) * (M / D) + 6 * (1 / 2 ^ 150)

/-- The invariant of the object. -/
structure Inv (g : Biquad.Filter ℝ) (rate p q D mA MA mR MR : ℝ) (s : AttackRelease) : Prop where
  smoother : s.smoother = g
  rate : s.rate = rate
  float : binary32 s.envelope = s.envelope
  nonneg : 0 ≤ s.envelope
  attack : mA ≤ s.attack ∧ s.attack ≤ MA
  release : mR ≤ s.release ∧ s.release ≤ MR
  attackState : InRange p q (mA - slack D MA) (MA + slack D MA) s.attackState
  releaseState : InRange p q (mR - slack D MR) (MR + slack D MR) s.releaseState

section
variable {g : Biquad.Filter ℝ} {rate p q D mA MA mR MR : ℝ}

theorem Inv.output (ca : Conditions g p q D mA MA) (cr : Conditions g p q D mR MR) {s s' : AttackRelease}
    (h : Inv g rate p q D mA MA mR MR s) {x : ℝ} (hx : binary32 x = x) (hc : Output binary32 s x s') :
    Inv g rate p q D mA MA mR MR s' ∧ min s.envelope |x| ≤ s'.envelope ∧ s'.envelope ≤ max s.envelope |x| := by
  obtain ⟨a, r, as, rs, e, h1, h2, h3, rfl⟩ := hc
  have hxa : binary32 |x| = |x| := by
    rcases abs_choice x with e | e <;> rw [e]
    · exact hx
    · rw [binary32_regular.neg, hx]
  rw [h.smoother] at h1 h2
  obtain ⟨i1, a0, a1⟩ := coefficient_range ca.poles ca.hD rfl ca.gain ca.hm ca.hM ca.ratio rfl h.attack h.attackState h1
  obtain ⟨i2, r0, r1⟩ := coefficient_range cr.poles cr.hD rfl cr.gain cr.hm cr.hM cr.ratio rfl h.release h.releaseState h2
  have c : 0 ≤ (if |x| > s.envelope then a else r) ∧ (if |x| > s.envelope then a else r) ≤ 4 / 5 := by
    split_ifs
    · exact ⟨a0, a1⟩
    · exact ⟨r0, r1⟩
  generalize (if |x| > s.envelope then a else r) = c at *
  obtain ⟨f1, f2, f3⟩ := follow (p := 24) (emin := -149) (by norm_num) (by norm_num) h.float hxa c.1
    (by
      have : ((1 : ℝ) + 1 / 2 ^ 24) ^ 2 ≤ 5 / 4 := by norm_num
      exact (mul_le_mul c.2 this (by positivity) (by norm_num)).trans (by norm_num)) h3
  exact ⟨⟨h.smoother, h.rate, f3, (le_min h.nonneg (abs_nonneg x)).trans f1, h.attack, h.release, i1, i2⟩, f1, f2⟩

theorem Inv.reset (ca : Conditions g p q D mA MA) (cr : Conditions g p q D mR MR) {s s' : AttackRelease}
    (hs : s.smoother = g) (hr : s.rate = rate) (ha : mA ≤ s.attack ∧ s.attack ≤ MA)
    (hl : mR ≤ s.release ∧ s.release ≤ MR) (hc : Reset binary32 s s') : Inv g rate p q D mA MA mR MR s' := by
  obtain ⟨a, r, h1, h2, rfl⟩ := hc
  rw [hs] at h1 h2
  exact ⟨hs, hr, binary32_regular.zero, le_refl _, ha, hl,
    steady_inRange ca.poles ca.hD ca.D100 ((by norm_num : (0 : ℝ) ≤ 1 / 2 ^ 60).trans ca.hm) ha rfl h1,
    steady_inRange cr.poles cr.hD cr.D100 ((by norm_num : (0 : ℝ) ≤ 1 / 2 ^ 60).trans cr.hm) hl rfl h2⟩

end

/-- Calls with floating-point samples and with attack times in `[A1, A2]` and release times in `[R1, R2]`. -/
def Valid (A1 A2 R1 R2 : ℝ) : Op → Prop
  | .output x => binary32 x = x
  | .setAttack t => A1 ≤ t ∧ t ≤ A2
  | .setRelease t => R1 ≤ t ∧ t ≤ R2
  | .reset => True

/-- The conditions on the sample rate, the interpolation rate and the range of a time constant: at least three samples,
at most `2 ^ 22` (the error of `1 - exp(-1 / (t * rate))` in `double` is then below `1 / 2 ^ 30`), and a range that is
not too wide. -/
structure TimesOk (hz rate T1 T2 : ℝ) : Prop where
  le : T1 ≤ T2
  fast : 3 ≤ T1 * rate
  slow : T2 * rate ≤ 2 ^ 22
  ratio : T2 * rate ^ 2 ≤ 2 ^ 20 * T1 * hz ^ 2

theorem TimesOk.slow' {hz rate T1 T2 : ℝ} (h : TimesOk hz rate T1 T2) : T2 * rate ≤ 2 ^ 58 :=
  h.slow.trans (by norm_num)

section
variable {attack release hz rate δ A1 A2 R1 R2 : ℝ} {s : AttackRelease}

theorem rate_le (h0 : 0 < hz) (h1 : 6 * hz ≤ rate) (hA : TimesOk hz rate A1 A2) : rate / 10 ^ 7 ≤ hz := by
  have hr : 0 < rate := by linarith
  have T0 : 0 < A1 := by
    by_contra hc
    push Not at hc
    nlinarith [hA.fast]
  have a : rate ^ 2 ≤ 2 ^ 20 * hz ^ 2 := by
    have b := hA.ratio
    have c : A1 * rate ^ 2 ≤ A2 * rate ^ 2 := mul_le_mul_of_nonneg_right hA.le (by positivity)
    have d : A1 * rate ^ 2 ≤ A1 * (2 ^ 20 * hz ^ 2) := by linarith
    exact le_of_mul_le_mul_left d T0
  have b : rate ^ 2 ≤ (2 ^ 10 * hz) ^ 2 := by rw [mul_pow]; norm_num at a ⊢; linarith
  have c : rate ≤ 2 ^ 10 * hz := le_of_sq_le_sq b (by positivity)
  rw [div_le_iff₀ (by norm_num)]
  norm_num at c ⊢
  linarith

theorem inv_make (h0 : 0 < hz) (h1 : 6 * hz ≤ rate) (hδ : δ ≤ 1 / 2 ^ 30) (hA : TimesOk hz rate A1 A2)
    (hR : TimesOk hz rate R1 R2) (ha : A1 ≤ attack ∧ attack ≤ A2) (hl : R1 ≤ release ∧ release ≤ R2)
    (hm : Make binary32 δ attack release hz rate s) :
    ∃ g p q D, Conditions g p q D (83 / 100 / (A2 * rate)) (1001 / 1000 / (A1 * rate)) ∧
      Conditions g p q D (83 / 100 / (R2 * rate)) (1001 / 1000 / (R1 * rate)) ∧
      Inv g rate p q D (83 / 100 / (A2 * rate)) (1001 / 1000 / (A1 * rate)) (83 / 100 / (R2 * rate))
        (1001 / 1000 / (R1 * rate)) s := by
  have hr : 0 < rate := by linarith
  obtain ⟨f, s0, hf, hg, sa, sr, rfl, hreset⟩ := hm
  rw [lowpassFilter_eq h0 (by linarith) (rate_le h0 h1 hA) (by norm_num [overdamped])] at hf
  obtain rfl := Option.some.inj hf
  obtain ⟨p, q, D, hc⟩ := conditions h0 h1 hδ hA.le hA.fast hA.slow' hA.ratio hg
  have c1 := hc A1 A2 hA.le hA.fast hA.slow' hA.ratio
  have c2 := hc R1 R2 hR.le hR.fast hR.slow' hR.ratio
  exact ⟨s0.smoother, p, q, D, c1, c2, Inv.reset c1 c2 rfl rfl (stored_coefficient hr hA.fast hA.slow' ha hδ sa)
    (stored_coefficient hr hR.fast hR.slow' hl hδ sr) hreset⟩

theorem inv_call {g : Biquad.Filter ℝ} {p q D : ℝ} (hr : 0 < rate) (hδ : δ ≤ 1 / 2 ^ 30) (hA : TimesOk hz rate A1 A2)
    (hR : TimesOk hz rate R1 R2)
    (c1 : Conditions g p q D (83 / 100 / (A2 * rate)) (1001 / 1000 / (A1 * rate)))
    (c2 : Conditions g p q D (83 / 100 / (R2 * rate)) (1001 / 1000 / (R1 * rate)))
    (h : Inv g rate p q D (83 / 100 / (A2 * rate)) (1001 / 1000 / (A1 * rate)) (83 / 100 / (R2 * rate))
        (1001 / 1000 / (R1 * rate)) s) {o : Op} (ho : Valid A1 A2 R1 R2 o) {s' : AttackRelease}
    (hc : Call binary32 δ s o s') :
    Inv g rate p q D (83 / 100 / (A2 * rate)) (1001 / 1000 / (A1 * rate)) (83 / 100 / (R2 * rate))
        (1001 / 1000 / (R1 * rate)) s' ∧ ∀ B, s.envelope ≤ B → (∀ x, o = .output x → |x| ≤ B) → s'.envelope ≤ B := by
  cases o with
  | output x =>
    obtain ⟨i, -, u⟩ := h.output c1 c2 ho hc
    exact ⟨i, fun B hB hx => u.trans (max_le hB (hx x rfl))⟩
  | setAttack t =>
    obtain ⟨v, hv, rfl⟩ := hc
    rw [h.rate] at hv
    exact ⟨⟨h.smoother, h.rate, h.float, h.nonneg, stored_coefficient hr hA.fast hA.slow' ho hδ hv, h.release,
      h.attackState, h.releaseState⟩, fun B hB _ => hB⟩
  | setRelease t =>
    obtain ⟨v, hv, rfl⟩ := hc
    rw [h.rate] at hv
    exact ⟨⟨h.smoother, h.rate, h.float, h.nonneg, h.attack, stored_coefficient hr hR.fast hR.slow' ho hδ hv,
      h.attackState, h.releaseState⟩, fun B hB _ => hB⟩
  | reset =>
    have i := Inv.reset c1 c2 h.smoother h.rate h.attack h.release hc
    obtain ⟨a, r, -, -, rfl⟩ := hc
    exact ⟨i, fun B hB _ => h.nonneg.trans hB⟩

theorem inv_calls (h0 : 0 < hz) (h1 : 6 * hz ≤ rate) (hδ : δ ≤ 1 / 2 ^ 30) (hA : TimesOk hz rate A1 A2)
    (hR : TimesOk hz rate R1 R2) (ha : A1 ≤ attack ∧ attack ≤ A2) (hl : R1 ≤ release ∧ release ≤ R2)
    (hm : Make binary32 δ attack release hz rate s) {ops : List Op} (ho : ∀ o ∈ ops, Valid A1 A2 R1 R2 o)
    {s' : AttackRelease} (hc : Calls binary32 δ s ops s') :
    (∃ g p q D, Conditions g p q D (83 / 100 / (A2 * rate)) (1001 / 1000 / (A1 * rate)) ∧
      Conditions g p q D (83 / 100 / (R2 * rate)) (1001 / 1000 / (R1 * rate)) ∧
      Inv g rate p q D (83 / 100 / (A2 * rate)) (1001 / 1000 / (A1 * rate)) (83 / 100 / (R2 * rate))
        (1001 / 1000 / (R1 * rate)) s') ∧
      ∀ B, 0 ≤ B → (∀ x, Op.output x ∈ ops → |x| ≤ B) → s'.envelope ≤ B := by
  induction hc with
  | nil =>
    refine ⟨inv_make h0 h1 hδ hA hR ha hl hm, fun B hB _ => ?_⟩
    obtain ⟨f, s0, -, -, -, -, -, a, r, -, -, rfl⟩ := hm
    exact hB
  | snoc hc hcall ih =>
    obtain ⟨⟨g, p, q, D, c1, c2, i⟩, b⟩ := ih (fun o h => ho o (by simp [h]))
    obtain ⟨i', b'⟩ := inv_call (by linarith) hδ hA hR c1 c2 i (ho _ (by simp)) hcall
    exact ⟨⟨g, p, q, D, c1, c2, i'⟩, fun B hB hx => b' B (b B hB fun x h => hx x (by simp [h]))
      fun x h => hx x (by simp [h])⟩

/-- **C105.** In single precision, with or without fused multiply-add, after every history of samples, parameter changes
within the ranges and resets: the envelope is nonnegative and at most the largest magnitude seen, and every output lies
between the previous output and the magnitude of the sample. Missing: other interpolation rates and time constants, for
which the property may fail (`C105_interpolation_violation`). -/
theorem C105_range_partial (h0 : 0 < hz) (h1 : 6 * hz ≤ rate) (hδ : δ ≤ 1 / 2 ^ 30) (hA : TimesOk hz rate A1 A2)
    (hR : TimesOk hz rate R1 R2) (ha : A1 ≤ attack ∧ attack ≤ A2) (hl : R1 ≤ release ∧ release ≤ R2)
    (hm : Make binary32 δ attack release hz rate s) {ops : List Op} (ho : ∀ o ∈ ops, Valid A1 A2 R1 R2 o)
    {s' : AttackRelease} (hc : Calls binary32 δ s ops s') :
    0 ≤ s'.envelope ∧ (∀ B, 0 ≤ B → (∀ x, Op.output x ∈ ops → |x| ≤ B) → s'.envelope ≤ B) ∧
      ∀ x s'', binary32 x = x → Output binary32 s' x s'' →
        min s'.envelope |x| ≤ s''.envelope ∧ s''.envelope ≤ max s'.envelope |x| := by
  obtain ⟨⟨g, p, q, D, c1, c2, i⟩, b⟩ := inv_calls h0 h1 hδ hA hR ha hl hm ho hc
  exact ⟨i.nonneg, b, fun x s'' hx hout => (i.output c1 c2 hx hout).2⟩

theorem denominator_ne {g : Biquad.Filter ℝ} {p q D m M : ℝ} (c : Conditions g p q D m M) :
    denominator binary32 g ≠ 0 := by
  intro h
  have e := denominator_error c.poles c.hD
  have d := c.D100
  rw [h] at e
  have := (abs_le.1 e).1
  norm_num at this d
  linarith

/-- **C105.** No call fails: the constructor and every later call have a result (in particular, `Reset` does not divide
by zero). Missing: as in `C105_range_partial`. -/
theorem C105_total_partial (h0 : 0 < hz) (h1 : 6 * hz ≤ rate) (δ0 : 0 ≤ δ) (hδ : δ ≤ 1 / 2 ^ 30) (hA : TimesOk hz rate A1 A2)
    (hR : TimesOk hz rate R1 R2) (ha : A1 ≤ attack ∧ attack ≤ A2) (hl : R1 ≤ release ∧ release ≤ R2) (ops : List Op)
    (ho : ∀ o ∈ ops, Valid A1 A2 R1 R2 o) :
    (∃ s, Make binary32 δ attack release hz rate s) ∧
      ∀ s, Make binary32 δ attack release hz rate s → ∃ s', Calls binary32 δ s ops s' := by
  have store : ∀ c, Stored binary32 δ c (binary32 c) := fun c => ⟨c, by rw [sub_self, abs_zero]; positivity, rfl⟩
  constructor
  · obtain ⟨f, hf⟩ : ∃ f, lowpassFilter rate hz overdamped = some f :=
      ⟨_, lowpassFilter_eq h0 (by linarith) (rate_le h0 h1 hA) (by norm_num [overdamped])⟩
    let s0 : AttackRelease := ⟨0, binary32 (firstOrderCoefficient attack rate), binary32 (firstOrderCoefficient release rate),
      rate, ⟨binary32 f.ff0, binary32 f.ff1, binary32 f.ff2, binary32 f.fb1, binary32 f.fb2⟩, resetState, resetState⟩
    have hg : StoredFilter binary32 δ f s0.smoother := ⟨store _, store _, store _, store _, store _⟩
    have hd : denominator binary32 s0.smoother ≠ 0 := by
      rw [lowpassFilter_eq h0 (by linarith) (rate_le h0 h1 hA) (by norm_num [overdamped])] at hf
      obtain rfl := Option.some.inj hf
      obtain ⟨p, q, D, hc⟩ := conditions h0 h1 hδ hA.le hA.fast hA.slow' hA.ratio hg
      exact denominator_ne (hc A1 A2 hA.le hA.fast hA.slow' hA.ratio)
    exact ⟨_, f, s0, hf, hg, store _, store _, rfl, _, _, ⟨hd, rfl⟩, ⟨hd, rfl⟩, rfl⟩
  · intro s hm
    induction ops using List.reverseRecOn with
    | nil => exact ⟨s, .nil⟩
    | append_singleton ops o ih =>
      obtain ⟨s', hc⟩ := ih fun o h => ho o (by simp [h])
      obtain ⟨⟨g, p, q, D, c1, c2, i⟩, -⟩ := inv_calls h0 h1 hδ hA hR ha hl hm (fun o h => ho o (by simp [h])) hc
      have : ∃ s'', Call binary32 δ s' o s'' := by
        cases o with
        | output x =>
          exact ⟨_, _, _, _, _, _, ⟨⟨_, .inl rfl, rfl⟩, _, .inl rfl, .inl rfl⟩, ⟨⟨_, .inl rfl, rfl⟩, _, .inl rfl, .inl rfl⟩,
            .inl rfl, rfl⟩
        | setAttack t => exact ⟨_, _, store _, rfl⟩
        | setRelease t => exact ⟨_, _, store _, rfl⟩
        | reset =>
          have := denominator_ne c1
          rw [← i.smoother] at this
          exact ⟨_, _, _, ⟨this, rfl⟩, ⟨this, rfl⟩, rfl⟩
      obtain ⟨s'', h⟩ := this
      exact ⟨s'', .snoc hc h⟩

end

/-- The default parameters (50 ms, 200 ms, 200 Hz) at 48 kHz; the attack time may be changed between 10 ms and 150 ms. -/
example : TimesOk 200 48000 (1 / 100) (15 / 100) ∧ TimesOk 200 48000 (1 / 5) (1 / 5) := by
  constructor <;> constructor <;> norm_num

/-- Such an object, and a history of calls. -/
example : ∃ s s', Make binary32 0 (1 / 20) (1 / 5) 200 48000 s ∧
    Calls binary32 0 s [.output 1, .setAttack (1 / 10), .output (-1), .reset, .output 1] s' := by
  have hA : TimesOk 200 48000 (1 / 100) (15 / 100) := by constructor <;> norm_num
  have hR : TimesOk 200 48000 (1 / 5) (1 / 5) := by constructor <;> norm_num
  obtain ⟨⟨s, h⟩, c⟩ := C105_total_partial (attack := 1 / 20) (release := 1 / 5) (δ := 0) (by norm_num) (by norm_num) le_rfl
    (by norm_num) hA hR (by norm_num) (by norm_num) [.output 1, .setAttack (1 / 10), .output (-1), .reset, .output 1]
    (by simp [Valid, binary32_regular.one, binary32_regular.neg]; norm_num)
  obtain ⟨s', h'⟩ := c s h
  exact ⟨s, s', h, h'⟩

/-! ## Low corner frequencies -/

theorem rhe_near {x : ℝ} {m : ℤ} (h : |x - m| < 1 / 2) : roundHalfEven x = m := by
  have a := rhe_err x
  have b : |((roundHalfEven x - m : ℤ) : ℝ)| < 1 := by
    push_cast
    calc |(roundHalfEven x : ℝ) - m| = |((roundHalfEven x : ℝ) - x) + (x - m)| := by ring_nf
      _ ≤ _ := abs_add_le _ _
      _ < 1 := by linarith
  rw [← Int.cast_abs] at b
  have c : |roundHalfEven x - m| < 1 := by exact_mod_cast b
  have := Int.abs_lt_one_iff.1 c
  omega

theorem binary32_near {x : ℝ} {e : ℤ} (he : -126 ≤ e) (h1 : (2 : ℝ) ^ e ≤ |x|) (h2 : |x| < 2 ^ (e + 1)) {m : ℤ}
    (h : |x / 2 ^ (e - 23) - m| < 1 / 2) : binary32 x = m * 2 ^ (e - 23) := by
  have x0 : 0 < |x| := lt_of_lt_of_le (by positivity) h1
  have hl : Int.log 2 |x| = e := by
    have a := (Int.zpow_le_iff_le_log (b := 2) (by norm_num) x0).1 (by exact_mod_cast h1 : ((2 : ℕ) : ℝ) ^ e ≤ |x|)
    have b := (Int.lt_zpow_iff_log_lt (b := 2) (by norm_num) x0).1 (by exact_mod_cast h2 : |x| < ((2 : ℕ) : ℝ) ^ (e + 1))
    omega
  unfold binary32 ieee
  dsimp only
  have : max (Int.log 2 |x| + 1 - ((24 : ℕ) : ℤ)) (-149) = e - 23 := by rw [hl]; push_cast; omega
  rw [this, rhe_near h]

/-- `overdamped` is the nearest `float` to 0.49. -/
theorem overdamped_eq : binary32 (49 / 100) = overdamped := by
  rw [binary32_near (e := -2) (m := 16441672) (by norm_num) (by rw [abs_of_pos (by norm_num)]; norm_num)
    (by rw [abs_of_pos (by norm_num)]; norm_num) (by norm_num [abs_lt])]
  norm_num [overdamped]

theorem tan_one_hertz : 712379 / 10 ^ 10 ≤ Real.tan (Real.pi * 1 / 44100) ∧
    Real.tan (Real.pi * 1 / 44100) ≤ 71238 / 10 ^ 9 := by
  obtain ⟨x, hx⟩ : ∃ x, x = Real.pi * 1 / 44100 := ⟨_, rfl⟩
  have p1 := Real.pi_gt_d6
  have p2 := Real.pi_lt_d6
  have x0 : 0 < x := by rw [hx]; positivity
  have x1 : 712379 / 10 ^ 10 ≤ x := by rw [hx]; linarith
  have x2 : x ≤ 71237937 / 10 ^ 12 := by rw [hx]; linarith
  rw [← hx]
  constructor
  · exact x1.trans (Real.le_tan x0.le (by linarith))
  · rw [Real.tan_eq_sin_div_cos]
    have c := Real.one_sub_sq_div_two_le_cos (x := x)
    have c0 : 1 - 1 / 10 ^ 8 ≤ Real.cos x := by nlinarith
    rw [div_le_iff₀ (by linarith)]
    have := Real.sin_le x0.le
    nlinarith

/-- The feedback coefficients that are stored for a lowpass filter with corner frequency 1 Hz at 44.1 kHz. -/
theorem one_hertz {δ Q : ℝ} (hδ : δ ≤ 1 / 2 ^ 30) {t : ℝ} (t1 : 712379 / 10 ^ 10 ≤ t) (t2 : t ≤ 71238 / 10 ^ 9)
    {n1 n2 : ℤ} {κ : ℝ} (hκ : κ = 1 / Q)
    (h1 : |2 * (t ^ 2 - 1) / (1 + κ * t + t ^ 2) * 2 ^ 23 - n1| ≤ 48 / 100)
    (h2 : |(1 - κ * t + t ^ 2) / (1 + κ * t + t ^ 2) * 2 ^ 24 - n2| ≤ 48 / 100)
    (r1 : 2 ^ 23 + 1 ≤ -n1 ∧ -n1 ≤ 2 ^ 24 - 1) (r2 : 2 ^ 23 + 1 ≤ n2 ∧ n2 ≤ 2 ^ 24 - 1)
    {g : Biquad.Filter ℝ} (hg : StoredFilter binary32 δ (lowpassOf t Q) g) :
    g.fb1 = n1 / 2 ^ 23 ∧ g.fb2 = n2 / 2 ^ 24 := by
  have tq : t / Q = κ * t := by rw [hκ]; ring
  obtain ⟨d1, e1, f1⟩ := hg.fb1
  obtain ⟨d2, e2, f2⟩ := hg.fb2
  simp only [lowpassOf, tq] at e1 e2
  generalize 2 * (t ^ 2 - 1) / (1 + κ * t + t ^ 2) = b1 at *
  generalize (1 - κ * t + t ^ 2) / (1 + κ * t + t ^ 2) = b2 at *
  have q1 : (2 : ℝ) ^ 23 + 1 ≤ -(n1 : ℝ) := by exact_mod_cast r1.1
  have q2 : -(n1 : ℝ) ≤ 2 ^ 24 - 1 := by exact_mod_cast r1.2
  have q3 : (2 : ℝ) ^ 23 + 1 ≤ (n2 : ℝ) := by exact_mod_cast r2.1
  have q4 : (n2 : ℝ) ≤ 2 ^ 24 - 1 := by exact_mod_cast r2.2
  have a1 := abs_le.1 h1
  have a2 := abs_le.1 h2
  have b1n : |b1| ≤ 2 := by rw [abs_le]; constructor <;> linarith [a1.1, a1.2]
  have b2n : |b2| ≤ 1 := by rw [abs_le]; constructor <;> linarith [a2.1, a2.2]
  have c1 := abs_le.1 (e1.trans ((mul_le_mul_of_nonneg_right hδ (abs_nonneg _)).trans
    (mul_le_mul_of_nonneg_left b1n (by norm_num))))
  have c2 := abs_le.1 (e2.trans ((mul_le_mul_of_nonneg_right hδ (abs_nonneg _)).trans
    (mul_le_mul_of_nonneg_left b2n (by norm_num))))
  norm_num at c1 c2 a1 a2 q1 q2 q3 q4
  rw [f1, f2]
  constructor
  · have s : |d1| = -d1 := abs_of_nonpos (by linarith [c1.1, c1.2])
    rw [binary32_near (e := 0) (m := n1) (by norm_num) (by rw [s]; norm_num; linarith [c1.1, c1.2])
      (by rw [s]; norm_num; linarith [c1.1, c1.2])
      (by norm_num; rw [abs_lt]; constructor <;> linarith [c1.1, c1.2])]
    norm_num
    ring
  · have s : |d2| = d2 := abs_of_nonneg (by linarith [c2.1, c2.2])
    rw [binary32_near (e := -1) (m := n2) (by norm_num) (by rw [s]; norm_num; linarith [c2.1, c2.2])
      (by rw [s]; norm_num; linarith [c2.1, c2.2])
      (by norm_num; rw [abs_lt]; constructor <;> linarith [c2.1, c2.2])]
    norm_num
    ring

theorem one_hertz_overdamped {δ : ℝ} (hδ : δ ≤ 1 / 2 ^ 30) {g : Biquad.Filter ℝ}
    (hg : StoredFilter binary32 δ (lowpassOf (Real.tan (Real.pi * 1 / 44100)) overdamped) g) :
    g.fb1 + g.fb2 = -1 := by
  obtain ⟨t1, t2⟩ := tan_one_hertz
  generalize Real.tan (Real.pi * 1 / 44100) = t at *
  have s1 : (712379 / 10 ^ 10) ^ 2 ≤ t ^ 2 := pow_le_pow_left₀ (by norm_num) t1 2
  have s2 : t ^ 2 ≤ (71238 / 10 ^ 9) ^ 2 := pow_le_pow_left₀ (by linarith) t2 2
  have A : 0 < 1 + 4194304 / 2055209 * t + t ^ 2 := by nlinarith
  obtain ⟨h1, h2⟩ := one_hertz (n1 := -16774777) (n2 := 16772338) (κ := 4194304 / 2055209) hδ t1 t2
    (by norm_num [overdamped])
    (by rw [div_mul_eq_mul_div, abs_le]; constructor
        · rw [le_sub_iff_add_le, le_div_iff₀ A]; norm_num at *; nlinarith
        · rw [sub_le_iff_le_add, div_le_iff₀ A]; norm_num at *; nlinarith)
    (by rw [div_mul_eq_mul_div, abs_le]; constructor
        · rw [le_sub_iff_add_le, le_div_iff₀ A]; norm_num at *; nlinarith
        · rw [sub_le_iff_le_add, div_le_iff₀ A]; norm_num at *; nlinarith) (by norm_num) (by norm_num) hg
  rw [h1, h2]
  norm_num

theorem one_hertz_half {δ : ℝ} (hδ : δ ≤ 1 / 2 ^ 30) {g : Biquad.Filter ℝ}
    (hg : StoredFilter binary32 δ (lowpassOf (Real.tan (Real.pi * 1 / 44100)) (1 / 2)) g) :
    g.fb1 + g.fb2 = -1 ∧ 99 / 100 ≤ g.fb2 := by
  obtain ⟨t1, t2⟩ := tan_one_hertz
  generalize Real.tan (Real.pi * 1 / 44100) = t at *
  have s1 : (712379 / 10 ^ 10) ^ 2 ≤ t ^ 2 := pow_le_pow_left₀ (by norm_num) t1 2
  have s2 : t ^ 2 ≤ (71238 / 10 ^ 9) ^ 2 := pow_le_pow_left₀ (by linarith) t2 2
  have A : 0 < 1 + 2 * t + t ^ 2 := by nlinarith
  obtain ⟨h1, h2⟩ := one_hertz (n1 := -16774826) (n2 := 16772436) (κ := 2) hδ t1 t2 (by norm_num)
    (by rw [div_mul_eq_mul_div, abs_le]; constructor
        · rw [le_sub_iff_add_le, le_div_iff₀ A]; norm_num at *; nlinarith
        · rw [sub_le_iff_le_add, div_le_iff₀ A]; norm_num at *; nlinarith)
    (by rw [div_mul_eq_mul_div, abs_le]; constructor
        · rw [le_sub_iff_add_le, le_div_iff₀ A]; norm_num at *; nlinarith
        · rw [sub_le_iff_le_add, div_le_iff₀ A]; norm_num at *; nlinarith) (by norm_num) (by norm_num) hg
  rw [h1, h2]
  norm_num

/-- **C105 is violated** for slow interpolation: with `interpolation_rate_hz = 1` at 44.1 kHz the stored feedback
coefficients satisfy `1 + fb1 + fb2 = 0`, and the constructor divides by zero. -/
theorem C105_interpolation_violation {δ : ℝ} (hδ : δ ≤ 1 / 2 ^ 30) (attack release : ℝ) :
    ¬ ∃ s, Make binary32 δ attack release 1 44100 s := by
  rintro ⟨s', f, s, hf, hg, -, -, -, a, r, h, -⟩
  rw [lowpassFilter_eq (by norm_num) (by norm_num) (by norm_num) (by norm_num [overdamped])] at hf
  obtain rfl := Option.some.inj hf
  apply h.1
  unfold denominator
  rw [one_hertz_overdamped hδ hg, binary32_regular.neg, binary32_regular.one, neg_add_cancel, binary32_regular.zero]

/-- **C105 is violated** by the smoother of `EnvelopeDetector` (envelope_detector.cc:44-49) for low cutoffs: with
`envelope_cutoff_hz = 1` at 44.1 kHz the stored filter has a pole at `z = 1`. Even in exact arithmetic, the output of
the stored filter grows without bound when the rectified signal is constantly 1. -/
theorem C105_detector_violation {δ : ℝ} (hδ : δ ≤ 1 / 2 ^ 30) {f g : Biquad.Filter ℝ}
    (hf : lowpassFilter 44100 1 (1 / 2) = some f) (hg : StoredFilter binary32 δ f g) {y : ℕ → ℝ}
    (hy : FloatBiquad.Response (FloatBiquad.Step id g) (fun _ => 1) y) (B : ℝ) : ∃ n, B < y n := by
  rw [lowpassFilter_eq (by norm_num) (by norm_num) (by norm_num) (by norm_num)] at hf
  obtain rfl := Option.some.inj hf
  obtain ⟨h1, h2⟩ := one_hertz_half hδ hg
  have e0 := hg.ff0.error hδ
  have e1 := hg.ff1.error hδ
  have e2 := hg.ff2.error hδ
  simp only [lowpassOf] at e0 e1 e2
  obtain ⟨t1, t2⟩ := tan_one_hertz
  generalize Real.tan (Real.pi * 1 / 44100) = t at *
  have A : 0 < 1 + t / (1 / 2) + t ^ 2 := by
    have : t / (1 / 2) = 2 * t := by ring
    nlinarith
  obtain ⟨c, hc⟩ : ∃ c, c = t ^ 2 / (1 + t / (1 / 2) + t ^ 2) := ⟨_, rfl⟩
  have c0 : 1 / 10 ^ 9 ≤ c := by
    rw [hc, le_div_iff₀ A]
    have : t / (1 / 2) = 2 * t := by ring
    rw [this]
    nlinarith
  have e1' : |g.ff1 - 2 * c| ≤ 21 / 20 * (1 / 2 ^ 24) * (2 * c) + 1 / 2 ^ 150 := by
    have : 2 * t ^ 2 / (1 + t / (1 / 2) + t ^ 2) = 2 * c := by rw [hc]; ring
    rw [this, abs_of_nonneg (a := 2 * c) (by linarith)] at e1
    exact e1
  rw [← hc, abs_of_nonneg (a := c) (by linarith)] at e0 e2
  have z : (1 : ℝ) / 2 ^ 150 ≤ 1 / 10 ^ 20 := by norm_num
  have g0 : 1 / 10 ^ 10 ≤ g.ff0 := by
    have := (abs_le.1 e0).1
    norm_num at this z c0 ⊢
    linarith
  have g1 : 0 ≤ g.ff1 := by
    have := (abs_le.1 e1').1
    norm_num at this z c0 ⊢
    linarith
  have g2 : 0 ≤ g.ff2 := by
    have := (abs_le.1 e2).1
    norm_num at this z c0 ⊢
    linarith
  obtain ⟨s, s0, hs⟩ := hy
  have next : ∀ n, s (n + 1) = (1 - ((s n).1 * g.fb1 + (s n).2 * g.fb2), (s n).1) := by
    intro n
    obtain ⟨⟨p, hp, e⟩, -⟩ := hs n
    rw [e]
    rcases hp with rfl | rfl | rfl <;> rfl
  have out : ∀ n, y n = (s (n + 1)).1 * g.ff0 + ((s n).1 * g.ff1 + (s n).2 * g.ff2) := by
    intro n
    obtain ⟨-, q, hq, h⟩ := hs n
    rcases hq with rfl | rfl | rfl <;> rcases h with e | e <;> rw [e] <;> rfl
  have grow : ∀ n : ℕ, (n : ℝ) ≤ (s n).1 ∧ 0 ≤ (s n).2 ∧ (s n).2 ≤ (s n).1 := by
    intro n
    induction n with
    | zero => rw [s0]; simp [resetState]
    | succ n ih =>
      rw [next]
      obtain ⟨i1, i2, i3⟩ := ih
      have n0 : (0 : ℝ) ≤ n := Nat.cast_nonneg n
      have e : 1 - ((s n).1 * g.fb1 + (s n).2 * g.fb2) = 1 + (s n).1 + g.fb2 * ((s n).1 - (s n).2) := by
        have : g.fb1 = -1 - g.fb2 := by linarith
        rw [this]; ring
      have k : 0 ≤ g.fb2 * ((s n).1 - (s n).2) := mul_nonneg (by linarith) (by linarith)
      refine ⟨?_, by dsimp only; linarith, ?_⟩
      · dsimp only
        rw [e]
        push_cast
        linarith
      · dsimp only
        rw [e]
        linarith
  obtain ⟨n, hn⟩ := exists_nat_gt (10 ^ 10 * B)
  refine ⟨n, ?_⟩
  rw [out]
  have a := (grow (n + 1)).1
  obtain ⟨b1, b2, b3⟩ := grow n
  have n0 : (0 : ℝ) ≤ n := Nat.cast_nonneg n
  have k1 : 0 ≤ (s n).1 * g.ff1 := mul_nonneg (by linarith) g1
  have k2 : 0 ≤ (s n).2 * g.ff2 := mul_nonneg b2 g2
  have k3 : (n : ℝ) * (1 / 10 ^ 10) ≤ (s (n + 1)).1 * g.ff0 := by
    push_cast at a
    exact mul_le_mul (by linarith) g0 (by norm_num) (by linarith)
  linarith

/-- The stored filter exists, and it has a response. -/
example : ∃ f g y, lowpassFilter 44100 1 (1 / 2) = some f ∧ StoredFilter binary32 0 f g ∧
    FloatBiquad.Response (FloatBiquad.Step id g) (fun _ => 1) y := by
  have store : ∀ c, Stored binary32 0 c (binary32 c) := fun c => ⟨c, by rw [sub_self, abs_zero, zero_mul], rfl⟩
  let f := lowpassOf (Real.tan (Real.pi * 1 / 44100)) (1 / 2)
  let g : Biquad.Filter ℝ := ⟨binary32 f.ff0, binary32 f.ff1, binary32 f.ff2, binary32 f.fb1, binary32 f.fb2⟩
  let s : ℕ → ℝ × ℝ := fun n => (fun s => (step g s 1).1)^[n] resetState
  refine ⟨f, g, fun n => (step g (s n) 1).2, lowpassFilter_eq (by norm_num) (by norm_num) (by norm_num) (by norm_num),
    ⟨store _, store _, store _, store _, store _⟩, s, rfl, fun n => ?_⟩
  have : s (n + 1) = (step g (s n) 1).1 := Function.iterate_succ_apply' _ _ _
  rw [this]
  exact ⟨⟨_, .inl rfl, rfl⟩, _, .inl rfl, .inl rfl⟩

end Verif.FloatEnvelope
