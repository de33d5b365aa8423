import Verif.Proof.Crossover2
import Verif.Theorems.PoleZero
import Verif.Theorems.Ladder
import Mathlib.Analysis.SpecialFunctions.Trigonometric.Arctan

/-! # C47: Linkwitz-Riley crossovers -/

namespace Verif.PoleZero
open Verif.BiquadCascade Verif.FilterDesign Verif.LinearFilter.Spec Spec
open scoped ComplexConjugate

theorem getD_map_mul (p : List ℝ) (g : ℝ) (k : ℕ) : (p.map (· * g)).getD k 0 = p.getD k 0 * g := by
  rw [List.getD_eq_getElem?_getD, List.getD_eq_getElem?_getD, List.getElem?_map]
  cases p[k]? <;> simp

/-- A pair of conjugate poles inside the unit circle makes a stable section. -/
theorem paired_stable {p : ℂ} (hp : ‖p‖ < 1) {s : Stage ℝ} (hb : s.b.length = 3) (ha : s.a = coefficientsPaired p (conj p)) :
    Stable s := by
  obtain ⟨b, a⟩ := s
  dsimp only at hb ha
  subst ha
  obtain ⟨b0, b1, b2, rfl⟩ : ∃ b0 b1 b2, b = [b0, b1, b2] := by
    match b, hb with
    | [x, y, z], _ => exact ⟨x, y, z, rfl⟩
  unfold Stable coefficientsPaired
  obtain ⟨P, h1, h2⟩ := Ladder.isStable_biquad (b0 := b0) (b1 := b1) (b2 := b2) (a0 := 1) (a1 := -(p + conj p).re)
    (a2 := (p * conj p).re) one_ne_zero
  refine ⟨P, h1, h2.2 ?_⟩
  have hn : Complex.normSq p < 1 := by
    rw [Complex.normSq_eq_norm_sq]; nlinarith [norm_nonneg p]
  have hr : |p.re| < 1 := (Complex.abs_re_le_norm p).trans_lt hp
  have h0 := Complex.normSq_nonneg p
  have e := Complex.normSq_apply p
  rw [div_one, div_one, Complex.mul_conj, Complex.ofReal_re, Complex.add_conj, Complex.ofReal_re, abs_neg, abs_of_nonneg h0,
    abs_mul, abs_two]
  refine ⟨hn, ?_⟩
  have : |p.re| * |p.re| = p.re * p.re := abs_mul_abs_self _
  nlinarith [mul_self_nonneg p.im]

/-- The doubling loop on the explicit cascades of a Butterworth design. -/
theorem double_butter {ε δ : ℝ} (h0 : 0 ≤ ε) (h1 : δ < 1) (hδ : ε ≤ δ) (hεδ : ε ≤ δ * δ) {r g : ℝ} (hr : r * r = 1)
    {pp : List ℂ} {lp : List ℝ} (hpp : ∀ p ∈ pp, ε < Complex.normSq p) (hl : lp.length ≤ 1)
    (hlp : ∀ p ∈ lp, p = 0 ∨ δ < |p|) (hg : ε < g) (hgl : pp = [] → δ < g)
    (hne : 0 < pp.length + lp.length) :
    ∃ cs', doubleLoop ε (adjustGain g (stageList r pp lp)).length 0 (adjustGain g (stageList r pp lp)) = some cs' ∧
      (cs' ≠ [] ∧ (lp = [] → cs'.length = 2 * pp.length ∧ ∀ t ∈ cs', ∃ p ∈ pp, t.a = coefficientsPaired p (conj p))) ∧ (∀ t ∈ cs', GoodStage ε δ t) ∧ ∀ z : ℂ, z ≠ 0 → evalCascade Complex.ofRealHom cs' z
        = evalCascade Complex.ofRealHom (adjustGain g (stageList r pp lp)) z ^ 2 := by
  have hg0 : 0 < g := lt_of_le_of_lt h0 hg
  have hε1 : ε < 1 := lt_of_le_of_lt hδ h1
  have hr1 : |r| = 1 := by
    have : |r| * |r| = 1 := by rw [← abs_mul, hr, abs_one]
    nlinarith [abs_nonneg r]
  have hlone : ∀ (c p : ℝ), δ < |c| → (p = 0 ∨ δ < |p|) →
      isZeroOrder ε ((coefficientsLone r 0).map (· * c)) = false ∧
      GoodStage ε δ ⟨(coefficientsLone r 0).map (· * c), coefficientsLone p 0⟩ := by
    intro c p hc hp
    have hb : δ < |((coefficientsLone r 0).map (· * c)).getD 1 0| := by
      rw [getD_map_mul]
      simpa [coefficientsLone, abs_mul, hr1] using hc
    have hz : isZeroOrder ε ((coefficientsLone r 0).map (· * c)) = false := by
      simp only [isZeroOrder, decide_eq_false_iff_not, not_and_or, not_le]
      exact Or.inl (lt_of_le_of_lt hδ hb)
    refine ⟨hz, ⟨rfl, Or.inr ⟨by rw [getD_map_mul]; simp [coefficientsLone], Or.inr hb⟩⟩, ⟨rfl, Or.inr ⟨by simp [coefficientsLone], ?_⟩⟩,
      by simp [coefficientsLone], fun h => by rw [hz] at h; simp at h, fun _ => by simp [coefficientsLone]⟩
    rcases hp with rfl | hp
    · left; simp [coefficientsLone]
    · right; simpa [coefficientsLone] using hp
  cases pp with
  | nil =>
    match lp, hl, hne with
    | [p], _, _ =>
      have e : adjustGain g (stageList r [] [p]) = [] ++ [⟨(coefficientsLone r 0).map (· * g), coefficientsLone p 0⟩] := by
        simp [stageList, adjustGain]
      obtain ⟨a1, a2⟩ := hlone g p (by rw [abs_of_pos hg0]; exact hgl rfl) (hlp p (by simp))
      rw [e]
      obtain ⟨cs', d, n, rest⟩ := double_spec h0 hδ hεδ (init := [])
        (tail := [⟨(coefficientsLone r 0).map (· * g), coefficientsLone p 0⟩]) (by simp) (by simp) (by simp) (by simpa using a1)
        (by simpa using a2) (by simp)
      exact ⟨cs', d, ⟨n.1, by simp⟩, rest⟩
  | cons q pp =>
    have e : adjustGain g (stageList r (q :: pp) lp)
        = ((⟨(coefficientsLone r r).map (· * g), coefficientsPaired q (conj q)⟩ : Stage ℝ) ::
            pp.map fun p => ⟨coefficientsLone r r, coefficientsPaired p (conj p)⟩) ++
          lp.map fun p => ⟨coefficientsLone r 0, coefficientsLone p 0⟩ := by
      simp [stageList, adjustGain]
    rw [e]
    have hone : (coefficientsLone r 0).map (· * (1 : ℝ)) = coefficientsLone r 0 := by simp
    have hd := @double_spec ε δ h0 hδ hεδ
      ((⟨(coefficientsLone r r).map (· * g), coefficientsPaired q (conj q)⟩ : Stage ℝ) ::
            pp.map fun p => ⟨coefficientsLone r r, coefficientsPaired p (conj p)⟩)
      (lp.map fun p => ⟨coefficientsLone r 0, coefficientsLone p 0⟩) (by simpa using hl)
    refine Exists.imp (fun cs' h => ⟨h.1, ⟨h.2.1.1, fun hl => ⟨by rw [(h.2.1.2 (by simp [hl])).1]; simp, fun t ht => ?_⟩⟩, h.2.2⟩) (hd ?_ ?_ ?_ ?_ (by simp))
    · have ht := (h.2.1.2 (by simp [hl])).2 t ht
      rcases List.mem_cons.1 ht with rfl | ht
      · exact ⟨q, by simp, rfl⟩
      · obtain ⟨p, hp, rfl⟩ := List.mem_map.1 ht
        exact ⟨p, by simp [hp], rfl⟩
    · intro t ht
      rcases List.mem_cons.1 ht with rfl | ht
      · refine ⟨?_, second_paired (hpp q (by simp))⟩
        unfold Second
        rw [getD_map_mul]
        simpa [coefficientsLone, hr, abs_of_pos hg0] using hg
      · obtain ⟨p, hp, rfl⟩ := List.mem_map.1 ht
        exact ⟨second_lone hε1 hr, second_paired (hpp p (by simp [hp]))⟩
    · intro t ht
      rcases List.mem_cons.1 ht with rfl | ht
      · exact ⟨by simp [coefficientsLone], rfl, by simp [coefficientsPaired]⟩
      · obtain ⟨p, hp, rfl⟩ := List.mem_map.1 ht
        exact ⟨rfl, rfl, by simp [coefficientsPaired]⟩
    · intro t ht
      obtain ⟨p, hp, rfl⟩ := List.mem_map.1 ht
      have := (hlone 1 p (by rw [abs_one]; exact h1) (hlp p hp)).1
      rwa [hone] at this
    · intro t ht
      obtain ⟨p, hp, rfl⟩ := List.mem_map.1 ht
      have := (hlone 1 p (by rw [abs_one]; exact h1) (hlp p hp)).2
      rwa [hone] at this

theorem adjustGain_eval (g : ℝ) (cs : List (Stage ℝ)) (hne : cs ≠ []) (hv : ∀ s ∈ cs, s.Valid) (z : ℂ) (hz : z ≠ 0) :
    evalCascade Complex.ofRealHom (adjustGain g cs) z = g * evalCascade Complex.ofRealHom cs z := by
  obtain ⟨e1, e2⟩ := adjustGain_spec g cs hne
  rw [evalCascade_numDen _ (adjustGain_valid g cs hv) z hz, evalCascade_numDen _ hv z hz, numAt_of e1,
    denAt_of (cs' := cs) (c := 1) (by rw [e2, map_one, one_mul]), Complex.ofReal_one, one_mul, mul_div_assoc]

/-- The digital real pole `(1 - t) / (1 + t)` of odd orders (up to the sign for the highpass). -/
theorem lone_poles (N : ℕ) {rate corner t : ℝ} (hr : 0 < rate) (ht : t = Real.tan (Real.pi * corner / rate))
    (ht0 : 0 < t) :
    (∀ p ∈ (lowpassPZ (butterworth N) rate corner).lonePoles, N % 2 = 1 ∧ p = (1 - t) / (1 + t)) ∧
    ∀ p ∈ (highpassPZ (butterworth N) rate corner).lonePoles, N % 2 = 1 ∧ p = (1 - t) / (1 + t) := by
  have hK := computeK_pos hr (le_refl 0) (by linarith)
  have hw : prewarp corner rate = computeK 0 rate * t := by
    rw [ht]; unfold prewarp computeK; rw [if_pos (by positivity)]
  have key : (computeK 0 rate + -(computeK 0 rate * t)) / (computeK 0 rate - -(computeK 0 rate * t))
      = (1 - t) / (1 + t) := by
    have h1 : computeK 0 rate + -(computeK 0 rate * t) = computeK 0 rate * (1 - t) := by ring
    have h2 : computeK 0 rate - -(computeK 0 rate * t) = computeK 0 rate * (1 + t) := by ring
    rw [h1, h2, mul_div_mul_left _ _ hK.ne']
  refine ⟨?_, ?_⟩
  · intro p hp
    simp only [lowpassPZ, PZ.bilinear, PZ.mapFrequency, butterworth, PZ.normalizeGain] at hp
    split_ifs at hp with hN
    · simp only [List.map_cons, List.map_nil, List.mem_singleton] at hp
      refine ⟨hN, ?_⟩
      rw [hp, ← Complex.ofReal_mul, Complex.ofReal_re, hw, mul_neg_one, key]
    · simp at hp
  · intro p hp
    simp only [highpassPZ, PZ.bilinear, PZ.mapFrequency, butterworth, PZ.normalizeGain] at hp
    split_ifs at hp with hN
    · simp only [List.map_cons, List.map_nil, List.mem_singleton] at hp
      refine ⟨hN, ?_⟩
      rw [hp, ← Complex.ofReal_div, Complex.ofReal_re, hw, div_neg, div_one, key]
    · simp at hp

theorem order_bound {N : ℕ} {t : ℝ} (ht : 0 < t) (h1 : 1 / 10 ^ 10 < (t / (1 + t)) ^ N)
    (h2 : 1 / 10 ^ 10 < (1 / (1 + t)) ^ N) : N < 50000 := by
  by_contra hN
  push Not at hN
  have h3 : (1 / 10 ^ 10 : ℝ) * (1 / 10 ^ 10) < (t / (1 + t)) ^ N * (1 / (1 + t)) ^ N :=
    mul_lt_mul'' h1 h2 (by norm_num) (by norm_num)
  rw [← mul_pow] at h3
  have h4 : t / (1 + t) * (1 / (1 + t)) ≤ 1 / 4 := by
    rw [div_mul_div_comm, div_le_div_iff₀ (by positivity) (by norm_num)]
    nlinarith [sq_nonneg (1 - t)]
  have h5 : (t / (1 + t) * (1 / (1 + t))) ^ N ≤ (1 / 4) ^ N := pow_le_pow_left₀ (by positivity) h4 N
  have h6 : ((1 : ℝ) / 4) ^ N ≤ (1 / 4) ^ 40 := pow_le_pow_of_le_one (by norm_num) (by norm_num) (by omega)
  have h7 : ((1 : ℝ) / 4) ^ 40 < 1 / 10 ^ 10 * (1 / 10 ^ 10) := by norm_num
  linarith

/-- The two cascades of `MakeLinkwitzRiley` are squares of Butterworth filters. -/
theorem linkwitz_squares (N : ℕ) (hN0 : 0 < N) (rate hz t : ℝ) (hr : 0 < rate) (h0 : 0 < hz) (h : hz < rate / 2)
    (ht : t = Real.tan (Real.pi * hz / rate)) (hN : N < 50000)
    (hglo : 1 / 10 ^ 10 < (lowpassPZ (butterworth N) rate hz).gain)
    (hghi : 1 / 10 ^ 10 < (highpassPZ (butterworth N) rate hz).gain)
    (hodd : N % 2 = 1 → t = 1 ∨ 1 / 10 ^ 5 < |(1 - t) / (1 + t)|)
    (hone : N = 1 → 1 / 10 ^ 5 < (lowpassPZ (butterworth N) rate hz).gain ∧
      1 / 10 ^ 5 < (highpassPZ (butterworth N) rate hz).gain) :
    ∃ lo hi, crossover (1 / 10 ^ 10) .linkwitzRiley (2 * N) hz rate = some (lo, hi) ∧
      (lo ≠ [] ∧ ∀ s ∈ lo, GoodStage (1 / 10 ^ 10) (1 / 10 ^ 5) s) ∧
      (hi ≠ [] ∧ ∀ s ∈ hi, GoodStage (1 / 10 ^ 10) (1 / 10 ^ 5) s) ∧
      (N % 2 = 0 → (lo.length = N ∧ hi.length = N) ∧ (∀ s ∈ lo, Stable s) ∧ ∀ s ∈ hi, Stable s) ∧ ∀ z : ℂ, z ≠ 0 →
      evalCascade Complex.ofRealHom lo z = ((t * (z + 1)) ^ N / bw N (z - 1) (t * (z + 1))) ^ 2 ∧
      evalCascade Complex.ofRealHom hi z = (-1) ^ N * ((z - 1) ^ N / bw N (z - 1) (t * (z + 1))) ^ 2 := by
  have hpi := Real.pi_pos
  have ht0 : 0 < t := by
    rw [ht]
    refine Real.tan_pos_of_pos_of_lt_pi_div_two (by positivity) ?_
    rw [div_lt_iff₀ hr]
    nlinarith
  obtain ⟨l1, l2, _, _⟩ := lowpassPZ_shape N rate hz
  obtain ⟨k1, k2, _, _⟩ := highpassPZ_shape N hr hz
  obtain ⟨e1, ev1⟩ := butterworth_lowpass hN0 hN hr h0 h
  obtain ⟨e2, ev2⟩ := butterworth_highpass hN0 hN hr h0 h
  rw [← ht] at ev1 ev2
  obtain ⟨q1, q2⟩ := lone_poles N hr ht ht0
  have hlone : ∀ p, N % 2 = 1 ∧ p = (1 - t) / (1 + t) → p = 0 ∨ (1 / 10 ^ 5 : ℝ) < |p| := by
    rintro p ⟨ho, rfl⟩
    rcases hodd ho with rfl | h'
    · left; simp
    · right; exact h'
  have hnil : ∀ {pp : List ℂ} {lp : List ℝ}, pp.length = N / 2 → pp = [] → N = 1 := by
    intro pp lp hlen hp
    rw [hp] at hlen; simp at hlen; omega
  obtain ⟨lo, d1, ⟨n1, m1⟩, v1, s1⟩ := double_butter (ε := 1 / 10 ^ 10) (δ := 1 / 10 ^ 5) (by norm_num) (by norm_num)
    (by norm_num) (by norm_num) (r := -1) (by norm_num) (lowpass_pole_big hN hr h0 h) (by omega)
    (fun p hp => hlone p (q1 p hp)) hglo (fun hp => (hone (hnil (lp := []) l1 hp)).1) (by omega)
  obtain ⟨hi, d2, ⟨n2, m2⟩, v2, s2⟩ := double_butter (ε := 1 / 10 ^ 10) (δ := 1 / 10 ^ 5) (by norm_num) (by norm_num)
    (by norm_num) (by norm_num) (r := 1) (by norm_num) (highpass_pole_big hN hr h0 h) (by omega)
    (fun p hp => hlone p (q2 p hp)) hghi (fun hp => (hone (hnil (lp := []) k1 hp)).2) (by omega)
  have hlen : ∀ (g r : ℝ) (pp : List ℂ) (lp : List ℝ), (adjustGain g (stageList r pp lp)).length
      = pp.length + lp.length := by
    intro g r pp lp
    have : ∀ cs : List (Stage ℝ), (adjustGain g cs).length = cs.length := by
      intro cs; cases cs <;> simp [adjustGain]
    rw [this]; simp [stageList]
  rw [hlen, k1, k2, ← l1, ← l2, ← hlen (lowpassPZ (butterworth N) rate hz).gain (-1)] at d2
  refine ⟨lo, if ((2 * N : ℕ) - 2 : ℤ) % 4 = 0 then adjustGain (-1) hi else hi, ?_, ⟨n1, v1⟩, ?_, fun hev => ?_, fun z hz' => ⟨?_, ?_⟩⟩
  · unfold crossover
    rw [if_pos ⟨by omega, h0, h⟩]
    simp only []
    rw [if_neg (by omega), show 2 * N / 2 = N by omega, e1, e2]
    simp only [Option.bind_eq_bind, Option.bind_some, d1, d2]
    rfl
  · split_ifs with hc
    · cases hi with
      | nil => exact absurd rfl n2
      | cons s hi =>
        refine ⟨by simp [adjustGain], fun t ht' => ?_⟩
        rcases List.mem_cons.1 ht' with rfl | ht'
        · exact scaled_good (v2 s (by simp)) (-1) (by simp)
        · exact v2 t (by simp [ht'])
    · exact ⟨n2, v2⟩
  · have u1 := m1 (List.length_eq_zero_iff.1 (by omega))
    have u2 := m2 (List.length_eq_zero_iff.1 (by omega))
    have hst := C60_stable (butterworth N) (butterworth_prototype N) rate (hz / 2) hz hr (by linarith) (by linarith) h
    have hmem : ∀ {f : PZ} {p : ℂ}, p ∈ f.pairedPoles → p ∈ poles f := by
      intro f p hp
      unfold poles
      simp only [List.mem_append, List.mem_flatMap]
      exact Or.inr ⟨p, hp, by simp⟩
    rw [if_neg (by omega)]
    refine ⟨⟨by omega, by omega⟩, fun s hs => ?_, fun s hs => ?_⟩
    · obtain ⟨p, hp, e⟩ := u1.2 s hs
      exact paired_stable (hst.1 p (hmem hp)) (v1 s hs).valid.1 e
    · obtain ⟨p, hp, e⟩ := u2.2 s hs
      exact paired_stable (hst.2.1 p (hmem hp)) (v2 s hs).valid.1 e
  · rw [s1 z hz', ev1 z hz']
  · have hpar : (((2 * N : ℕ) : ℤ) - 2) % 4 = 0 ↔ N % 2 = 1 := by omega
    split_ifs with hc
    · rw [adjustGain_eval _ _ n2 (fun t ht' => (v2 t ht').valid) z hz', s2 z hz', ev2 z hz', Odd.neg_one_pow (Nat.odd_iff.2 (hpar.1 hc))]
      push_cast; rfl
    · have : N % 2 = 0 := by
        have := hpar.not.1 hc; omega
      rw [s2 z hz', ev2 z hz', Even.neg_one_pow (Nat.even_iff.2 this), one_mul]

/-- **C47, partial.** With `t = tan(π f / rate)`: if no gain of a half-order filter falls under the thresholds of
`Simplify` (`t^N / (1 + t)^N` and `1 / (1 + t)^N` above `1e-10`, for `N = 1` above `1e-5`) and, for odd `N`, the real pole
`(1 - t) / (1 + t)` is zero or above `1e-5` in magnitude, then the sum of lowpass and highpass of the Linkwitz-Riley
crossover of order `2 N` has unit magnitude at every frequency. Missing (and false, `C47_violation`): crossover
frequencies that are so low or high that the gain of a stage falls under the threshold. -/
theorem C47_sum_flat_partial (N : ℕ) (hN0 : 0 < N) (rate hz t : ℝ) (hr : 0 < rate) (h0 : 0 < hz) (h : hz < rate / 2)
    (ht : t = Real.tan (Real.pi * hz / rate))
    (hglo : 1 / 10 ^ 10 < (t / (1 + t)) ^ N) (hghi : 1 / 10 ^ 10 < (1 / (1 + t)) ^ N)
    (hodd : N % 2 = 1 → t = 1 ∨ 1 / 10 ^ 5 < |(1 - t) / (1 + t)|)
    (hone : N = 1 → 1 / 10 ^ 5 < t / (1 + t) ∧ 1 / 10 ^ 5 < 1 / (1 + t)) :
    ∃ lo hi, crossover (1 / 10 ^ 10) .linkwitzRiley (2 * N) hz rate = some (lo, hi) ∧
      ∀ θ : ℝ, ‖cascadeResponse lo θ + cascadeResponse hi θ‖ = 1 := by
  have hpi := Real.pi_pos
  have ht0 : 0 < t := by
    rw [ht]
    refine Real.tan_pos_of_pos_of_lt_pi_div_two (by positivity) ?_
    rw [div_lt_iff₀ hr]
    nlinarith
  have hg1 := lowpass_gain N hr h0 h ht ht0
  have hg2 := highpass_gain N hr h0 h ht
  obtain ⟨b1, b2⟩ := gain_lower N ht0
  obtain ⟨lo, hi, e, _, _, _, hev⟩ := linkwitz_squares N hN0 rate hz t hr h0 h ht (order_bound ht0 hglo hghi)
    (by rw [hg1]; linarith) (by rw [hg2]; linarith) hodd (by
      intro h1
      have := hone h1
      rw [hg1, hg2]
      subst h1
      rw [pow_one] at b1 b2
      exact ⟨this.1.trans_le b1, this.2.trans_le b2⟩)
  refine ⟨lo, hi, e, fun θ => ?_⟩
  obtain ⟨u1, u2⟩ := hev (Complex.exp (θ * Complex.I)) (Complex.exp_ne_zero _)
  unfold cascadeResponse
  rw [u1, u2]
  have hm := bw_mul N hN0 (Complex.exp (θ * Complex.I) - 1) (t * (Complex.exp (θ * Complex.I) + 1))
  have hn := bw_circle (N := N) hN0 t θ
  have hpos := bw_circle_pos (N := N) t ht0 θ
  have hn' : Complex.normSq (bw N (-(Complex.exp (θ * Complex.I) - 1)) (t * (Complex.exp (θ * Complex.I) + 1)))
      = (2 * Real.sin (θ / 2)) ^ (2 * N) + (t * (2 * Real.cos (θ / 2))) ^ (2 * N) := by
    rw [circle_sub, circle_add]
    have a1 : -(Complex.exp ((θ / 2 : ℝ) * Complex.I) * (((2 * Real.sin (θ / 2) : ℝ) : ℂ) * Complex.I))
        = Complex.exp ((θ / 2 : ℝ) * Complex.I) * (((-(2 * Real.sin (θ / 2)) : ℝ) : ℂ) * Complex.I) := by
      push_cast; ring
    have a2 : (t : ℂ) * (Complex.exp ((θ / 2 : ℝ) * Complex.I) * (2 * Real.cos (θ / 2) : ℝ))
        = Complex.exp ((θ / 2 : ℝ) * Complex.I) * ((t * (2 * Real.cos (θ / 2)) : ℝ)) := by push_cast; ring
    rw [a1, a2, bw_homogeneous, map_mul, map_pow, normSq_exp, one_pow, one_mul, bw_normSq N hN0]
    congr 1
    rw [pow_mul, pow_mul, neg_sq]
  generalize bw N (-(Complex.exp (θ * Complex.I) - 1)) (t * (Complex.exp (θ * Complex.I) + 1)) = B' at *
  generalize bw N (Complex.exp (θ * Complex.I) - 1) (t * (Complex.exp (θ * Complex.I) + 1)) = B at *
  generalize Complex.exp (θ * Complex.I) - 1 = x at *
  generalize (t : ℂ) * (Complex.exp (θ * Complex.I) + 1) = y at *
  have hB : B ≠ 0 := by
    intro hB
    rw [hB, map_zero] at hn
    linarith
  have hsum : (y ^ N / B) ^ 2 + (-1) ^ N * (x ^ N / B) ^ 2 = B' / B := by
    have : (y ^ N) ^ 2 + (-1) ^ N * (x ^ N) ^ 2 = B * B' := by
      rw [hm, neg_eq_neg_one_mul (x ^ 2), mul_pow, ← pow_mul, ← pow_mul, ← pow_mul, ← pow_mul, mul_comm N 2]
      ring
    rw [div_pow, div_pow, mul_div_assoc', ← add_div, this, pow_two, mul_div_mul_left _ _ hB]
  rw [hsum]
  have h1 : ‖B' / B‖ ^ 2 = 1 := by
    rw [← Complex.normSq_eq_norm_sq, Complex.normSq_div, hn', hn, div_self hpos.ne']
  exact (pow_eq_one_iff_of_nonneg (norm_nonneg _) two_ne_zero).1 h1

/-- Non-vacuity: orders 8 and 2 at a quarter of the sampling rate. -/
example : ∃ lo hi, crossover (1 / 10 ^ 10) .linkwitzRiley 8 12000 48000 = some (lo, hi) ∧
    ∀ θ : ℝ, ‖cascadeResponse lo θ + cascadeResponse hi θ‖ = 1 := by
  have ht : (1 : ℝ) = Real.tan (Real.pi * 12000 / 48000) := by
    rw [show Real.pi * 12000 / 48000 = Real.pi / 4 by ring, Real.tan_pi_div_four]
  exact C47_sum_flat_partial 4 (by norm_num) 48000 12000 1 (by norm_num) (by norm_num) (by norm_num) ht
    (by norm_num) (by norm_num) (by norm_num) (by norm_num)

example : ∃ lo hi, crossover (1 / 10 ^ 10) .linkwitzRiley 2 12000 48000 = some (lo, hi) ∧
    ∀ θ : ℝ, ‖cascadeResponse lo θ + cascadeResponse hi θ‖ = 1 := by
  have ht : (1 : ℝ) = Real.tan (Real.pi * 12000 / 48000) := by
    rw [show Real.pi * 12000 / 48000 = Real.pi / 4 by ring, Real.tan_pi_div_four]
  exact C47_sum_flat_partial 1 (by norm_num) 48000 12000 1 (by norm_num) (by norm_num) (by norm_num) ht
    (by norm_num) (by norm_num) (by norm_num) (by norm_num)

/-! ### The violation -/

/-- Two stages, the numerator of the first between `ε / 2` and `ε`: the loop merges its two copies and drops the
cubic and quartic coefficients. -/
theorem double_bad {ε g : ℝ} (h0 : 0 < ε) (h1 : ε < 1 / 24) (hg : g ≤ ε) (hg2 : ε < 2 * g) {a1 a2 : List ℝ}
    (ha1 : Second ε a1) (ha2 : Second ε a2) :
    doubleLoop ε 2 0 [⟨[g, 2 * g, g], a1⟩, ⟨[1, 2, 1], a2⟩]
      = some [⟨[g * g, 4 * (g * g), 6 * (g * g)], a1⟩, ⟨[1, 2, 1], a2⟩, ⟨[1, 0, 0], a1⟩, ⟨[1, 2, 1], a2⟩] := by
  have hg0 : 0 < g := by linarith
  have f1 : isFirstOrder ε [g, 2 * g, g] = true := by
    simp [isFirstOrder, abs_of_pos hg0, hg, hg2]
  have f2 : isFirstOrder ε ([1, 2, 1] : List ℝ) = false := by
    simp [isFirstOrder]; intro h; linarith
  have hgg : g * g ≤ ε * ε := mul_le_mul hg hg hg0.le h0.le
  have hsmall : 6 * (g * g) ≤ ε := by nlinarith
  have f3 : isFirstOrder ε [g * g, 4 * (g * g), 6 * (g * g)] = false := by
    simp [isFirstOrder]
    intro _; nlinarith
  have f4 : isFirstOrder ε ([1, 0, 0] : List ℝ) = false := by
    simp [isFirstOrder, h0.le]
  have hconv : convolve [g, 2 * g, g] [g, 2 * g, g]
      = some [g * g, 4 * (g * g), 6 * (g * g), 4 * (g * g), g * g] := by
    have hraw : convolveRaw [g, 2 * g, g] [g, 2 * g, g] = [g * g, 4 * (g * g), 6 * (g * g), 4 * (g * g), g * g] := by
      simp [convolveRaw, List.range_succ]
      refine ⟨?_, ?_, ?_⟩ <;> ring
    unfold convolve
    rw [hraw]
    simp [trimOrder, hg0.ne']
  have s1 : appendBiquad ε [⟨[g, 2 * g, g], a1⟩, ⟨[1, 2, 1], a2⟩] ⟨[g, 2 * g, g], a1⟩
      = some [⟨[g * g, 4 * (g * g), 6 * (g * g)], a1⟩, ⟨[1, 2, 1], a2⟩, ⟨[1, 0, 0], a1⟩] := by
    unfold appendBiquad simplify
    have m1 : mergeFirstOrder ε 3 [[g, 2 * g, g], [1, 2, 1], [g, 2 * g, g]]
        = some [[g * g, 4 * (g * g), 6 * (g * g)], [1, 2, 1], [1, 0, 0]] := by
      rw [mergeFirstOrder]
      have : findPair ε [[g, 2 * g, g], [1, 2, 1], [g, 2 * g, g]] = some (0, 2) := by
        simp [findPair, List.findIdx?_cons, f1, f2]
      rw [this]
      simp only [List.getD_cons_zero, List.getD_cons_succ, hconv, Option.bind_eq_bind, Option.bind_some]
      have : findPair ε [[g * g, 4 * (g * g), 6 * (g * g)], [1, 2, 1], [1, 0, 0]] = none := by
        simp [findPair, List.findIdx?_cons, f3, f2, f4]
      exact mergeFirstOrder_none this 2
    have m2 : mergeFirstOrder ε 3 [a1, a2, a1] = some [a1, a2, a1] := by
      apply mergeFirstOrder_none
      simp [findPair, List.findIdx?_cons, ha1.not_first, ha2.not_first]
    have z : ∀ n cs, (∀ s ∈ cs, isZeroOrder ε s.a = false) → mergeZeroOrder ε n cs = cs := by
      intro n cs hcs
      cases n with
      | zero => rfl
      | succ n =>
        rw [mergeZeroOrder]
        have : findZeroOrder ε cs = none := by
          unfold findZeroOrder
          rw [List.findIdx?_eq_none_iff.2 hcs]
        rw [this]; simp
    simp only [List.cons_append, List.nil_append, List.map_cons, List.map_nil, List.length_cons, List.length_nil,
      zero_add, Nat.reduceAdd, m1, m2, Option.bind_eq_bind, Option.bind_some, List.zipWith_cons_cons,
      List.zipWith_nil_left]
    rw [z]
    · rfl
    · intro s hs
      simp only [List.mem_cons, List.not_mem_nil, or_false] at hs
      rcases hs with rfl | rfl | rfl
      · exact ha1.not_zero
      · exact ha2.not_zero
      · exact ha1.not_zero
  have s2 : appendBiquad ε [⟨[g * g, 4 * (g * g), 6 * (g * g)], a1⟩, ⟨[1, 2, 1], a2⟩, ⟨[1, 0, 0], a1⟩] ⟨[1, 2, 1], a2⟩
      = some [⟨[g * g, 4 * (g * g), 6 * (g * g)], a1⟩, ⟨[1, 2, 1], a2⟩, ⟨[1, 0, 0], a1⟩, ⟨[1, 2, 1], a2⟩] := by
    unfold appendBiquad simplify
    have m1 : mergeFirstOrder ε 4 [[g * g, 4 * (g * g), 6 * (g * g)], [1, 2, 1], [1, 0, 0], [1, 2, 1]]
        = some [[g * g, 4 * (g * g), 6 * (g * g)], [1, 2, 1], [1, 0, 0], [1, 2, 1]] := by
      apply mergeFirstOrder_none
      simp [findPair, List.findIdx?_cons, f3, f2, f4]
    have m2 : mergeFirstOrder ε 4 [a1, a2, a1, a2] = some [a1, a2, a1, a2] := by
      apply mergeFirstOrder_none
      simp [findPair, List.findIdx?_cons, ha1.not_first, ha2.not_first]
    have z : ∀ n cs, (∀ s ∈ cs, isZeroOrder ε s.a = false) → mergeZeroOrder ε n cs = cs := by
      intro n cs hcs
      cases n with
      | zero => rfl
      | succ n =>
        rw [mergeZeroOrder]
        have : findZeroOrder ε cs = none := by
          unfold findZeroOrder
          rw [List.findIdx?_eq_none_iff.2 hcs]
        rw [this]; simp
    simp only [List.cons_append, List.nil_append, List.map_cons, List.map_nil, List.length_cons, List.length_nil,
      zero_add, Nat.reduceAdd, m1, m2, Option.bind_eq_bind, Option.bind_some, List.zipWith_cons_cons,
      List.zipWith_nil_left]
    rw [z]
    · rfl
    · intro s hs
      simp only [List.mem_cons, List.not_mem_nil, or_false] at hs
      rcases hs with rfl | rfl | rfl | rfl
      · exact ha1.not_zero
      · exact ha2.not_zero
      · exact ha1.not_zero
      · exact ha2.not_zero
  rw [doubleLoop]
  simp only [List.getElem?_cons_zero, s1]
  rw [doubleLoop]
  simp only [List.getElem?_cons_succ, List.getElem?_cons_zero, s2]
  rfl

/-- **C47, finding.** A Linkwitz-Riley crossover of order 8 at 48 kHz with `tan(π f / rate) = 3/1000` (about 46 Hz): at
frequency 0 the sum of lowpass and highpass is `11/16` instead of 1. (`Simplify` takes the numerator `g (1 + 2 z⁻¹ + z⁻²)`
with `g ≈ 8e-11` for a first-order polynomial, convolves its two copies and truncates the result.) -/
theorem C47_violation : ∃ lo hi, crossover (1 / 10 ^ 10) .linkwitzRiley 8 (48000 * Real.arctan (3 / 1000) / Real.pi) 48000
      = some (lo, hi) ∧ cascadeResponse lo 0 + cascadeResponse hi 0 = 11 / 16 := by
  have hpi := Real.pi_pos
  obtain ⟨hz, hhz⟩ : ∃ x, x = 48000 * Real.arctan (3 / 1000) / Real.pi := ⟨_, rfl⟩
  have ha : 0 < Real.arctan (3 / 1000) := by
    rw [← Real.arctan_zero]; exact Real.arctan_strictMono (by norm_num)
  have hr : (0 : ℝ) < 48000 := by norm_num
  have h0 : 0 < hz := by rw [hhz]; positivity
  have h : hz < 48000 / 2 := by
    rw [hhz, div_lt_iff₀ hpi]
    have := Real.arctan_lt_pi_div_two (3 / 1000)
    nlinarith
  have ht : (3 / 1000 : ℝ) = Real.tan (Real.pi * hz / 48000) := by
    rw [hhz, show Real.pi * (48000 * Real.arctan (3 / 1000) / Real.pi) / 48000 = Real.arctan (3 / 1000) by
      field_simp, Real.tan_arctan]
  rw [← hhz]
  have hg1 := lowpass_gain 4 hr h0 h ht (by norm_num)
  have hg2 := highpass_gain 4 hr h0 h ht
  have hb := bw_bounds 4 (x := 1) (y := 3 / 1000) one_pos (by norm_num)
  rw [Complex.ofReal_one, one_pow] at hb
  obtain ⟨b1, b2⟩ := gain_lower 4 (t := 3 / 1000) (by norm_num)
  obtain ⟨e1, ev1⟩ := butterworth_lowpass (N := 4) (by norm_num) (by norm_num) hr h0 h
  obtain ⟨e2, ev2⟩ := butterworth_highpass (N := 4) (by norm_num) (by norm_num) hr h0 h
  obtain ⟨l1, l2, _, _⟩ := lowpassPZ_shape 4 48000 hz
  obtain ⟨k1, k2, _, _⟩ := highpassPZ_shape 4 hr hz
  have pb := lowpass_pole_big (N := 4) (by norm_num) hr h0 h
  obtain ⟨hi, d2, ⟨n2, m2⟩, v2, s2⟩ := double_butter (ε := 1 / 10 ^ 10) (δ := 1 / 10 ^ 5) (by norm_num) (by norm_num)
    (by norm_num) (by norm_num) (r := 1) (by norm_num) (highpass_pole_big (N := 4) (by norm_num) hr h0 h)
    (lp := (highpassPZ (butterworth 4) 48000 hz).lonePoles) (by omega)
    (fun p hp => by
      exfalso
      rw [List.length_eq_zero_iff.1 k2] at hp; simp at hp)
    (g := (highpassPZ (butterworth 4) 48000 hz).gain)
    (by rw [hg2]; refine lt_of_lt_of_le ?_ b2; norm_num)
    (fun hp => by rw [hp] at k1; simp at k1) (by omega)
  obtain ⟨p1, p2, hpp⟩ : ∃ p1 p2, (lowpassPZ (butterworth 4) 48000 hz).pairedPoles = [p1, p2] := by
    obtain ⟨a, b, hab⟩ := List.length_eq_two.1 (by rw [l1] : (lowpassPZ (butterworth 4) 48000 hz).pairedPoles.length = 2)
    exact ⟨a, b, hab⟩
  have hlp : (lowpassPZ (butterworth 4) 48000 hz).lonePoles = [] := List.length_eq_zero_iff.1 l2
  rw [hpp] at pb
  obtain ⟨g, hg⟩ : ∃ x, x = (lowpassPZ (butterworth 4) 48000 hz).gain := ⟨_, rfl⟩
  rw [← hg] at hg1 e1 ev1
  have hcs : adjustGain g (stageList (-1) (lowpassPZ (butterworth 4) 48000 hz).pairedPoles
      (lowpassPZ (butterworth 4) 48000 hz).lonePoles)
      = [⟨[g, 2 * g, g], coefficientsPaired p1 (conj p1)⟩, ⟨[1, 2, 1], coefficientsPaired p2 (conj p2)⟩] := by
    rw [hpp, hlp]
    simp [stageList, adjustGain, coefficientsLone]
    norm_num
  rw [hcs] at e1 ev1
  have hgle : g ≤ 1 / 10 ^ 10 := by
    rw [hg1, div_le_iff₀ (by linarith [hb.1])]
    refine le_trans ?_ (mul_le_mul_of_nonneg_left hb.1 (by norm_num))
    norm_num
  have hgge : 1 / 10 ^ 10 < 2 * g := by
    have : (3 / 1000 / (1 + 3 / 1000) : ℝ) ^ 4 ≤ g := by rw [hg1]; exact b1
    refine lt_of_lt_of_le ?_ (mul_le_mul_of_nonneg_left this two_pos.le)
    norm_num
  have hg0 : 0 < g := by linarith [show (0 : ℝ) < 1 / 10 ^ 10 by norm_num]
  have d1 := double_bad (ε := 1 / 10 ^ 10) (by norm_num) (by norm_num) hgle hgge
    (second_paired (pb p1 (by simp))) (second_paired (pb p2 (by simp)))
  refine ⟨[⟨[g * g, 4 * (g * g), 6 * (g * g)], coefficientsPaired p1 (conj p1)⟩,
    ⟨[1, 2, 1], coefficientsPaired p2 (conj p2)⟩, ⟨[1, 0, 0], coefficientsPaired p1 (conj p1)⟩,
    ⟨[1, 2, 1], coefficientsPaired p2 (conj p2)⟩], hi, ?_, ?_⟩
  · unfold crossover
    rw [if_pos ⟨by omega, h0, h⟩]
    simp only []
    rw [if_neg (by omega), show 8 / 2 = 4 by omega, e1, e2]
    have hlen : (adjustGain (highpassPZ (butterworth 4) 48000 hz).gain
        (stageList 1 (highpassPZ (butterworth 4) 48000 hz).pairedPoles
          (highpassPZ (butterworth 4) 48000 hz).lonePoles)).length = 2 := by
      have : ∀ cs : List (Stage ℝ), (adjustGain (highpassPZ (butterworth 4) 48000 hz).gain cs).length = cs.length := by
        intro cs; cases cs <;> simp [adjustGain]
      rw [this]; simp [stageList, k1, k2]
    rw [hlen] at d2
    simp only [Option.bind_eq_bind, Option.bind_some, List.length_cons, List.length_nil, zero_add, Nat.reduceAdd, d1, d2]
    rfl
  · have hone : Complex.exp (((0 : ℝ) : ℂ) * Complex.I) = 1 := by simp
    unfold cascadeResponse
    rw [hone, s2 1 one_ne_zero, ev2 1 one_ne_zero]
    have w := ev1 1 one_ne_zero
    rw [← ht] at w
    have hone' : ((((3 / 1000 : ℝ) : ℂ) * (1 + 1)) ^ 4 / bw 4 (1 - 1) (((3 / 1000 : ℝ) : ℂ) * (1 + 1))) = 1 := by
      rw [sub_self]
      have := bw_homogeneous 4 (((3 / 1000 : ℝ) : ℂ) * (1 + 1)) 0 1
      rw [mul_zero, mul_one, bw_zero_one, mul_one] at this
      rw [this, div_self]
      exact pow_ne_zero _ (mul_ne_zero (by push_cast; norm_num) (by norm_num))
    rw [hone'] at w
    simp only [evalCascade, List.foldl_cons, List.foldl_nil, evalStage, List.getD_cons_zero, List.getD_cons_succ,
      one_mul, mul_one, Complex.ofRealHom_eq_coe, Complex.ofReal_mul, Complex.ofReal_ofNat, Complex.ofReal_one,
      Complex.ofReal_zero, add_zero] at w ⊢
    generalize ((coefficientsPaired p1 (conj p1)).getD 0 0 : ℂ) + (coefficientsPaired p1 (conj p1)).getD 1 0 +
      (coefficientsPaired p1 (conj p1)).getD 2 0 = A1 at *
    generalize ((coefficientsPaired p2 (conj p2)).getD 0 0 : ℂ) + (coefficientsPaired p2 (conj p2)).getD 1 0 +
      (coefficientsPaired p2 (conj p2)).getD 2 0 = A2 at *
    simp only [sub_self, ne_eq, OfNat.ofNat_ne_zero, not_false_eq_true, zero_pow, zero_div, add_zero]
    have hA1 : A1 ≠ 0 := by rintro rfl; simp at w
    have hA2 : A2 ≠ 0 := by rintro rfl; simp at w
    have w' : (g : ℂ) * 16 = A1 * A2 := by
      field_simp at w
      linear_combination w
    have : (g * g + 4 * (g * g) + 6 * (g * g)) / A1 * ((1 + 2 + 1) / A2) * (1 / A1) * ((1 + 2 + 1) / A2)
        = 176 * (g : ℂ) ^ 2 / (A1 * A2) ^ 2 := by field_simp; ring
    rw [this, ← w']
    have hgc : (g : ℂ) ≠ 0 := by exact_mod_cast hg0.ne'
    field_simp
    norm_num

end Verif.PoleZero
