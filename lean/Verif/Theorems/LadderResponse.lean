import Verif.Theorems.Ladder

/-!
# C25, C26: the response of the ladder filter, and coefficient changes
-/

namespace Verif.Ladder
open Finset Verif.Stream Verif.Series Verif.LinearFilter.Spec PowerSeries

/-! ## C25 -/

theorem processSample_fixed {cfg : Config} {f : Filter} (h : f.smoothing = 0) (x : ℝ) :
    processSample cfg f x = ({ f with state := (step f.order f.k f.c f.v f.state x).1 },
      (step f.order f.k f.c f.v f.state x).2) := by
  unfold processSample; rw [smooth_zero h]

theorem runSamples_fixed {cfg : Config} : ∀ (xs : List ℝ) {f : Filter}, f.smoothing = 0 →
    (runSamples (processSample cfg) f xs).2 = (runSamples (step f.order f.k f.c f.v) f.state xs).2
  | [], _, _ => rfl
  | x :: xs, f, h => by
    simp only [runSamples]
    rw [processSample_fixed h]
    have := runSamples_fixed (cfg := cfg) xs (f := { f with state := (step f.order f.k f.c f.v f.state x).1 }) h
    simp only at this ⊢
    rw [this]

theorem step_congr {M : ℕ} {k c v w : ℕ → ℝ} (h : ∀ i, i ≤ M → v i = w i) :
    step M k c v = step M k c w := by
  funext st x
  simp only [step, taps]
  congr 1
  exact sum_congr rfl (fun i hi => by rw [h i (by rw [mem_range] at hi; omega)])

theorem up_eq_ps {l : List ℝ} {M : ℕ} (h : l.length ≤ M + 1) (s : ℝ) :
    up M (fun j => l.getD j 0 / s) = C (1 / s) * ps l := by
  ext n
  unfold up
  rw [map_sum]
  simp only [coeff_C_mul, coeff_ps, coeff_X_pow]
  by_cases hn : n < M + 1
  · rw [sum_eq_single n (fun j _ hj => by rw [if_neg (by omega), mul_zero])
      (fun hc => absurd (mem_range.mpr hn) hc)]
    rw [if_pos rfl]; ring
  · rw [sum_eq_zero (fun j hj => by rw [mem_range] at hj; rw [if_neg (by omega), mul_zero])]
    rw [List.getD_eq_getElem?_getD, List.getElem?_eq_none (by omega)]; simp

/-- **C25**: a filter made by `InitFromTransferFunction(b, a)` satisfies the difference equation of
`b`, `a`, for every order and every sequence of blocks, provided its reflection coefficients are
inside `(-1, 1)` and no stage is clamped (`η = 0`, or no reflection coefficient is exactly zero; see
`C25_zero_reflection_violation` for the clamped case). -/
theorem C25_transfer_function {cfg : Config} {b a : List ℝ} {M : ℕ} {k v : ℕ → ℝ}
    (hm : makeLadder b a = some (M, k, v)) (hk : ∀ i, i < M → |k i| < 1)
    (hz : cfg.eta = 0 ∨ ∀ i, i < M → k i ≠ 0) {f : Filter}
    (hf : initFromTransferFunction cfg b a = some f) (blocks : List (List ℝ)) :
    DiffEq b a blocks.flatten (runBlocks (runSamples (processSample cfg)) f blocks).2.flatten := by
  rw [(runBlocks_runSamples _ blocks f).2.1]
  generalize blocks.flatten = xs
  have hm' := hm
  unfold makeLadder at hm
  split at hm
  · cases hm
  · rename_i hne
    simp only [Option.some.injEq, Prod.mk.injEq] at hm
    obtain ⟨hM, hkk, hvv⟩ := hm
    push Not at hne
    obtain ⟨hb, ha, ha0⟩ := hne
    have hkall : ∀ i, |k i| < 1 := by
      intro i
      by_cases hi : i < M
      · exact hk i hi
      · rw [← hkk, makeLoop_k_ge _ _ _ _ _ i (by omega)]; simp
    have hforce : (fun i => force cfg.eta (k i)) = k := funext (fun i => force_of_lt (hkall i))
    have hfe : f.order = M ∧ f.k = k ∧ f.c = scattering cfg.eta k ∧ f.v = convertTapGains k M 1 v ∧
        f.smoothing = 0 ∧ f.state = fun _ => 0 := by
      unfold initFromTransferFunction at hf
      rw [hm'] at hf
      simp only [Option.bind_eq_bind, Option.bind_some] at hf
      unfold init at hf
      split at hf
      · cases hf
      · cases hf
        simp only [reset, hforce, and_self]
    obtain ⟨f1, f2, f3, f4, f5, f6⟩ := hfe
    rw [runSamples_fixed xs f5, f1, f2, f3, f4, f6]
    have hc : ∀ i, i < M → scattering cfg.eta k i = Real.sqrt (1 - k i * k i) := by
      intro i hi
      rcases hz with h0 | h0
      · by_cases hki : k i = 0
        · unfold scattering
          rw [hki, h0]
          simp [force]
        · exact scattering_exact (hkall i) hki
      · exact scattering_exact (hkall i) (h0 i hi)
    have hk2 : ∀ i, k i * k i < 1 := by
      intro i
      have := mul_lt_mul'' (hkall i) (hkall i) (abs_nonneg _) (abs_nonneg _)
      rwa [abs_mul_abs_self, one_mul] at this
    rw [step_congr (w := fun i => v i / ∏ j ∈ Ico i M, scattering cfg.eta k j) (by
      intro i hi
      rw [convertTapGains_spec k M 1 v i hi, one_mul]
      congr 1
      exact prod_congr rfl (fun j hj => (hc j (mem_Ico.mp hj).2).symm))]
    apply diffEq_of_series
    have hs := ladder_series M k (scattering cfg.eta k) v
      (fun i hi => by
        rw [hc i hi, Real.sq_sqrt (by have := hk2 i; linarith)]; ring)
      (fun i hi => by
        rw [hc i hi]
        exact (Real.sqrt_pos.mpr (by have := hk2 i; linarith)).ne')
      (fun n => xs.getD n 0)
    obtain ⟨s1, _, s3⟩ := makeLoop_spec M (fun j => a.getD j 0 / a.getD 0 0)
      (fun j => b.getD j 0 / a.getD 0 0) (fun _ => 0) (fun _ => 0) (div_self ha0)
      (by
        intro i hi
        rw [← hM] 
        rw [hkk]
        exact (hkall i).ne)
    rw [← hM] at s1 s3
    rw [hkk] at s1 s3
    rw [hvv] at s3
    rw [up_eq_ps (by omega)] at s1 s3
    rw [hM] at s1 s3
    rw [← s1, ← s3] at hs
    have hCne : C (1 / a.getD 0 0) ≠ (0 : ℝ⟦X⟧) := by
      intro h
      have := congrArg (coeff 0) h
      simp at this
      exact ha0 (by simpa using this)
    apply mul_left_cancel₀ hCne
    rw [← mul_assoc, ← mul_assoc]
    exact hs

/-- A third-order filter meeting the hypotheses of C25: all reflection coefficients are in `(-1, 1)`
and not zero. -/
example : ∃ M k v, makeLadder [1, 2, 3] [2, 1, 1] = some (M, k, v) ∧ M = 2 ∧
    (∀ i, i < M → |k i| < 1) ∧ ∀ i, i < M → k i ≠ 0 := by
  refine ⟨2, (makeLoop 2 (fun j => [2, 1, 1].getD j 0 / 2) (fun j => [1, 2, 3].getD j 0 / 2)
      (fun _ => 0) (fun _ => 0)).1, (makeLoop 2 (fun j => [2, 1, 1].getD j 0 / 2)
      (fun j => [1, 2, 3].getD j 0 / 2) (fun _ => 0) (fun _ => 0)).2, ?_, rfl, ?_, ?_⟩
  · unfold makeLadder; rw [if_neg (by simp)]; simp
  · intro i hi
    have : i = 0 ∨ i = 1 := by omega
    rcases this with rfl | rfl <;> norm_num [makeLoop, put, abs_lt]
  · intro i hi
    have : i = 0 ∨ i = 1 := by omega
    rcases this with rfl | rfl <;> norm_num [makeLoop, put]

/-- The full claim is false for `η > 0` when a reflection coefficient is zero: the one-sample delay
`b = {0, 1}, a = {1}` attenuates its input by `(1 - η)²`. -/
theorem C25_zero_reflection_violation {cfg : Config} (h0 : 0 < cfg.eta) (h1 : cfg.eta < 1) :
    ∃ f, initFromTransferFunction cfg [0, 1] [1] = some f ∧
      (runSamples (processSample cfg) f [1, 0]).2 = [0, (1 - cfg.eta) ^ 2] ∧
      ¬ DiffEq [0, 1] [1] [1, 0] (runSamples (processSample cfg) f [1, 0]).2 := by
  have hm : makeLadder [0, 1] [1] = some (1, (fun _ => 0), put (put (fun _ => 0) 1 1) 0 0) := by
    unfold makeLadder
    rw [if_neg (by simp)]
    simp [makeLoop, put]
    funext j; simp [put]
  have hk : (fun _ : ℕ => force cfg.eta 0) = fun _ => 0 := by
    funext i; exact force_of_lt (by simp)
  have hc : scattering cfg.eta (fun _ => 0) = fun _ => 1 - cfg.eta := by
    funext i; simp [scattering, force]
  have hf : ∃ f, initFromTransferFunction cfg [0, 1] [1] = some f ∧ f.order = 1 ∧
      f.k = (fun _ => 0) ∧ f.c = (fun _ => 1 - cfg.eta) ∧
      f.v = convertTapGains (fun _ => 0) 1 1 (put (put (fun _ => 0) 1 1) 0 0) ∧
      f.smoothing = 0 ∧ f.state = fun _ => 0 := by
    unfold initFromTransferFunction
    rw [hm]
    simp only [Option.bind_eq_bind, Option.bind_some]
    unfold init
    rw [if_neg (by omega)]
    exact ⟨_, rfl, rfl, hk, by simp only [reset, hk, hc], by simp only [reset, hk], rfl, rfl⟩
  obtain ⟨f, hf, e1, e2, e3, e4, e5, e6⟩ := hf
  have hout : (runSamples (processSample cfg) f [1, 0]).2 = [0, (1 - cfg.eta) ^ 2] := by
    rw [runSamples_fixed _ e5, e1, e2, e3, e4, e6]
    simp [runSamples, step, stageLoop, taps, sum_range_succ, put, convertTapGains]
    ring
  refine ⟨f, hf, hout, ?_⟩
  rw [hout]
  intro hd
  have := hd.2 1 (by simp)
  simp [sum_range_succ, past] at this
  rcases this with h | h <;> linarith

/-! ## C26 -/

theorem after_append (cfg : Config) (f : Filter) (o1 o2 : List Op) :
    after cfg f (o1 ++ o2) = after cfg (after cfg f o1) o2 := by
  simp [after, List.foldl_append]

/-- Invariant while samples are processed after a change of coefficients with target `kT`. -/
theorem samples_reflection {cfg : Config} : ∀ (xs : List ℝ) (f : Filter),
    (f.smoothing = 0 → f.k = f.kTarget ∧ f.c = scattering cfg.eta f.kTarget) →
    f.smoothing ≤ xs.length →
    (after cfg f (xs.map Op.sample)).k = f.kTarget ∧
    (after cfg f (xs.map Op.sample)).c = scattering cfg.eta f.kTarget ∧
    (after cfg f (xs.map Op.sample)).smoothing = 0
  | [], f, h, hl => by
    have : f.smoothing = 0 := by simpa using hl
    exact ⟨(h this).1, (h this).2, this⟩
  | x :: xs, f, h, hl => by
    have e : after cfg f ((x :: xs).map Op.sample)
        = after cfg (processSample cfg f x).1 (xs.map Op.sample) := rfl
    have ht : (processSample cfg f x).1.kTarget = f.kTarget := by
      unfold processSample smooth
      split
      · dsimp only; split <;> rfl
      · rfl
    have hs := processSample_smoothing cfg f x
    rw [e, ← ht]
    apply samples_reflection xs
    · intro h0
      rw [ht]
      by_cases hc : f.smoothing > 0
      · have : ¬ (f.smoothing - 1 > 0) := by omega
        unfold processSample smooth
        rw [if_pos hc]
        simp only [this, if_false, and_self]
      · unfold processSample
        rw [smooth_zero (by omega)]
        exact h (by omega)
    · simp only [List.length_cons] at hl; omega

/-- **C26, the proved part**: after any history, `ChangeLadderCoeffs(k', v')` followed by at least
`smoothing_samples_max_` samples leaves the reflection coefficients (and hence the scattering
coefficients) exactly at the requested, stabilised values. Missing: the tap gains; see the
violations below. -/
theorem C26_reflection_partial {cfg : Config} (hmax : 0 < cfg.maxSamples) (f : Filter)
    (ops : List Op) (k' v' : ℕ → ℝ) (hk : ∀ i, |k' i| < 1) (xs : List ℝ)
    (hx : cfg.maxSamples ≤ xs.length) :
    let g := after cfg f (ops ++ Op.changeCoeffs k' v' :: xs.map Op.sample)
    g.k = k' ∧ g.c = scattering cfg.eta k' ∧ g.smoothing = 0 := by
  intro g
  have hg : g = after cfg (change cfg (after cfg f ops) k' v') (xs.map Op.sample) := by
    simp only [g]; rw [after_append]; rfl
  have hforce : (fun i => force cfg.eta (k' i)) = k' := funext (fun i => force_of_lt (hk i))
  have := samples_reflection (cfg := cfg) xs (change cfg (after cfg f ops) k' v')
    (fun h => by simp only [change] at h; omega) hx
  rw [← hg] at this
  have ht : (change cfg (after cfg f ops) k' v').kTarget = k' := hforce
  rw [ht] at this
  exact this

/-- Step response of the recursive part of the smoother with real poles `p`, `q`. -/
def stepResp (p q : ℝ) : ℕ → ℝ × ℝ
  | 0 => (0, 0)
  | n + 1 => let r := stepResp p q n; (1 + (p + q) * r.1 - p * q * r.2, r.1)

theorem stepResp_bounds {p q : ℝ} (hp0 : 0 < p) (hp1 : p < 1) (hq0 : 0 < q) (hq1 : q < 1) :
    ∀ n, 0 ≤ (stepResp p q n).2 ∧ (stepResp p q n).2 * ((1 - p) * (1 - q)) < 1 ∧
      0 ≤ (stepResp p q n).1 ∧ (stepResp p q n).1 * ((1 - p) * (1 - q)) < 1 ∧
      0 ≤ (stepResp p q n).1 - q * (stepResp p q n).2 ∧
      ((stepResp p q n).1 - q * (stepResp p q n).2) * (1 - p) < 1
  | 0 => by simp [stepResp]
  | n + 1 => by
    obtain ⟨h1, h2, h3, h4, h5, h6⟩ := stepResp_bounds hp0 hp1 hq0 hq1 n
    simp only [stepResp]
    generalize (stepResp p q n).1 = a at *
    generalize (stepResp p q n).2 = b at *
    have hu0 : 0 ≤ 1 + p * (a - q * b) := by positivity
    have hu1 : (1 + p * (a - q * b)) * (1 - p) < 1 := by nlinarith
    have hw : 1 + (p + q) * a - p * q * b = (1 + p * (a - q * b)) + q * a := by ring
    refine ⟨h3, h4, ?_, ?_, ?_, ?_⟩
    · rw [hw]; positivity
    · rw [hw]
      have e1 : (1 + p * (a - q * b)) * (1 - p) * (1 - q) < 1 - q := by nlinarith
      have e2 : q * (a * ((1 - p) * (1 - q))) < q := by nlinarith
      calc (1 + p * (a - q * b) + q * a) * ((1 - p) * (1 - q))
          = (1 + p * (a - q * b)) * (1 - p) * (1 - q) + q * (a * ((1 - p) * (1 - q))) := by ring
        _ < 1 := by linarith
    · rw [hw]; linarith
    · rw [hw]; linarith

/-- A smoother like the one the code uses: an overdamped lowpass, i.e. two real poles in `(0, 1)`,
nonnegative numerator and unit gain at zero frequency. -/
structure Overdamped (s : Biquad.Filter ℝ) (p q : ℝ) : Prop where
  p0 : 0 < p
  p1 : p < 1
  q0 : 0 < q
  q1 : q < 1
  fb1 : s.fb1 = -(p + q)
  fb2 : s.fb2 = p * q
  ff0 : 0 ≤ s.ff0
  ff1 : 0 ≤ s.ff1
  ff2 : 0 ≤ s.ff2
  dc : s.ff0 + s.ff1 + s.ff2 = (1 - p) * (1 - q)

/-- Step response of the smoother after `n` samples. -/
def progress (s : Biquad.Filter ℝ) (p q : ℝ) : ℕ → ℝ
  | 0 => 0
  | n + 1 => s.ff0 * (stepResp p q (n + 1)).1 + s.ff1 * (stepResp p q n).1
      + s.ff2 * (stepResp p q n).2

theorem progress_bounds {s : Biquad.Filter ℝ} {p q : ℝ} (h : Overdamped s p q) (n : ℕ) :
    0 ≤ progress s p q n ∧ progress s p q n < 1 := by
  obtain ⟨p0, p1, q0, q1, _, _, f0, f1, f2, dc⟩ := h
  cases n with
  | zero => simp [progress]
  | succ n =>
    obtain ⟨a1, a2, a3, a4, _, _⟩ := stepResp_bounds p0 p1 q0 q1 n
    obtain ⟨_, _, b3, b4, _, _⟩ := stepResp_bounds p0 p1 q0 q1 (n + 1)
    simp only [progress]
    generalize (stepResp p q n).1 = a at *
    generalize (stepResp p q n).2 = b at *
    generalize (stepResp p q (n + 1)).1 = c at *
    have hD : 0 < (1 - p) * (1 - q) := mul_pos (by linarith) (by linarith)
    generalize (1 - p) * (1 - q) = D at *
    refine ⟨by positivity, ?_⟩
    have e0 : s.ff0 * (c * D) ≤ s.ff0 := by nlinarith
    have e1 : s.ff1 * (a * D) ≤ s.ff1 := by nlinarith
    have e2 : s.ff2 * (b * D) ≤ s.ff2 := by nlinarith
    have hlt : s.ff0 * (c * D) + s.ff1 * (a * D) + s.ff2 * (b * D) < D := by
      rcases f0.eq_or_lt with h0 | h0
      · rcases f1.eq_or_lt with h1 | h1
        · have : 0 < s.ff2 := by linarith
          have : s.ff2 * (b * D) < s.ff2 := by nlinarith
          linarith
        · have : s.ff1 * (a * D) < s.ff1 := by nlinarith
          linarith
      · have : s.ff0 * (c * D) < s.ff0 := by nlinarith
        linarith
    have : (s.ff0 * c + s.ff1 * a + s.ff2 * b) * D < 1 * D := by nlinarith
    exact lt_of_mul_lt_mul_right this hD.le

theorem smoother_step {s : Biquad.Filter ℝ} {p q : ℝ} (h : Overdamped s p q) (old target : ℝ)
    (n : ℕ) :
    Biquad.step s
      (old / ((1 - p) * (1 - q)) + (target - old) * (stepResp p q n).1,
       old / ((1 - p) * (1 - q)) + (target - old) * (stepResp p q n).2) target
      = ((old / ((1 - p) * (1 - q)) + (target - old) * (stepResp p q (n + 1)).1,
          old / ((1 - p) * (1 - q)) + (target - old) * (stepResp p q (n + 1)).2),
         old + (target - old) * progress s p q (n + 1)) := by
  obtain ⟨p0, p1, q0, q1, hb1, hb2, f0, f1, f2, dc⟩ := h
  have hD : (1 - p) * (1 - q) ≠ 0 := (mul_pos (by linarith) (by linarith)).ne'
  have hu : old / ((1 - p) * (1 - q)) * ((1 - p) * (1 - q)) = old := div_mul_cancel₀ _ hD
  simp only [Biquad.step, stepResp, progress, hb1, hb2]
  generalize old / ((1 - p) * (1 - q)) = u at *
  generalize (stepResp p q n).1 = a
  generalize (stepResp p q n).2 = b
  have e : target - ((u + (target - old) * a) * -(p + q) + (u + (target - old) * b) * (p * q))
      = u + (target - old) * (1 + (p + q) * a - p * q * b) := by
    linear_combination (-1 : ℝ) * hu
  rw [e]
  refine Prod.ext rfl ?_
  simp only
  linear_combination u * dc + hu

/-- Members of the filter `n` samples after a change of coefficients. -/
structure Moving (cfg : Config) (p q : ℝ) (n : ℕ) (old T : ℕ → ℝ) (f : Filter) : Prop where
  smoothing : f.smoothing + n = cfg.maxSamples
  target : f.vTarget = T
  v : ∀ i, f.v i = old i + (T i - old i) * progress cfg.smoother p q n
  s : ∀ i, f.vS i = (old i / ((1 - p) * (1 - q)) + (T i - old i) * (stepResp p q n).1,
       old i / ((1 - p) * (1 - q)) + (T i - old i) * (stepResp p q n).2)

theorem Moving.step {cfg : Config} {p q : ℝ} (ho : Overdamped cfg.smoother p q) {n : ℕ}
    {old T : ℕ → ℝ} {f : Filter} (h : Moving cfg p q n old T f) (hn : n + 1 < cfg.maxSamples)
    (x : ℝ) : Moving cfg p q (n + 1) old T (processSample cfg f x).1 := by
  have hs := h.smoothing
  have h1 : f.smoothing > 0 := by omega
  have h2 : f.smoothing - 1 > 0 := by omega
  have e : ∀ i, Biquad.step cfg.smoother (f.vS i) (f.vTarget i)
      = Biquad.step cfg.smoother
        (old i / ((1 - p) * (1 - q)) + (T i - old i) * (stepResp p q n).1,
         old i / ((1 - p) * (1 - q)) + (T i - old i) * (stepResp p q n).2) (T i) := fun i => by
    rw [h.s i, h.target]
  unfold processSample smooth
  rw [if_pos h1]
  simp only [h2, if_true]
  exact ⟨by simp only; omega, h.target, fun i => by simp only; rw [e i, smoother_step ho],
    fun i => by simp only; rw [e i, smoother_step ho]⟩

theorem Moving.run {cfg : Config} {p q : ℝ} (ho : Overdamped cfg.smoother p q) {old T : ℕ → ℝ} :
    ∀ (xs : List ℝ) {n : ℕ} {f : Filter}, Moving cfg p q n old T f →
      n + xs.length < cfg.maxSamples →
      Moving cfg p q (n + xs.length) old T (after cfg f (xs.map Op.sample))
  | [], _, _, h, _ => h
  | x :: xs, n, f, h, hn => by
    have := Moving.run ho xs (h.step ho (by simp only [List.length_cons] at hn; omega) x)
      (by simp only [List.length_cons] at hn; omega)
    rw [show n + (x :: xs).length = n + 1 + xs.length by simp only [List.length_cons]; omega]
    exact this

theorem fixed_run {cfg : Config} : ∀ (xs : List ℝ) {f : Filter}, f.smoothing = 0 →
    (after cfg f (xs.map Op.sample)).v = f.v ∧ (after cfg f (xs.map Op.sample)).vTarget = f.vTarget
      ∧ (after cfg f (xs.map Op.sample)).k = f.k ∧ (after cfg f (xs.map Op.sample)).c = f.c
      ∧ (after cfg f (xs.map Op.sample)).order = f.order
      ∧ (after cfg f (xs.map Op.sample)).smoothing = 0
  | [], _, h => ⟨rfl, rfl, rfl, rfl, rfl, h⟩
  | x :: xs, f, h => by
    have e : after cfg f ((x :: xs).map Op.sample)
        = after cfg (processSample cfg f x).1 (xs.map Op.sample) := rfl
    rw [e, processSample_fixed h]
    exact fixed_run xs (f := { f with state := (Ladder.step f.order f.k f.c f.v f.state x).1 }) h

/-- **C26 is false of the code (tap gains)**: let a freshly initialised filter be changed to
`(k', v')` and process any samples, at least `smoothing_samples_max_` of them. With an overdamped
smoother the tap gains end, and stay, at a point strictly between the old and the requested gains,
`old + (requested - old) * r` with one `r < 1`: the code assigns the target from the gains instead
of the gains from the target (ladder_filter-inl.h:237). -/
theorem C26_tap_gains_violation {cfg : Config} {p q : ℝ} (ho : Overdamped cfg.smoother p q)
    (hmax : 0 < cfg.maxSamples) {M : ℕ} {k v : ℕ → ℝ} {f : Filter}
    (hf : init cfg M k v = some f) (k' v' : ℕ → ℝ) :
    ∃ r : ℝ, 0 ≤ r ∧ r < 1 ∧ ∀ xs : List ℝ, cfg.maxSamples ≤ xs.length →
      ∀ i, (after cfg f (Op.changeCoeffs k' v' :: xs.map Op.sample)).v i
        = f.v i + (convertTapGains (fun i => force cfg.eta (k' i)) M 1 v' i - f.v i) * r := by
  refine ⟨progress cfg.smoother p q (cfg.maxSamples - 1), (progress_bounds ho _).1,
    (progress_bounds ho _).2, ?_⟩
  intro xs hx i
  have hfe : f.order = M ∧ f.vTarget = f.v ∧
      f.vS = fun i => Biquad.steadyState cfg.smoother (f.v i) := by
    unfold init at hf
    split at hf
    · cases hf
    · cases hf; exact ⟨rfl, rfl, rfl⟩
  obtain ⟨f1, _, f3⟩ := hfe
  set T := convertTapGains (fun i => force cfg.eta (k' i)) M 1 v' with hT
  have hmov : Moving cfg p q 0 f.v T (change cfg f k' v') := by
    refine ⟨by simp [change], by simp only [change, f1, hT], fun i => by simp [change, progress], ?_⟩
    intro i
    have : (change cfg f k' v').vS = f.vS := rfl
    rw [this, f3]
    simp only [Biquad.steadyState, stepResp, mul_zero, add_zero, ho.fb1, ho.fb2]
    have : -(p + q) + p * q + 1 = (1 - p) * (1 - q) := by ring
    rw [this]
  -- split the samples
  have hsplit : xs = xs.take (cfg.maxSamples - 1) ++ xs.drop (cfg.maxSamples - 1) :=
    (List.take_append_drop _ _).symm
  have hlen : (xs.take (cfg.maxSamples - 1)).length = cfg.maxSamples - 1 := by
    rw [List.length_take]; omega
  obtain ⟨y, ys, hys⟩ : ∃ y ys, xs.drop (cfg.maxSamples - 1) = y :: ys := by
    cases hd : xs.drop (cfg.maxSamples - 1) with
    | nil => have := List.drop_eq_nil_iff.mp hd; omega
    | cons y ys => exact ⟨y, ys, rfl⟩
  have hrun := hmov.run ho (xs.take (cfg.maxSamples - 1)) (by rw [hlen]; omega)
  rw [hlen, Nat.zero_add] at hrun
  have e : after cfg f (Op.changeCoeffs k' v' :: xs.map Op.sample)
      = after cfg (processSample cfg (after cfg (change cfg f k' v')
          ((xs.take (cfg.maxSamples - 1)).map Op.sample)) y).1 (ys.map Op.sample) := by
    have h1 : after cfg f (Op.changeCoeffs k' v' :: xs.map Op.sample)
        = after cfg (change cfg f k' v') (xs.map Op.sample) := rfl
    rw [h1]
    conv_lhs => rw [hsplit, hys, List.map_append, after_append]
    rfl
  rw [e]
  generalize after cfg (change cfg f k' v') ((xs.take (cfg.maxSamples - 1)).map Op.sample) = g at hrun
  have hs := hrun.smoothing
  have hs1 : g.smoothing = 1 := by omega
  have hv1 : (processSample cfg g y).1.v = g.v := by
    unfold processSample smooth
    rw [hs1]
    simp
  have hs0 : (processSample cfg g y).1.smoothing = 0 := by rw [processSample_smoothing, hs1]
  rw [(fixed_run ys hs0).1, hv1]
  exact hrun.v i

/-- **C26 is false of the code, at the output**: start from a filter whose output is zero (`v = 0`)
and request the gains `v'`. Forever after the transition the filter returns `r < 1` times what the
requested filter returns in the same state. -/
theorem C26_output_violation {cfg : Config} {p q : ℝ} (ho : Overdamped cfg.smoother p q)
    (hmax : 0 < cfg.maxSamples) {M : ℕ} {k : ℕ → ℝ} {f : Filter}
    (hf : init cfg M k (fun _ => 0) = some f) (k' v' : ℕ → ℝ) (hk : ∀ i, |k' i| < 1) :
    ∃ r : ℝ, 0 ≤ r ∧ r < 1 ∧ ∀ (xs : List ℝ) (x : ℝ), cfg.maxSamples ≤ xs.length →
      let g := after cfg f (Op.changeCoeffs k' v' :: xs.map Op.sample)
      (processSample cfg g x).2
        = r * (step M k' (scattering cfg.eta k') (convertTapGains k' M 1 v') g.state x).2 := by
  obtain ⟨r, h0, h1, h⟩ := C26_tap_gains_violation ho hmax hf k' v'
  refine ⟨r, h0, h1, ?_⟩
  intro xs x hx g
  obtain ⟨gk, gc, gs⟩ := C26_reflection_partial hmax f [] k' v' hk xs hx
  have hgM : g.order = M := by
    have hfM : f.order = M := by
      unfold init at hf
      split at hf
      · cases hf
      · cases hf; rfl
    rw [← hfM]
    have : ∀ (ops : List Op) (f : Filter), (after cfg f ops).order = f.order := by
      intro ops
      induction ops with
      | nil => intro f; rfl
      | cons o ops ih =>
        intro f
        have e : after cfg f (o :: ops) = after cfg (apply cfg f o).1 ops := rfl
        rw [e, ih]
        cases o with
        | sample x => exact (smooth_state cfg f).2
        | changeCoeffs k v => rfl
        | reset => rfl
    exact this _ _
  have hfv : ∀ i, i ≤ M → f.v i = 0 := by
    intro i hi
    unfold init at hf
    split at hf
    · cases hf
    · cases hf
      simp only [reset]
      rw [convertTapGains_spec _ _ _ _ _ hi, zero_div]
  have hforce : (fun i => force cfg.eta (k' i)) = k' := funext (fun i => force_of_lt (hk i))
  have gk' : g.k = k' := gk
  have gc' : g.c = scattering cfg.eta k' := gc
  have gs' : g.smoothing = 0 := gs
  rw [processSample_fixed gs', gk', gc', hgM]
  simp only [step, taps]
  rw [mul_sum]
  apply sum_congr rfl
  intro i hi
  have hv := h xs hx i
  rw [hfv i (by rw [mem_range] at hi; omega), hforce] at hv
  have : g.v i = 0 + (convertTapGains k' M 1 v' i - 0) * r := hv
  rw [this]; ring

/-- The hypotheses of the C26 violations are met, e.g. by a double pole at `1/2`. -/
example : Overdamped ⟨1/16, 1/8, 1/16, -1, 1/4⟩ (1/2) (1/2) :=
  ⟨by norm_num, by norm_num, by norm_num, by norm_num, by norm_num, by norm_num, by norm_num,
    by norm_num, by norm_num, by norm_num⟩

/-- **C26 is false of the code (Reset)**: `Reset()` directly after a change discards the change: the
filter goes on with the old coefficients for ever. -/
theorem C26_reset_violation (cfg : Config) {M : ℕ} {k v : ℕ → ℝ} {f : Filter}
    (hf : init cfg M k v = some f) (k' v' : ℕ → ℝ) (xs : List ℝ) :
    let g := after cfg f (Op.changeCoeffs k' v' :: Op.reset :: xs.map Op.sample)
    g.k = f.k ∧ g.v = f.v ∧
      (runSamples (processSample cfg) (after cfg f [Op.changeCoeffs k' v', Op.reset]) xs).2
        = (runSamples (processSample cfg) f xs).2 := by
  intro g
  have hg : g = after cfg (reset cfg (change cfg f k' v')) (xs.map Op.sample) := rfl
  have h := fixed_run (cfg := cfg) xs (f := reset cfg (change cfg f k' v')) rfl
  refine ⟨by rw [hg]; exact h.2.2.1, by rw [hg]; exact h.1, ?_⟩
  have hs : f.smoothing = 0 ∧ f.state = fun _ => 0 := by
    unfold init at hf
    split at hf
    · cases hf
    · cases hf; exact ⟨rfl, rfl⟩
  have e : after cfg f [Op.changeCoeffs k' v', Op.reset] = reset cfg (change cfg f k' v') := rfl
  rw [e, runSamples_fixed xs rfl, runSamples_fixed xs hs.1, hs.2]
  rfl

end Verif.Ladder
