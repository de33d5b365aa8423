import Verif.Proof.FloatAuditory

/-!
# C121: the pole frequencies of the auditory filterbank in double arithmetic

`Init` places the poles with the loop auditory_cascade_filterbank.cc:123-129, which subtracts a multiple of the bandwidth from
a double until the minimum is reached. The specification `Spec.freq` is that of C78 in exact arithmetic (with the constants of
Glasberg and Moore instead of their approximations by floats).

* `C121_ends_partial`: for `step_erbs` of at least 2^-40 the loop ends, after at most `highest / (24 step_erbs) + 1` iterations,
  and the frequencies are strictly decreasing.
* `C121_accurate_partial`: for `step_erbs` of at least 2^-20 all frequencies, whatever their number, are within 2^-21 (half a
  millionth) of the exact ones, relative to the highest one plus 229 Hz. So are the numbers stored, and the bandwidths.
* `C121_count_partial`: the number of stages is the exact one, if no exact frequency is that close to the minimum.
* `C121_endless_violation`: `step_erbs = 2^-60` passes the checks, and `Init` never returns: the frequency stays 16 kHz.
-/

namespace Verif.FloatAuditory
open Verif.Rounding Verif.AuditoryFilterbank

/-- The largest error of a frequency. -/
noncomputable def tolerance (p : Params) (rate : ℝ) : ℝ := 1 / 2 ^ 21 * (229 + start p rate)

theorem start_nonneg {p : Params} {allow : Bool} {rate : ℝ} (hp : p.Ok allow rate) : 0 ≤ start p rate := by
  obtain ⟨h1, h2, h3, -⟩ := hp
  refine le_min h2.le (binary32_regular.nonneg (div_nonneg (binary32_regular.nonneg (mul_nonneg h3 h1.le)) (by norm_num)))

/-- While the frequencies are above the minimum they decrease by more than 24 Hz times `step_erbs`. -/
theorem decreasing {p : Params} {allow : Bool} {rate : ℝ} (hp : p.Ok allow rate) (hs : 1 / 2 ^ 40 ≤ p.stepErbs) {f : ℕ → ℝ}
    (hf : Values p rate f) {n : ℕ} (hn : ∀ k < n, f k > p.minPole) : f n ≤ start p rate - n * (24 * p.stepErbs) := by
  obtain ⟨-, -, -, -, h5, h6, -, -, h9, -⟩ := hp
  induction n with
  | zero => simp [hf.1]
  | succ n ih =>
    have a := ih fun k hk => hn k (by omega)
    have b := next_lt hs h6 (h9.trans (hn n (by omega))).le (hf.2 n)
    push_cast
    linarith

/-- **C121 (partial: `step_erbs` at least 2^-40).** The loop ends, and the frequencies decrease strictly. -/
theorem C121_ends_partial {p : Params} {allow : Bool} {rate : ℝ} (hp : p.Ok allow rate) (hs : 1 / 2 ^ 40 ≤ p.stepErbs)
    {f : ℕ → ℝ} (hf : Values p rate f) :
    ∃ N : ℕ, Ends p f N ∧ (N : ℝ) ≤ start p rate / (24 * p.stepErbs) + 1 ∧ ∀ n < N, f (n + 1) < f n := by
  have s0 : 0 < p.stepErbs := lt_of_lt_of_le (by positivity) hs
  have ex : ∃ n, ¬ f n > p.minPole := by
    by_contra hc
    push Not at hc
    obtain ⟨n, hn⟩ := exists_nat_gt (start p rate / (24 * p.stepErbs))
    rw [div_lt_iff₀ (by positivity)] at hn
    have := decreasing hp hs hf (n := n) fun k _ => hc k
    have := hc n
    linarith [hp.2.2.2.2.2.2.2.2.1]
  classical
  refine ⟨Nat.find ex, ⟨fun n hn => by simpa using Nat.find_min ex hn, Nat.find_spec ex⟩, ?_, ?_⟩
  · rcases Nat.eq_zero_or_pos (Nat.find ex) with h0 | h0
    · rw [h0]
      have := start_nonneg hp
      have : 0 ≤ start p rate / (24 * p.stepErbs) := by positivity
      push_cast; linarith
    · obtain ⟨m, hm⟩ : ∃ m, Nat.find ex = m + 1 := ⟨Nat.find ex - 1, by omega⟩
      have h1 : ∀ k < m + 1, f k > p.minPole := fun k hk => by
        have := Nat.find_min ex (m := k) (by omega)
        simpa using this
      have a := decreasing hp hs hf (n := m) fun k hk => h1 k (by omega)
      have b := h1 m (by omega)
      have h9 := hp.2.2.2.2.2.2.2.2.1
      rw [hm]
      push_cast
      have : (m : ℝ) ≤ start p rate / (24 * p.stepErbs) := by
        rw [le_div_iff₀ (by positivity)]; linarith
      linarith
  · intro n hn
    have h1 : f n > p.minPole := by simpa using Nat.find_min ex hn
    have := next_lt hs hp.2.2.2.2.2.1 (hp.2.2.2.2.2.2.2.2.1.trans h1).le (hf.2 n)
    linarith

theorem start_error {p : Params} {allow : Bool} {rate : ℝ} (hp : p.Ok allow rate) :
    |start p rate - Spec.freq p rate 0| ≤ tolerance p rate := by
  have s0 := start_nonneg hp
  obtain ⟨h1, h2, h3, -⟩ := hp
  set x := p.fraction * rate with hx
  have x0 : 0 ≤ x := mul_nonneg h3 h1.le
  have e1 := binary32_accurate x
  rw [abs_of_nonneg x0] at e1
  have y0 : 0 ≤ binary32 x := binary32_regular.nonneg x0
  have e2 := binary32_accurate (binary32 x / 2)
  rw [abs_of_nonneg (by linarith : 0 ≤ binary32 x / 2)] at e2
  have e3 : (1 / 2 ^ 150 : ℝ) ≤ 1 / 2 ^ 60 := by norm_num
  have d : |binary32 (binary32 x / 2) - x / 2| ≤ 1 / 2 ^ 22 * (229 + binary32 (binary32 x / 2)) ∧
      |binary32 (binary32 x / 2) - x / 2| ≤ 1 / 2 ^ 22 * (229 + x / 2) := by
    obtain ⟨a1, a2⟩ := abs_le.1 e1
    obtain ⟨b1, b2⟩ := abs_le.1 e2
    constructor <;> rw [abs_le] <;> constructor <;> linarith
  show |min p.highest _ - min p.highest (x / 2)| ≤ 1 / 2 ^ 21 * (229 + min p.highest _)
  generalize binary32 (binary32 x / 2) = y at *
  obtain ⟨d1, d2⟩ := d
  obtain ⟨d3, d4⟩ := abs_le.1 d1
  obtain ⟨d5, d6⟩ := abs_le.1 d2
  rw [abs_le]
  rcases le_total p.highest y with h | h <;> rcases le_total p.highest (x / 2) with h' | h' <;>
    simp only [min_eq_left h, min_eq_right h, min_eq_left h', min_eq_right h'] <;> constructor <;> linarith

/-- Error of the frequencies. -/
theorem accurate {p : Params} {allow : Bool} {rate : ℝ} (hp : p.Ok allow rate) (hs : 1 / 2 ^ 20 ≤ p.stepErbs) {f : ℕ → ℝ}
    (hf : Values p rate f) {n : ℕ} (hn : ∀ k < n, f k > p.minPole) : |f n - Spec.freq p rate n| ≤ tolerance p rate := by
  have hs' : 1 / 2 ^ 40 ≤ p.stepErbs := le_trans (by norm_num) hs
  induction n with
  | zero => rw [hf.1]; exact start_error hp
  | succ n ih =>
    have a := ih fun k hk => hn k (by omega)
    have hd := decreasing hp hs' hf (n := n) fun k hk => hn k (by omega)
    have hfn := hn n (by omega)
    have s00 := start_nonneg hp
    obtain ⟨-, -, -, -, h5, h6, -, -, h9, -⟩ := hp
    have f0 : 0 ≤ f n := (h9.trans hfn).le
    have e := next_error hs' h6 f0 (hf.2 n)
    obtain ⟨q0, c, w⟩ := earQ_bounds
    have hd' : f n ≤ start p rate := by
      have : (0 : ℝ) ≤ n * (24 * p.stepErbs) := by positivity
      linarith
    show |f (n + 1) - (Spec.freq p rate n - p.stepErbs * Spec.erb (Spec.freq p rate n))| ≤ _
    generalize Spec.freq p rate n = g at *
    have hw : (breakHz + f n) / earQ = breakHz / earQ + 1 / earQ * f n := by rw [add_div]; ring
    rw [hw] at e
    unfold tolerance at *
    set E := 1 / 2 ^ 21 * (229 + start p rate) with hE
    have E0 : 0 ≤ E := by positivity
    -- error of the constants
    have k1 : |(breakHz / earQ + 1 / earQ * f n) - Spec.erb (f n)| ≤ 1 / 2 ^ 22 * (24.7 * 4.37 / 1000 * (229 + start p rate)) := by
      have := mul_le_mul_of_nonneg_right w f0
      rw [← abs_of_nonneg f0, ← abs_mul, abs_of_nonneg f0] at this
      have h2 : (24.7 * 4.37 / 1000 : ℝ) * f n ≤ 24.7 * 4.37 / 1000 * start p rate :=
        mul_le_mul_of_nonneg_left hd' (by norm_num)
      have h3 : (24.7 : ℝ) ≤ 24.7 * 4.37 / 1000 * 229 := by norm_num
      have h4 : (breakHz / earQ + 1 / earQ * f n) - Spec.erb (f n) =
          (breakHz / earQ - 24.7) + (1 / earQ - 24.7 * 4.37 / 1000) * f n := by unfold Spec.erb; ring
      rw [h4]
      refine (abs_add_le _ _).trans ?_
      linarith
    have k2 := mul_le_mul_of_nonneg_left k1 h5.le
    rw [← abs_of_pos h5, ← abs_mul, abs_of_pos h5] at k2
    -- the exact recursion contracts
    have h7 : 0 ≤ 1 - p.stepErbs * (24.7 * 4.37 / 1000) := by nlinarith
    have k3 : |(f n - p.stepErbs * Spec.erb (f n)) - (g - p.stepErbs * Spec.erb g)| ≤
        (1 - p.stepErbs * (24.7 * 4.37 / 1000)) * E := by
      have : (f n - p.stepErbs * Spec.erb (f n)) - (g - p.stepErbs * Spec.erb g) =
          (1 - p.stepErbs * (24.7 * 4.37 / 1000)) * (f n - g) := by unfold Spec.erb; ring
      rw [this, abs_mul, abs_of_nonneg h7]
      exact mul_le_mul_of_nonneg_left a h7
    have k4 : 1 / 2 ^ 50 * (229 + f n) ≤ p.stepErbs * (1 / 2 ^ 22 * (24.7 * 4.37 / 1000 * (229 + start p rate))) := by
      refine le_trans ?_ (mul_le_mul_of_nonneg_right hs (by positivity))
      have : 229 + f n ≤ 229 + start p rate := by linarith
      refine (mul_le_mul_of_nonneg_left this (by positivity)).trans ?_
      rw [← mul_assoc, ← mul_assoc]
      refine mul_le_mul_of_nonneg_right ?_ (by linarith)
      norm_num
    have k5 : p.stepErbs * (24.7 * 4.37 / 1000) * E =
        2 * (p.stepErbs * (1 / 2 ^ 22 * (24.7 * 4.37 / 1000 * (229 + start p rate)))) := by rw [hE]; ring
    have k6 : (1 - p.stepErbs * (24.7 * 4.37 / 1000)) * E = E - p.stepErbs * (24.7 * 4.37 / 1000) * E := by ring
    rw [k6] at k3
    rw [mul_sub] at k2
    obtain ⟨e1, e2⟩ := abs_le.1 e
    obtain ⟨e3, e4⟩ := abs_le.1 k2
    obtain ⟨e5, e6⟩ := abs_le.1 k3
    rw [abs_le]
    constructor <;> linarith

/-- **C121 (partial: `step_erbs` at least 2^-20).** The frequencies and bandwidths stored. -/
theorem C121_accurate_partial {p : Params} {allow : Bool} {rate : ℝ} (hp : p.Ok allow rate) (hs : 1 / 2 ^ 20 ≤ p.stepErbs)
    {f : ℕ → ℝ} (hf : Values p rate f) {N : ℕ} (hN : Ends p f N) :
    (poles f N).length = N ∧ (bandwidths f N).length = N ∧
      ∀ n < N, |(poles f N).getD n 0 - Spec.freq p rate n| ≤ 2 * tolerance p rate ∧
        |(bandwidths f N).getD n 0 - Spec.erb (Spec.freq p rate n)| ≤ tolerance p rate := by
  have hs' : 1 / 2 ^ 40 ≤ p.stepErbs := le_trans (by norm_num) hs
  refine ⟨by simp [poles], by simp [bandwidths], fun n hn => ?_⟩
  have e := accurate hp hs hf (n := n) fun k hk => hN.1 k (by omega)
  have hd := decreasing hp hs' hf (n := n) fun k hk => hN.1 k (by omega)
  have f0 : 0 ≤ f n := (hp.2.2.2.2.2.2.2.2.1.trans (hN.1 n hn)).le
  have h5 := hp.2.2.2.2.1
  have s0 := start_nonneg hp
  have hd' : f n ≤ start p rate := by
    have : (0 : ℝ) ≤ n * (24 * p.stepErbs) := by positivity
    linarith
  have e150 : (1 / 2 ^ 150 : ℝ) ≤ 1 / 2 ^ 60 := by norm_num
  constructor
  · have h1 : (poles f N).getD n 0 = binary32 (f n) := by simp [poles, hn]
    rw [h1]
    have h2 := binary32_accurate (f n)
    rw [abs_of_nonneg f0] at h2
    unfold tolerance at *
    obtain ⟨a, b⟩ := abs_le.1 h2
    obtain ⟨c, d⟩ := abs_le.1 e
    rw [abs_le]
    constructor <;> linarith
  · have h1 : (bandwidths f N).getD n 0 = binary32 (bandwidth (f n)) := by simp [bandwidths, hn]
    rw [h1]
    obtain ⟨q0, c, w⟩ := earQ_bounds
    obtain ⟨b1, b2, b3⟩ := bandwidth_bounds f0
    have hw : (breakHz + f n) / earQ = breakHz / earQ + 1 / earQ * f n := by rw [add_div]; ring
    set W := (breakHz + f n) / earQ with hW
    have k0 := mul_le_mul_of_nonneg_right w f0
    rw [← abs_of_nonneg f0, ← abs_mul, abs_of_nonneg f0, sub_mul, ← abs_of_nonneg f0, abs_of_nonneg f0] at k0
    have k1 : |W - Spec.erb (f n)| ≤ 1 / 2 ^ 22 * Spec.erb (f n) := by
      have h4 : W - Spec.erb (f n) = (breakHz / earQ - 24.7) + (1 / earQ * f n - 24.7 * 4.37 / 1000 * f n) := by
        rw [hw]; unfold Spec.erb; ring
      rw [h4]
      refine (abs_add_le _ _).trans ?_
      unfold Spec.erb
      linarith
    have k2 : |Spec.erb (f n) - Spec.erb (Spec.freq p rate n)| ≤ 0.108 * tolerance p rate := by
      have : Spec.erb (f n) - Spec.erb (Spec.freq p rate n) = 24.7 * 4.37 / 1000 * (f n - Spec.freq p rate n) := by
        unfold Spec.erb; ring
      rw [this, abs_mul, abs_of_pos (show (0 : ℝ) < 24.7 * 4.37 / 1000 by norm_num)]
      refine mul_le_mul (by norm_num) e (abs_nonneg _) (by norm_num)
    have k3 : Spec.erb (f n) ≤ 0.108 * (229 + start p rate) := by unfold Spec.erb; linarith
    have k3' : 24.7 ≤ Spec.erb (f n) := by unfold Spec.erb; linarith
    obtain ⟨a1, a2⟩ := abs_le.1 k1
    have b0 : 0 ≤ bandwidth (f n) := le_trans (mul_nonneg (by linarith) (by norm_num)) b1
    have h2 := binary32_accurate (bandwidth (f n))
    rw [abs_of_nonneg b0] at h2
    obtain ⟨a3, a4⟩ := abs_le.1 h2
    obtain ⟨a5, a6⟩ := abs_le.1 k2
    unfold tolerance at *
    rw [abs_le]
    constructor <;> linarith

/-- **C121 (partial: `step_erbs` at least 2^-20, and no exact frequency within the error of the minimum).** The number of
stages is the exact one. -/
theorem C121_count_partial {p : Params} {allow : Bool} {rate : ℝ} (hp : p.Ok allow rate) (hs : 1 / 2 ^ 20 ≤ p.stepErbs)
    {f : ℕ → ℝ} (hf : Values p rate f) {N M : ℕ} (hN : Ends p f N) (hM : Spec.IsCount p rate M)
    (hg : ∀ n ≤ M, tolerance p rate < |Spec.freq p rate n - p.minPole|) : N = M := by
  rcases lt_trichotomy N M with h | h | h
  · exfalso
    have e := accurate hp hs hf (n := N) fun k hk => hN.1 k hk
    have a := hM.1 N h
    have b := hg N h.le
    rw [abs_of_pos (by linarith)] at b
    have c := hN.2
    rw [not_lt] at c
    obtain ⟨e1, e2⟩ := abs_le.1 e
    linarith
  · exact h
  · exfalso
    have e := accurate hp hs hf (n := M) fun k hk => hN.1 k (by omega)
    have a := hM.2
    have b := hg M le_rfl
    rw [abs_of_nonpos (by linarith)] at b
    have c := hN.1 M h
    obtain ⟨e1, e2⟩ := abs_le.1 e
    linarith

/-- There always are such values (without contraction, for instance). -/
theorem exists_values (p : Params) (rate : ℝ) : ∃ f, Values p rate f :=
  ⟨fun n => Nat.rec (start p rate) (fun _ x => binary64 (x - binary64 (p.stepErbs * bandwidth x))) n, rfl,
    fun _ => .inl rfl⟩

/-- Parameters with a very small step. -/
noncomputable def tinyStep : Params := { Params.default with fraction := 1 / 2, stepErbs := 1 / 2 ^ 60 }

theorem tinyStep_start : start tinyStep 96000 = 16000 := by
  have h1 : binary32 48000 = 48000 :=
    ieee_of_representable (by norm_num) ⟨48000, 0, by norm_num, by norm_num, by norm_num⟩
  have h2 : binary32 24000 = 24000 :=
    ieee_of_representable (by norm_num) ⟨24000, 0, by norm_num, by norm_num, by norm_num⟩
  have h3 : (1 / 2 : ℝ) * 96000 = 48000 := by norm_num
  have h4 : (48000 / 2 : ℝ) = 24000 := by norm_num
  simp only [start, tinyStep, Params.default, h3, h1, h4, h2]
  norm_num

theorem round_16000 {d : ℝ} (h0 : 0 ≤ d) (h1 : d ≤ 1 / 2 ^ 45) : binary64 (16000 - d) = 16000 := by
  have h := ieee_eq (p := 53) (emin := -1074) (e := -39) (m := 16000 * 2 ^ 39) (x := 16000 - d)
    (by norm_num at h1 ⊢; linarith) (by norm_num at h1 ⊢; linarith) (by norm_num)
    (.inl (by
      have e : (16000 - d) / 2 ^ (-39 : ℤ) - ((16000 * 2 ^ 39 : ℤ) : ℝ) = -(d * 2 ^ 39) := by
        rw [zpow_neg]; push_cast; rw [div_inv_eq_mul]; norm_num; ring
      rw [e, abs_neg, abs_of_nonneg (by positivity)]
      have := mul_le_mul_of_nonneg_right h1 (by positivity : (0 : ℝ) ≤ 2 ^ 39)
      refine this.trans_lt (by norm_num)))
  unfold binary64
  rw [h]
  rw [zpow_neg]
  norm_num

theorem tinyStep_next {f' : ℝ} (h : Next tinyStep 16000 f') : f' = 16000 := by
  obtain ⟨b1, b2, b3⟩ := bandwidth_bounds (f := 16000) (by norm_num)
  obtain ⟨q0, c, w⟩ := earQ_bounds
  obtain ⟨B1, B2⟩ := breakHz_bounds
  have k : (breakHz + 16000) / earQ ≤ 2000 := by
    rw [div_eq_mul_one_div]
    have k1 : breakHz + 16000 ≤ 16229 := by linarith [B2.trans (by norm_num : _ ≤ (229 : ℝ))]
    have k2 : 1 / earQ ≤ 0.108 := by
      obtain ⟨-, a2⟩ := abs_le.1 w
      exact le_trans (by linarith : 1 / earQ ≤ 24.7 * 4.37 / 1000 + 1 / 2 ^ 22 * (24.7 * 4.37 / 1000)) (by norm_num)
    refine (mul_le_mul k1 k2 (by positivity) (by norm_num)).trans (by norm_num)
  have b0 : 0 ≤ bandwidth 16000 := le_trans (mul_nonneg (by linarith) (by norm_num)) b1
  have b4 : bandwidth 16000 ≤ 4000 := by
    refine b2.trans ((mul_le_mul_of_nonneg_right k (by norm_num)).trans (by norm_num))
  have d0 : 0 ≤ tinyStep.stepErbs * bandwidth 16000 := mul_nonneg (by norm_num [tinyStep]) b0
  have d1 : tinyStep.stepErbs * bandwidth 16000 ≤ 1 / 2 ^ 48 := by
    show 1 / 2 ^ 60 * _ ≤ _
    refine (mul_le_mul_of_nonneg_left b4 (by positivity)).trans (by norm_num)
  rcases h with rfl | rfl
  · refine round_16000 (binary64_regular.nonneg d0) ?_
    have := (abs_le.1 (r64 (tinyStep.stepErbs * bandwidth 16000))).2
    rw [abs_of_nonneg d0] at this
    have e : (1 / 2 ^ 53 : ℝ) * (1 / 2 ^ 48) + 1 / 2 ^ 200 + 1 / 2 ^ 48 ≤ 1 / 2 ^ 45 := by norm_num
    have e2 := mul_le_mul_of_nonneg_left d1 (by positivity : (0 : ℝ) ≤ 1 / 2 ^ 53)
    linarith
  · exact round_16000 d0 (d1.trans (by norm_num))

/-- **C121 (violation).** The parameters are accepted, and the loop does not end: the frequency stays at 16 kHz, because a step
is less than half of the distance of neighbouring doubles. -/
theorem C121_endless_violation : tinyStep.Ok true 96000 ∧
    ∀ f, Values tinyStep 96000 f → (∀ n, f n = 16000) ∧ ¬ ∃ N, Ends tinyStep f N := by
  refine ⟨by norm_num [Params.Ok, tinyStep, Params.default], fun f hf => ?_⟩
  have key : ∀ n, f n = 16000 := by
    intro n
    induction n with
    | zero => rw [hf.1, tinyStep_start]
    | succ n ih => exact tinyStep_next (ih ▸ hf.2 n)
  refine ⟨key, fun ⟨N, hN⟩ => hN.2 ?_⟩
  rw [key N]
  norm_num [tinyStep, Params.default]

/-- The default parameters at 48 kHz meet the hypotheses. -/
example : ∃ (f : ℕ → ℝ) (N : ℕ), Values Params.default 48000 f ∧ Ends Params.default f N ∧ (N : ℝ) ≤ 16000 / 12 + 1 ∧
    ∀ n < N, |(poles f N).getD n 0 - Spec.freq Params.default 48000 n| ≤ 0.016 := by
  have hp : Params.default.Ok true 48000 := by norm_num [Params.Ok, Params.default]
  have hs : (1 / 2 ^ 20 : ℝ) ≤ Params.default.stepErbs := by norm_num [Params.default]
  have h16 : start Params.default 48000 ≤ 16000 := (min_le_left _ _).trans (by norm_num [Params.default])
  obtain ⟨f, hf⟩ := exists_values Params.default 48000
  obtain ⟨N, h1, h2, -⟩ := C121_ends_partial hp (le_trans (by norm_num) hs) hf
  refine ⟨f, N, hf, h1, h2.trans ?_, fun n hn => ((C121_accurate_partial hp hs hf h1).2.2 n hn).1.trans ?_⟩
  · have : start Params.default 48000 / (24 * Params.default.stepErbs) ≤ 16000 / 12 := by
      rw [show (24 : ℝ) * Params.default.stepErbs = 12 by norm_num [Params.default]]
      exact div_le_div_of_nonneg_right h16 (by norm_num)
    linarith
  · unfold tolerance
    norm_num
    linarith

end Verif.FloatAuditory
