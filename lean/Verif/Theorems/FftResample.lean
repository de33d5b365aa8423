import Verif.Proof.FftUtil

/-!
# C69: FFT resampling is trigonometric interpolation
-/

namespace Verif.Fft
open Finset DftSpec

theorem W_time (M : ℕ) (m k : ℕ) :
    W M (m * k : ℤ) = Complex.exp (2 * Real.pi * Complex.I * k * ((m / M : ℝ) : ℂ)) := by
  rw [W]; congr 1; push_cast; ring

theorem mem_filter_all {n limit : ℕ} (h : n < limit) :
    (range (n / 2 + 1)).filter (fun k => 2 * k < limit) = range (n / 2 + 1) := by
  apply filter_true_of_mem
  intro k hk
  have := mem_range.mp hk
  omega

theorem trig_interp (x : List ℝ) (hn : 0 < x.length) {j : ℕ} (hj : j < x.length) {limit : ℕ}
    (hl : x.length < limit) : trig x limit ((j : ℝ) / x.length) = x.getD j 0 := by
  have hc : (x.length : ℝ) ≠ 0 := by exact_mod_cast hn.ne'
  rw [trig, mem_filter_all hl]
  have h := reG hn ((List.range (x.length / 2 + 1)).map (F x.length fun j => (x.getD j 0 : ℂ))) j
  rw [G_congr (fun i hi => hermitian_F hn (fun j => x.getD j 0)
    (fun k hk => getD_range_map _ _ _ (by omega)) hi), G_F hn _ hj, ← Complex.ofReal_natCast,
    ← Complex.ofReal_mul, Complex.ofReal_re] at h
  have h2 : ∑ k ∈ range (x.length / 2 + 1), sinusoid x k ((j : ℝ) / x.length)
      = (x.length * x.getD j 0) / x.length := by
    rw [h, sum_div]
    refine sum_congr rfl fun k hk => ?_
    rw [getD_range_map _ _ _ (mem_range.mp hk), sinusoid, bin_eq, W_time]
  rw [h2]
  field_simp

theorem halveBack_length (v : List ℂ) : (halveBack v).length = v.length := by simp [halveBack]

theorem halveBack_getD (v : List ℂ) (hv : v ≠ []) (k : ℕ) :
    (halveBack v).getD k 0 = if k = v.length - 1 then v.getD k 0 / 2 else v.getD k 0 := by
  have hl := List.length_pos_iff.mpr hv
  unfold halveBack
  by_cases h : k = v.length - 1
  · subst h; simp [List.getD, List.getElem?_modify, show v.length - 1 < v.length by omega]
  · simp [List.getD, List.getElem?_modify, h, Ne.symm h]

/-- The inverse transform of a spectrum of another size. -/
theorem inverse_resize {next : ℕ → ℕ} (hnext : ∀ n, n ≤ next n) {M : ℕ} {u : RealFft}
    (hu : RealFft.make next M false = some u) (S : List ℂ) :
    u.inverse (resize u.transformedSize S) = some ((List.range M).map fun m : ℕ =>
      ∑ k ∈ range (M / 2 + 1), mirrorCount M k * (S.getD k 0 * W M (m * k : ℤ)).re) := by
  rw [make_transformedSize hu, make_inverse hnext hu (resize_length _ _)]
  congr 1
  refine List.map_congr_left fun m _ => ?_
  rw [reG (make_pos hu)]
  simp only [Bool.false_eq_true, if_false, mul_one]
  refine sum_congr rfl fun k hk => ?_
  rw [resize_getD, if_pos (mem_range.mp hk)]

/-- Zero padding. -/
theorem pad_sum (x : List ℝ) (hn : 0 < x.length) {M : ℕ} (hM : x.length < M) (m : ℕ) {S : List ℂ}
    (hS : S = if x.length % 2 = 0
      then halveBack ((List.range (x.length / 2 + 1)).map (F x.length fun j => (x.getD j 0 : ℂ)))
      else (List.range (x.length / 2 + 1)).map (F x.length fun j => (x.getD j 0 : ℂ))) :
    (∑ k ∈ range (M / 2 + 1), mirrorCount M k * (S.getD k 0 * W M (m * k : ℤ)).re) / x.length
      = trig x M ((m : ℝ) / M) := by
  have hlen : S.length = x.length / 2 + 1 := by
    rw [hS]; split_ifs <;> simp [halveBack_length]
  rw [trig, mem_filter_all hM, sum_div]
  symm
  apply sum_subset_zero_on_sdiff (range_subset_range.mpr (by omega))
  · intro k hk
    have hk2 : ¬ k < x.length / 2 + 1 := fun h => (mem_sdiff.mp hk).2 (mem_range.mpr h)
    rw [List.getD_eq_default _ _ (by omega)]; simp
  · intro k hk
    have hk := mem_range.mp hk
    rw [sinusoid, bin_eq, ← W_time]
    congr 1
    rw [hS]
    by_cases he : x.length % 2 = 0
    · rw [if_pos he, halveBack_getD _ (by
        intro h; have := congrArg List.length h; simp at this)]
      simp only [List.length_map, List.length_range, Nat.add_sub_cancel]
      rw [getD_range_map _ _ _ hk]
      unfold mirrorCount
      by_cases h2 : k = x.length / 2
      · rw [if_pos h2, if_pos (Or.inr (by omega)), if_neg (by omega)]
        rw [div_mul_eq_mul_div]
        rw [show ∀ z : ℂ, (z / 2).re = z.re / 2 from fun z => by
          rw [show (2 : ℂ) = ((2 : ℝ) : ℂ) by norm_num, Complex.div_ofReal_re]]
        ring
      · rw [if_neg h2]
        congr 1
        by_cases h0 : k = 0
        · rw [if_pos (.inl h0), if_pos (.inl h0)]
        · rw [if_neg (by omega), if_neg (by omega)]
    · rw [if_neg he, getD_range_map _ _ _ hk]
      congr 1
      unfold mirrorCount
      by_cases h0 : k = 0
      · rw [if_pos (.inl h0), if_pos (.inl h0)]
      · rw [if_neg (by omega), if_neg (by omega)]

/-- Truncation. -/
theorem trunc_sum (x : List ℝ) {M : ℕ} (hM0 : 0 < M) (hM : M < x.length) (m : ℕ) :
    (∑ k ∈ range (M / 2 + 1), mirrorCount M k *
        (((List.range (x.length / 2 + 1)).map (F x.length fun j => (x.getD j 0 : ℂ))).getD k 0 *
          W M (m * k : ℤ)).re) / x.length
      = trig x M ((m : ℝ) / M) +
        (if M % 2 = 0 then sinusoid x (M / 2) ((m : ℝ) / M) / 2 else 0) := by
  rw [trig]
  have hfil : (range (x.length / 2 + 1)).filter (fun k => 2 * k < M) = range ((M + 1) / 2) := by
    ext k
    simp only [mem_filter, mem_range]
    omega
  have hterm : ∀ k, 2 * k < M → mirrorCount M k *
        (((List.range (x.length / 2 + 1)).map (F x.length fun j => (x.getD j 0 : ℂ))).getD k 0 *
          W M (m * k : ℤ)).re / x.length = sinusoid x k ((m : ℝ) / M) := by
    intro k hk
    rw [getD_range_map _ _ _ (by omega), sinusoid, bin_eq, ← W_time]
    congr 2
    unfold mirrorCount
    by_cases h0 : k = 0
    · rw [if_pos (.inl h0), if_pos (.inl h0)]
    · rw [if_neg (by omega), if_neg (by omega)]
  rw [hfil, sum_div]
  by_cases he : M % 2 = 0
  · rw [if_pos he, show (M + 1) / 2 = M / 2 by omega, sum_range_succ]
    congr 1
    · exact sum_congr rfl fun k hk => hterm k (by have := mem_range.mp hk; omega)
    · rw [getD_range_map _ _ _ (by omega), sinusoid, bin_eq, ← W_time]
      unfold mirrorCount
      rw [if_pos (.inr (by omega)), if_neg (by omega)]
      ring
  · rw [if_neg he, add_zero]
    rw [show M / 2 + 1 = (M + 1) / 2 by omega]
    exact sum_congr rfl fun k hk => hterm k (by have := mem_range.mp hk; omega)

/-- **C69**: the trigonometric polynomial of a signal passes through its samples. -/
theorem C69_interpolates (x : List ℝ) {j : ℕ} (hj : j < x.length) {limit : ℕ}
    (hl : x.length < limit) : trig x limit ((j : ℝ) / x.length) = x.getD j 0 :=
  trig_interp x (by omega) hj hl

/-- **C69**: `Upsample` evaluates the trigonometric polynomial of the input at `factor` times as many
points. -/
theorem C69_upsample {next : ℕ → ℕ} (hnext : ∀ n, n ≤ next n) (x : List ℝ) (hne : x ≠ []) (factor : ℕ)
    (hf : 1 < factor) :
    upsample next x factor = some ((List.range (x.length * factor)).map fun m : ℕ =>
      trig x (x.length + 1) ((m : ℝ) / (x.length * factor : ℕ))) := by
  have hn : 0 < x.length := List.length_pos_iff.mpr hne
  have hM : x.length < x.length * factor := by nlinarith
  unfold upsample
  rw [if_neg (by omega)]
  obtain ⟨t, ht, _⟩ := real_make (next := next) hn false
  obtain ⟨u, hu, _⟩ := real_make (next := next) (show 0 < x.length * factor by omega) false
  rw [show ((x.length : ℤ) * (factor : ℤ)) = ((x.length * factor : ℕ) : ℤ) by push_cast; rfl, ht]
  simp only [Option.bind_eq_bind, Option.bind_some]
  rw [make_forward hnext ht rfl]
  simp only [Option.bind_some]
  rw [hu]
  simp only [Option.bind_some]
  rw [inverse_resize hnext hu]
  simp only [Option.bind_some, List.map_map]
  congr 1
  refine List.map_congr_left fun m _ => ?_
  simp only [Function.comp_apply, mul_one_div]
  rw [pad_sum x hn hM m rfl, trig, trig, mem_filter_all hM, mem_filter_all (Nat.lt_succ_self _)]

/-- **C69**: upsampling keeps the input samples: every `factor`-th output sample is an input sample. -/
theorem C69_upsample_samples {next : ℕ → ℕ} (hnext : ∀ n, n ≤ next n) (x : List ℝ) (hne : x ≠ [])
    (factor : ℕ) (hf : 1 < factor) :
    ∃ y, upsample next x factor = some y ∧ y.length = x.length * factor ∧
      ∀ j < x.length, y.getD (factor * j) 0 = x.getD j 0 := by
  refine ⟨_, C69_upsample hnext x hne factor hf, by simp, fun j hj => ?_⟩
  have hlt : factor * j < x.length * factor := by
    rw [mul_comm]; exact Nat.mul_lt_mul_of_pos_right hj (by omega)
  rw [getD_range_map _ _ _ hlt, ← C69_interpolates x hj (Nat.lt_succ_self _)]
  have hfc : (factor : ℝ) ≠ 0 := by exact_mod_cast (by omega : factor ≠ 0)
  have hnc : (x.length : ℝ) ≠ 0 := by exact_mod_cast (by omega : x.length ≠ 0)
  congr 1
  push_cast
  field_simp

/-- **C69**: refusals of `Upsample`. -/
theorem C69_upsample_rejects (next : ℕ → ℕ) (x : List ℝ) (factor : ℤ) (h : factor ≤ 1 ∨ x = []) :
    upsample next x factor = none := by
  unfold upsample
  by_cases hf : factor > 1
  · rw [if_neg (by simpa using hf)]
    rcases h with h | rfl
    · omega
    · simp [RealFft.make]
  · rw [if_pos hf]

/-- What `FftPeriodicResample` does when the number of samples changes. -/
theorem resample_eq {next : ℕ → ℕ} (hnext : ∀ n, n ≤ next n) (x : List ℝ) (hne : x ≠ [])
    {inRate outRate : ℝ} (hi : 0 < inRate) (ho : 0 < outRate) {M : ℕ}
    (hM : roundHalfUp (x.length * (outRate / inRate)) = M) (hM0 : 0 < M) (hMn : M ≠ x.length) :
    fftPeriodicResample next x inRate outRate = some ((List.range M).map fun m : ℕ =>
      if x.length < M then trig x M ((m : ℝ) / M) else trig x M ((m : ℝ) / M) +
        (if M % 2 = 0 then sinusoid x (M / 2) ((m : ℝ) / M) / 2 else 0)) := by
  have hn : 0 < x.length := List.length_pos_iff.mpr hne
  unfold fftPeriodicResample
  rw [if_neg (by simpa using hi), if_neg (by simpa using ho)]
  simp only [hM]
  rw [if_neg (by exact_mod_cast hMn)]
  obtain ⟨t, ht, _⟩ := real_make (next := next) hn false
  obtain ⟨u, hu, _⟩ := real_make (next := next) hM0 false
  rw [ht]
  simp only [Option.bind_eq_bind, Option.bind_some]
  rw [make_forward hnext ht rfl]
  simp only [Option.bind_some]
  rw [hu]
  simp only [Option.bind_some]
  rw [inverse_resize hnext hu]
  simp only [Option.bind_some, List.map_map]
  congr 1
  refine List.map_congr_left fun m _ => ?_
  simp only [Function.comp_apply]
  by_cases h : x.length < M
  · rw [if_pos h]
    apply pad_sum x hn h
    by_cases he : x.length % 2 = 0
    · rw [if_pos he, if_pos (by omega)]
    · rw [if_neg he, if_neg (by omega)]
  · rw [if_neg h, if_neg (by omega), trunc_sum x hM0 (by omega)]

/-- **C69**: resampling to a larger number of samples, or to a smaller odd number of samples, evaluates
the trigonometric polynomial of the input, restricted to the sinusoids below half the output sample rate,
at the output times. -/
theorem C69_resample_partial {next : ℕ → ℕ} (hnext : ∀ n, n ≤ next n) (x : List ℝ) (hne : x ≠ [])
    {inRate outRate : ℝ} (hi : 0 < inRate) (ho : 0 < outRate) {M : ℕ}
    (hM : roundHalfUp (x.length * (outRate / inRate)) = M) (hM0 : 0 < M)
    (h : x.length < M ∨ (M < x.length ∧ M % 2 = 1)) :
    fftPeriodicResample next x inRate outRate = some ((List.range M).map fun m : ℕ =>
      trig x M ((m : ℝ) / M)) := by
  rw [resample_eq hnext x hne hi ho hM hM0 (by omega)]
  congr 1
  refine List.map_congr_left fun m _ => ?_
  rcases h with h | h
  · rw [if_pos h]
  · rw [if_neg (by omega), if_neg (by omega), add_zero]

/-- **C69**: resampling to the same number of samples returns the input. -/
theorem C69_resample_same (next : ℕ → ℕ) (x : List ℝ) {inRate outRate : ℝ} (hi : 0 < inRate)
    (ho : 0 < outRate) (hM : roundHalfUp (x.length * (outRate / inRate)) = x.length) :
    fftPeriodicResample next x inRate outRate = some x := by
  unfold fftPeriodicResample
  rw [if_neg (by simpa using hi), if_neg (by simpa using ho)]
  simp only [hM]
  rw [if_pos trivial]

/-- **C69**: resampling to a smaller even number of samples evaluates the trigonometric polynomial below
half the output sample rate, plus *half* of the sinusoid at exactly half the output sample rate. -/
theorem C69_resample_even {next : ℕ → ℕ} (hnext : ∀ n, n ≤ next n) (x : List ℝ) (hne : x ≠ [])
    {inRate outRate : ℝ} (hi : 0 < inRate) (ho : 0 < outRate) {M : ℕ}
    (hM : roundHalfUp (x.length * (outRate / inRate)) = M) (hM0 : 0 < M) (h : M < x.length)
    (he : M % 2 = 0) :
    fftPeriodicResample next x inRate outRate = some ((List.range M).map fun m : ℕ =>
      trig x M ((m : ℝ) / M) + sinusoid x (M / 2) ((m : ℝ) / M) / 2) := by
  rw [resample_eq hnext x hne hi ho hM hM0 (by omega)]
  congr 1
  refine List.map_congr_left fun m _ => ?_
  rw [if_neg (by omega), if_pos he]

/-- **C69**, violation: an input so short that the number of output samples rounds to zero makes the
program abort instead of giving an empty output, although every input and every positive pair of sample
rates is documented to be accepted. -/
theorem C69_resample_empty_violation (next : ℕ → ℕ) :
    fftPeriodicResample next [1] 4 1 = none := by
  unfold fftPeriodicResample
  rw [if_neg (by norm_num), if_neg (by norm_num)]
  have h : roundHalfUp ((([1] : List ℝ).length : ℝ) * (1 / 4)) = 0 := by
    unfold roundHalfUp
    rw [Int.floor_eq_iff]; norm_num
  simp only [h]
  rw [if_neg (by simp)]
  obtain ⟨t, ht, _⟩ := real_make (next := next) (n := 1) (by omega) false
  rw [show (([1] : List ℝ).length : ℤ) = ((1 : ℕ) : ℤ) by simp, ht]
  simp only [Option.bind_eq_bind, Option.bind_some]
  cases t.forward [1] with
  | none => rfl
  | some s => simp [RealFft.make]

/-- The bins of the trigonometric polynomial sampled at `M` points, up to those of the signal. -/
theorem bin_trig (x : List ℝ) (hn : 0 < x.length) {M : ℕ} (hM : x.length < M) {k : ℕ}
    (hk : 2 * k < x.length) :
    bin ((List.range M).map fun m : ℕ => trig x M ((m : ℝ) / M)) k = M / x.length * bin x k := by
  obtain ⟨S, hS⟩ : ∃ S, S = if x.length % 2 = 0
      then halveBack ((List.range (x.length / 2 + 1)).map (F x.length fun j => (x.getD j 0 : ℂ)))
      else (List.range (x.length / 2 + 1)).map (F x.length fun j => (x.getD j 0 : ℂ)) := ⟨_, rfl⟩
  have hnc : (x.length : ℂ) ≠ 0 := by exact_mod_cast hn.ne'
  have hSk : S.getD k 0 = bin x k := by
    rw [hS, bin_eq]
    split_ifs
    · rw [halveBack_getD _ (by intro h; have := congrArg List.length h; simp at this), if_neg (by
        simp; omega), getD_range_map _ _ _ (by omega)]
    · rw [getD_range_map _ _ _ (by omega)]
  have e : ∀ m : ℕ, trig x M ((m : ℝ) / M)
      = (G M (fun j => (hermitian M (resize (M / 2 + 1) S)).getD j 0) m).re / x.length := by
    intro m
    rw [← pad_sum x hn hM m hS, reG (by omega)]
    congr 1
    refine sum_congr rfl fun k hk => ?_
    rw [resize_getD, if_pos (mem_range.mp hk)]
  simp only [e]
  rw [bin_map]
  have hsc : F M (fun j => (((G M (fun j => (hermitian M (resize (M / 2 + 1) S)).getD j 0) j).re
        / x.length : ℝ) : ℂ)) k
      = F M (fun j => ((G M (fun j => (hermitian M (resize (M / 2 + 1) S)).getD j 0) j).re : ℂ)) k
        / x.length := by
    unfold F
    rw [sum_div]
    exact sum_congr rfl fun j _ => by push_cast; ring
  rw [hsc, F_reG (by omega) _ (by omega), hermitian_getD _ (by omega), if_pos (by omega), resize_getD,
    if_pos (by omega), hSk]
  have h2 : starRingEnd ℂ ((hermitian M (resize (M / 2 + 1) S)).getD (res M (-(k : ℤ))) 0) = bin x k := by
    by_cases h0 : k = 0
    · subst h0
      rw [show res M (-((0 : ℕ) : ℤ)) = 0 by simp [res], hermitian_getD _ (by omega), if_pos (by omega),
        resize_getD, if_pos (by omega), hSk]
      exact Complex.conj_eq_iff_im.mpr (bin_zero_im x)
    · have : res M (-(k : ℤ)) = M - k := by
        unfold res
        rw [← Int.add_emod_left, Int.emod_eq_of_lt (by omega) (by omega)]; omega
      rw [this, hermitian_getD _ (by omega), if_neg (by omega), show M - (M - k) = k by omega,
        Complex.conj_conj, resize_getD, if_pos (by omega), hSk]
  rw [h2]
  ring

/-- **C69**: resampling a signal with an odd number of samples to a higher rate and back to its number of
samples gives the signal back. -/
theorem C69_roundtrip_partial {next : ℕ → ℕ} (hnext : ∀ n, n ≤ next n) (x : List ℝ) {M : ℕ}
    (hodd : x.length % 2 = 1) (hMn : x.length < M) {inRate outRate : ℝ} (hi : 0 < inRate)
    (ho : 0 < outRate) (hM : roundHalfUp (x.length * (outRate / inRate)) = M)
    (hback : roundHalfUp (M * (inRate / outRate)) = x.length) :
    ∃ y, fftPeriodicResample next x inRate outRate = some y ∧ y.length = M ∧
      fftPeriodicResample next y outRate inRate = some x := by
  have hne : x ≠ [] := by rintro rfl; simp at hodd
  have hn : 0 < x.length := List.length_pos_iff.mpr hne
  refine ⟨_, C69_resample_partial hnext x hne hi ho hM (by omega) (.inl hMn), by simp, ?_⟩
  have hyl : ((List.range M).map fun m : ℕ => trig x M ((m : ℝ) / M)).length = M := by simp
  rw [C69_resample_partial hnext _ (by intro h; rw [h] at hyl; simp at hyl; omega) ho hi
    (M := x.length) (by rw [hyl]; exact hback) hn (.inr ⟨by rw [hyl]; exact hMn, hodd⟩)]
  congr 1
  apply list_ext_getD 0
  · simp
  · intro j hj
    have hj : j < x.length := by simpa using hj
    rw [getD_range_map _ _ _ hj, ← C69_interpolates x hj (Nat.lt_succ_self _)]
    rw [trig, trig, mem_filter_all (Nat.lt_succ_self _), hyl]
    have hfil : (range (M / 2 + 1)).filter (fun k => 2 * k < x.length) = range (x.length / 2 + 1) := by
      ext k
      simp only [mem_filter, mem_range]
      omega
    rw [hfil]
    refine sum_congr rfl fun k hk => ?_
    have hk := mem_range.mp hk
    rw [sinusoid, sinusoid, bin_trig x hn hMn (by omega), hyl]
    have hMc : (M : ℝ) ≠ 0 := by exact_mod_cast (by omega : M ≠ 0)
    have hxc : (x.length : ℝ) ≠ 0 := by exact_mod_cast hn.ne'
    have h1 : mirrorCount M k = mirrorCount x.length k := by
      unfold mirrorCount
      by_cases h0 : k = 0
      · rw [if_pos (.inl h0), if_pos (.inl h0)]
      · rw [if_neg (by omega), if_neg (by omega)]
    rw [h1, mul_assoc ((M : ℂ) / _), show ((M : ℂ) / (x.length : ℂ)) = ((M / x.length : ℝ) : ℂ) by
      push_cast; rfl, Complex.re_ofReal_mul]
    field_simp

theorem exp_neg_pi : Complex.exp (-(Real.pi * Complex.I)) = -1 := by
  rw [Complex.exp_neg, Complex.exp_pi_mul_I]; norm_num

theorem up_two {next : ℕ → ℕ} (hnext : ∀ n, n ≤ next n) :
    fftPeriodicResample next [1, -1] 1 2 = some [1, 0, -1, 0] := by
  rw [C69_resample_partial hnext [1, -1] (by simp) one_pos two_pos (M := 4)
    (by unfold roundHalfUp; rw [Int.floor_eq_iff]; norm_num) (by norm_num) (.inl (by simp))]
  have hb0 : bin [1, -1] 0 = 0 := by simp [bin, sum_range_succ]
  have hb1 : bin [1, -1] 1 = 2 := by
    simp only [bin, List.length_cons, List.length_nil, sum_range_succ, range_zero, sum_empty]
    simp only [List.getD_cons_zero, List.getD_cons_succ]
    rw [show -(2 * (Real.pi : ℂ) * Complex.I * ((1 : ℕ) : ℂ) * ((0 + 1 : ℕ) : ℂ) / ((0 + 1 + 1 : ℕ) : ℂ))
      = -(Real.pi * Complex.I) by push_cast; ring, exp_neg_pi]
    simp; norm_num
  have ht : ∀ t : ℝ, trig [1, -1] 4 t = Real.cos (2 * Real.pi * t) := by
    intro t
    rw [trig, mem_filter_all (by simp)]
    simp only [List.length_cons, List.length_nil, sum_range_succ, range_zero, sum_empty, sinusoid,
      zero_add, hb0, hb1]
    rw [show (1 + 1) / 2 = 1 by norm_num]
    have : (Complex.exp (2 * Real.pi * Complex.I * ((1 : ℕ) : ℂ) * t)).re = Real.cos (2 * Real.pi * t) := by
      rw [← Complex.exp_ofReal_mul_I_re]; congr 2; push_cast; ring
    rw [show (2 : ℂ) = ((2 : ℝ) : ℂ) by norm_num, Complex.re_ofReal_mul,
      show ((2 : ℝ) : ℂ) = (2 : ℂ) by norm_num, this]
    norm_num [mirrorCount]
  simp only [ht, List.range_succ, List.range_zero, List.map_append, List.map_cons, List.map_nil,
    List.nil_append, List.cons_append]
  have h1 : Real.cos (2 * Real.pi * ((1 : ℕ) / (4 : ℕ))) = 0 := by
    rw [show 2 * Real.pi * (((1 : ℕ) : ℝ) / ((4 : ℕ) : ℝ)) = Real.pi / 2 by push_cast; ring,
      Real.cos_pi_div_two]
  have h2 : Real.cos (2 * Real.pi * ((2 : ℕ) / (4 : ℕ))) = -1 := by
    rw [show 2 * Real.pi * (((2 : ℕ) : ℝ) / ((4 : ℕ) : ℝ)) = Real.pi by push_cast; ring, Real.cos_pi]
  have h3 : Real.cos (2 * Real.pi * ((3 : ℕ) / (4 : ℕ))) = 0 := by
    rw [show 2 * Real.pi * (((3 : ℕ) : ℝ) / ((4 : ℕ) : ℝ)) = Real.pi / 2 + Real.pi by push_cast; ring,
      Real.cos_add_pi, Real.cos_pi_div_two, neg_zero]
  rw [h1, h2, h3]
  simp

/-- **C69**, violation: for an even number of samples the sinusoid at half the sample rate loses half of
its amplitude when the signal is resampled to twice the rate and back, because truncation takes only one
of the two bins that zero padding has split it into. -/
theorem C69_roundtrip_violation {next : ℕ → ℕ} (hnext : ∀ n, n ≤ next n) :
    (fftPeriodicResample next [1, -1] 1 2).bind (fun y => fftPeriodicResample next y 2 1)
      = some [1 / 2, -1 / 2] := by
  rw [up_two hnext, Option.bind_some]
  rw [C69_resample_even hnext [1, 0, -1, 0] (by simp) two_pos one_pos (M := 2)
    (by unfold roundHalfUp; rw [Int.floor_eq_iff]; norm_num) (by norm_num) (by simp) (by norm_num)]
  have hb0 : bin [1, 0, -1, 0] 0 = 0 := by simp [bin, sum_range_succ]
  have hb1 : bin [1, 0, -1, 0] 1 = 2 := by
    simp only [bin, List.length_cons, List.length_nil, sum_range_succ, range_zero, sum_empty]
    simp only [List.getD_cons_zero, List.getD_cons_succ]
    rw [show -(2 * (Real.pi : ℂ) * Complex.I * ((1 : ℕ) : ℂ) * ((0 + 1 + 1 : ℕ) : ℂ) /
      ((0 + 1 + 1 + 1 + 1 : ℕ) : ℂ)) = -(Real.pi * Complex.I) by push_cast; ring, exp_neg_pi]
    simp; norm_num
  have hfil : (range (([1, 0, -1, 0] : List ℝ).length / 2 + 1)).filter (fun k => 2 * k < 2) = {0} := by
    ext k; simp; omega
  have ht : ∀ t : ℝ, trig [1, 0, -1, 0] 2 t = 0 := by
    intro t
    rw [trig, hfil, sum_singleton, sinusoid, hb0]; simp
  have hs : ∀ t : ℝ, sinusoid [1, 0, -1, 0] (2 / 2) t = Real.cos (2 * Real.pi * t) := by
    intro t
    rw [show 2 / 2 = 1 by norm_num, sinusoid, hb1]
    have : (Complex.exp (2 * Real.pi * Complex.I * ((1 : ℕ) : ℂ) * t)).re = Real.cos (2 * Real.pi * t) := by
      rw [← Complex.exp_ofReal_mul_I_re]; congr 2; push_cast; ring
    rw [show (2 : ℂ) = ((2 : ℝ) : ℂ) by norm_num, Complex.re_ofReal_mul,
      show ((2 : ℝ) : ℂ) = (2 : ℂ) by norm_num, this]
    norm_num [mirrorCount]
    ring
  simp only [ht, hs, List.range_succ, List.range_zero, List.map_append, List.map_cons, List.map_nil,
    List.nil_append, List.cons_append]
  have h1 : Real.cos (2 * Real.pi * ((1 : ℕ) / (2 : ℕ))) = -1 := by
    rw [show 2 * Real.pi * (((1 : ℕ) : ℝ) / ((2 : ℕ) : ℝ)) = Real.pi by push_cast; ring, Real.cos_pi]
  rw [h1]
  norm_num

/-- Case: three samples to six and back. -/
example {next : ℕ → ℕ} (hnext : ∀ n, n ≤ next n) :
    ∃ y, fftPeriodicResample next [1, 2, 5] 1 2 = some y ∧ y.length = 6 ∧
      fftPeriodicResample next y 2 1 = some [1, 2, 5] :=
  C69_roundtrip_partial hnext [1, 2, 5] (by simp) (by simp) one_pos two_pos
    (by unfold roundHalfUp; rw [Int.floor_eq_iff]; norm_num)
    (by unfold roundHalfUp; rw [Int.floor_eq_iff]; norm_num)

end Verif.Fft
