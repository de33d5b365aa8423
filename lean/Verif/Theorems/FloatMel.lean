import Verif.Proof.FloatMel

/-!
# C112: the mel filterbank in double arithmetic

In exact arithmetic the channels of all bins are in range (C35). With rounding the bin at the upper limit can get a channel
one above the last.
-/

namespace Verif.FloatMel
open Verif.Rounding Verif.Mfcc Verif.MfccSpec Verif.FloatMelSpec Finset

/-- **C112 is violated**: with IEEE 754 doubles and a correctly rounded logarithm, at 16 kHz, with the default of 40 channels
and with the limits 0 Hz and 7000 Hz, `Initialize` writes outside `channel_weights_sum_`, for every FFT size that is a power
of two (`2 ^ (k + 1)` samples, `2 ^ k + 1` bins). The position of the last bin, at 7000 Hz, is computed as 40 + 2^-47. -/
theorem C112_out_of_bounds_violation (m : Mel) (k : ℕ) (h1 : 4 ≤ k) (h2 : k ≤ 24) :
    init .ideal m ((2 ^ k + 1 : ℕ) : ℤ) 16000 40 0 7000 = .error .oob := by
  have hz : hzPerSbin .ideal ((2 ^ k + 1 : ℕ) : ℤ) 16000 = 8000 / 2 ^ k := by
    have a : (2 : ℝ) * ((((2 ^ k + 1 : ℕ) : ℤ) : ℝ) - 1) = ((2 ^ (k + 1) : ℤ) : ℝ) := by push_cast; ring
    have b : (16000 : ℝ) / ((2 ^ (k + 1) : ℤ) : ℝ) = (8000 : ℤ) * (2 : ℝ) ^ (-(k : ℤ)) := by
      rw [zpow_neg, zpow_natCast]; push_cast; field_simp; ring
    have hk : (2 : ℤ) ^ (k + 1) ≤ 2 ^ 53 := pow_le_pow_right₀ (by norm_num) (by omega)
    unfold hzPerSbin Machine.ideal
    dsimp only
    rw [a, binary64_int _ (by rw [abs_of_nonneg (by positivity)]; exact hk), b, binary64_of _ _ (by norm_num) (by omega), zpow_neg,
      zpow_natCast]
    push_cast
    ring
  have z0 : binary64 0 = 0 := by simpa using binary64_int 0 (by norm_num)
  have start : castInt (Machine.ideal.rnd (3 / 2 + Machine.ideal.rnd (0 / (8000 / 2 ^ k)))) = .ok 1 := by
    have : binary64 (3 / 2) = 3 / 2 := by
      have := binary64_of 3 (-1) (by norm_num) (by norm_num)
      norm_num at this
      exact this
    unfold Machine.ideal
    dsimp only
    rw [zero_div, z0, add_zero, this, castInt_ok (by norm_num) (by norm_num)]
    norm_num
  have stop : castInt (Machine.ideal.rnd (7000 / (8000 / 2 ^ k))) = .ok (7 * 2 ^ (k - 3)) := by
    obtain ⟨j, rfl⟩ : ∃ j, k = j + 3 := ⟨k - 3, by omega⟩
    have e : (7000 : ℝ) / (8000 / 2 ^ (j + 3)) = ((7 * 2 ^ j : ℤ) : ℝ) := by push_cast; rw [pow_add]; field_simp; norm_num
    have hj : (2 : ℤ) ^ j ≤ 2 ^ 21 := pow_le_pow_right₀ (by norm_num) (by omega)
    have hj' : (2 : ℝ) ^ j ≤ 2 ^ 21 := pow_le_pow_right₀ (by norm_num) (by omega)
    unfold Machine.ideal
    dsimp only
    rw [e, binary64_int _ (by rw [abs_of_nonneg (by positivity)]; linarith [show (7 : ℤ) * 2 ^ 21 ≤ 2 ^ 53 by norm_num]),
      castInt_ok (by positivity) (by push_cast; linarith [show (7 : ℝ) * 2 ^ 21 < 2 ^ 31 by norm_num]), Int.floor_intCast]
    simp
  have pos : melPosition .ideal (8000 / 2 ^ k) (freqToMel .ideal 0) (melSpacing .ideal 40 0 7000) (7 * 2 ^ (k - 3)) =
      (5629499534213121 : ℤ) * (2 : ℝ) ^ (-47 : ℤ) := by
    have f : ((7 * 2 ^ (k - 3) : ℕ) : ℝ) * (8000 / 2 ^ k) = ((7000 : ℤ) : ℝ) := by
      obtain ⟨j, rfl⟩ : ∃ j, k = j + 3 := ⟨k - 3, by omega⟩
      rw [Nat.add_sub_cancel, pow_add]; push_cast; field_simp; norm_num
    have f' : binary64 ((7000 : ℤ) : ℝ) = 7000 := by rw [binary64_int _ (by norm_num)]; norm_num
    have s : melSpacing .ideal 40 0 7000 = (4638206406133132 : ℤ) * (2 : ℝ) ^ (-46 : ℤ) := by
      unfold melSpacing
      rw [mel_zero, mel_7000, sub_zero]
      show binary64 (binary64 _ / _) = _
      rw [round_mel_again, show (((40 : ℤ) : ℝ) + 1) = 41 by norm_num, round_spacing]
    unfold melPosition
    rw [s, mel_zero, sub_zero]
    show binary64 (binary64 (binary64 (freqToMel .ideal (binary64 _)) / _) - 1) = _
    rw [f, f', mel_7000, round_mel_again, round_quotient, round_position]
  have ceil : ⌈((5629499534213121 : ℤ) : ℝ) * (2 : ℝ) ^ (-47 : ℤ)⌉ = 41 := by
    rw [Int.ceil_eq_iff]; norm_num
  unfold init
  dsimp only
  rw [if_neg (by norm_num), if_neg (by norm_num), if_neg (by push_cast; have : (1 : ℤ) ≤ 2 ^ k := one_le_pow₀ (by norm_num); omega),
    if_neg (by norm_num), if_neg (by norm_num), hz, start, stop]
  simp only [bind, Except.bind, Int.toNat_natCast]
  have hin : 7 * 2 ^ (k - 3) < 2 ^ k + 1 := by
    obtain ⟨j, rfl⟩ : ∃ j, k = j + 3 := ⟨k - 3, by omega⟩
    rw [Nat.add_sub_cancel, pow_add]
    omega
  have hpos : (1 : ℤ) ≤ 2 ^ (k - 3) := one_le_pow₀ (by norm_num)
  have := loop_oob .ideal 40 1 (7 * 2 ^ (k - 3)) (binOf .ideal 1 (7 * 2 ^ (k - 3)) (8000 / 2 ^ k) (freqToMel .ideal 0)
    (melSpacing .ideal 40 0 7000)) (List.range (2 ^ k + 1)) (7 * 2 ^ (k - 3)) (List.mem_range.2 hin)
    (by push_cast; omega) (by push_cast; omega) (by
      unfold binOf
      rw [if_neg (by push_cast; omega)]
      dsimp only
      rw [pos, ceil]
      norm_num) (List.replicate (40 : ℤ).toNat 0) (by simp)
  rw [Nat.cast_ofNat] at this
  rw [this]

/-- **C112 (the full statement would omit the condition `hin` on the bins).** For every machine with an accurate arithmetic,
and for every accepted configuration in which the used bins are inside the limits by more than the error of a position,
`Initialize` and `Compute` access nothing out of bounds, and every output of the filterbank is accurate: its error is at most
the error of a position plus `3 K + 8` roundings, relative to the sum of the magnitudes of the `K` used bins.

`hz`, `start` and `stop` are the width of a bin and the range of the bins as computed by `Initialize`, see `C112_bins`. -/
theorem C112_accurate_partial (M : Machine) (u v η : ℝ) (A : M.Accurate u v η) (R : Regular M.rnd) (u1 : u ≤ 1 / 1000)
    (v0 : 0 ≤ v) (v1 : v ≤ 1 / 1000) (hη : η ≤ u / 2000)
    (m : Mel) (fft n : ℕ) (rate lower upper : ℝ) (hn : 1 ≤ n) (hr : 0 < rate) (hf : 2 ≤ fft) (hlo : 0 ≤ lower)
    (hhi : lower < upper) (hε : (n + 1) * positionError u v lower upper ≤ 1 / 16)
    (hηn : η * (n + 1) ≤ u * (mel upper - mel lower))
    (hz : ℝ) (start stop : ℕ) (hhz : hzPerSbin M fft rate = hz)
    (hstart : castInt (M.rnd (3 / 2 + M.rnd (lower / hz))) = .ok start) (hstop : castInt (M.rnd (upper / hz)) = .ok stop)
    (hfft : stop < fft) (hK : 8 * (((stop + 1 - start : ℕ) : ℝ) * u) ≤ 1)
    (hin : ∀ i, start ≤ i → i ≤ stop → -1 + (n + 1) * positionError u v lower upper < position n lower upper (i * hz) ∧
      position n lower upper (i * hz) ≤ n - (n + 1) * positionError u v lower upper) :
    ∃ m', init M m fft rate n lower upper = .ok (m', true) ∧
      ∀ s out : List ℝ, (∀ x ∈ s, 0 ≤ x) → stop < s.length → ∃ r, compute M m' s out = .ok r ∧ r.length = n ∧
        ∀ c < n, |r.getD c 0 - output n lower upper hz start stop (fun i => s.getD i 0) c| ≤
          ((n + 1) * positionError u v lower upper + (3 * ((stop + 1 - start : ℕ) : ℝ) + 8) * u) *
            ∑ i ∈ Icc start stop, √(s.getD i 0) + 10 * ((stop + 1 - start : ℕ) : ℝ) * η := by
  have η0 := A.rnd.eta_nonneg
  have u0 : 0 ≤ u := by linarith
  have n0 : (1 : ℝ) ≤ n + 1 := by linarith [show (0 : ℝ) ≤ n from Nat.cast_nonneg n]
  have D0 : 0 < mel upper - mel lower := sub_pos.2 (mel_strict hlo hhi)
  have hz0 : 0 ≤ hz := by
    rw [← hhz]
    have : (2 : ℝ) ≤ fft := by exact_mod_cast hf
    refine R.nonneg (div_nonneg hr.le (R.nonneg ?_))
    push_cast; linarith
  have l0 : 0 ≤ Real.log (1 + upper / 700) :=
    Real.log_nonneg (by linarith [div_nonneg (hlo.trans hhi.le) (show (0 : ℝ) ≤ 700 by norm_num)])
  have E0 : 0 ≤ 1127 * (10 * u + 2 * (u + v) * Real.log (1 + upper / 700)) := by positivity
  have ε0 : 0 ≤ positionError u v lower upper := by unfold positionError; positivity
  have ε1 : positionError u v lower upper ≤ 1 / 16 := by nlinarith
  -- the positions
  have hpos : ∀ i, start ≤ i → i ≤ stop →
      |melPosition M hz (freqToMel M lower) (melSpacing M n lower upper) i - position n lower upper (i * hz)| ≤
        (n + 1) * positionError u v lower upper := by
    intro i i1 i2
    obtain ⟨p1, p2⟩ := hin i i1 i2
    have f0 : 0 ≤ (i : ℝ) * hz := mul_nonneg (Nat.cast_nonneg _) hz0
    have mp : ∀ {a b : ℝ}, 0 ≤ a → a < b → position n lower upper a < position n lower upper b := by
      intro a b ha hab
      have := mel_strict ha hab
      unfold position
      have : (mel a - mel lower) / (mel upper - mel lower) < (mel b - mel lower) / (mel upper - mel lower) :=
        div_lt_div_of_pos_right (by linarith) D0
      nlinarith
    have pu : position n lower upper upper = n := by unfold position; rw [div_self D0.ne']; ring
    have pl : position n lower upper lower = -1 := by unfold position; rw [sub_self]; ring
    have eps : 0 ≤ ((n : ℝ) + 1) * positionError u v lower upper := by positivity
    have fu : (i : ℝ) * hz ≤ upper := by
      by_contra hc
      have := mp (hlo.trans hhi.le) (not_le.1 hc)
      linarith
    have fl : lower ≤ (i : ℝ) * hz := by
      by_contra hc
      have := mp f0 (not_le.1 hc)
      linarith
    have e1 := mel_error A R u1 v0 v1 hη hlo hlo (by rw [sub_self, abs_zero]; positivity) hhi.le
    have e2 := mel_error A R u1 v0 v1 hη (hlo.trans hhi.le) (hlo.trans hhi.le)
      (by rw [sub_self, abs_zero]; have := hlo.trans hhi.le; positivity) le_rfl (F := upper)
    have e3 := mel_error A R u1 v0 v1 hη f0 (R.nonneg f0) (by have := A.rnd (i * hz); rwa [abs_of_nonneg f0] at this) fu
    have d0 : 0 ≤ mel (i * hz) - mel lower := sub_nonneg.2 (mel_mono hlo fl)
    have dD : mel (i * hz) - mel lower ≤ mel upper - mel lower := by linarith [mel_mono f0 fu]
    have := position_error A.rnd u0 u1 hη (a := freqToMel M upper - freqToMel M lower)
      (b := freqToMel M (M.rnd (i * hz)) - freqToMel M lower) D0 d0 dD n0 E0 (by unfold positionError at ε1; exact ε1)
      (by linarith)
      (by rw [abs_le] at e1 e2 ⊢; constructor <;> linarith [e1.1, e1.2, e2.1, e2.2])
      (by rw [abs_le] at e1 e3 ⊢; constructor <;> linarith [e1.1, e1.2, e3.1, e3.2])
    unfold melPosition melSpacing position positionError
    rw [Int.cast_natCast]
    exact this
  have hchan : ∀ i, start ≤ i → i ≤ stop →
      -1 ≤ ⌈melPosition M hz (freqToMel M lower) (melSpacing M n lower upper) i⌉ - 1 ∧
      ⌈melPosition M hz (freqToMel M lower) (melSpacing M n lower upper) i⌉ - 1 < n := by
    intro i i1 i2
    obtain ⟨p1, p2⟩ := hin i i1 i2
    have := abs_le.1 (hpos i i1 i2)
    generalize melPosition M hz (freqToMel M lower) (melSpacing M n lower upper) i = p at *
    constructor
    · have : (-1 : ℤ) < ⌈p⌉ := by rw [Int.lt_ceil]; push_cast; linarith [this.1]
      omega
    · have : ⌈p⌉ ≤ (n : ℤ) := by rw [Int.ceil_le]; push_cast; linarith [this.2]
      omega
  have hbin : ∀ i : ℕ, start ≤ i → i ≤ stop →
      binOf M start stop hz (freqToMel M lower) (melSpacing M n lower upper) i =
      (⌈melPosition M hz (freqToMel M lower) (melSpacing M n lower upper) i⌉ - 1,
        M.rnd (1 - M.rnd (melPosition M hz (freqToMel M lower) (melSpacing M n lower upper) i -
          ((⌈melPosition M hz (freqToMel M lower) (melSpacing M n lower upper) i⌉ - 1 : ℤ) : ℝ)))) := by
    intro i i1 i2
    unfold binOf
    rw [if_neg (by omega)]
  obtain ⟨sums, hs, -⟩ := foldlM_ok (P := fun l => l.length = n ∧ Doubles M l)
    (accumulate M n start stop (binOf M start stop hz (freqToMel M lower) (melSpacing M n lower upper))) (List.range fft) (by
      rintro i - l ⟨hl, hd⟩
      unfold accumulate
      by_cases hu : (i : ℤ) < start ∨ (i : ℤ) > stop
      · rw [if_pos hu]; exact ⟨l, rfl, hl, hd⟩
      · rw [if_neg hu, hbin i (by omega) (by omega)]
        have hc := hchan i (by omega) (by omega)
        obtain ⟨l', h1, h2, h3⟩ := add_pair' R n _ hc.1 hc.2 _ _ l hl hd
        exact ⟨l', h1, h2, h3⟩) (List.replicate n 0) ⟨by simp, fun c => by simp [R.zero]⟩
  obtain ⟨m', hm'⟩ : ∃ m' : Mel, m' = { m with
      channels := n
      fftLength := fft
      start := start
      stop := stop
      mapper := (List.range fft).map fun i =>
        (binOf M start stop hz (freqToMel M lower) (melSpacing M n lower upper) i).1
      weights := (List.range fft).map fun i =>
        (binOf M start stop hz (freqToMel M lower) (melSpacing M n lower upper) i).2
      sums := sums
      initialized := true } := ⟨_, rfl⟩
  refine ⟨m', ?_, ?_⟩
  · rw [hm']
    unfold init
    dsimp only
    rw [if_neg (by omega), if_neg (not_le.2 hr), if_neg (by omega), if_neg (not_lt.2 hlo), if_neg (not_le.2 hhi), hhz, hstart,
      hstop]
    simp only [bind, Except.bind, Int.toNat_natCast]
    rw [hs]
    rfl
  · intro s out hpos0 hlen
    unfold compute
    rw [if_neg (by rw [hm']; simp), if_neg (by rw [hm']; dsimp only; omega), if_neg (by rw [hm']; dsimp only; omega),
      show m'.start = start by rw [hm'], show m'.stop = stop by rw [hm'], show m'.channels = n by rw [hm'],
      Int.toNat_natCast, Int.toNat_natCast,
      show ((stop : ℤ) + 1 - start).toNat = stop + 1 - start by omega]
    have hsum : ∀ f : ℕ → ℝ, ((List.range' start (stop + 1 - start)).map f).sum = ∑ i ∈ Icc start stop, f i := by
      intro f
      rw [List.range'_eq_map_range, List.map_map, Dft.list_sum_range, ← Finset.Ico_add_one_right_eq_Icc,
        Finset.sum_Ico_eq_sum_range]
      rfl
    obtain ⟨r, r1, r2, r3⟩ := foldlM_sum (M := M) n (step M m' s)
      (fun c i => part M (⌈melPosition M hz (freqToMel M lower) (melSpacing M n lower upper) i⌉ - 1)
        (M.rnd (1 - M.rnd (melPosition M hz (freqToMel M lower) (melSpacing M n lower upper) i -
          ((⌈melPosition M hz (freqToMel M lower) (melSpacing M n lower upper) i⌉ - 1 : ℤ) : ℝ)))) √(s.getD i 0) c)
      (List.range' start (stop + 1 - start)) (by
        intro i hi l hl hd
        rw [List.mem_range'_1] at hi
        have i1 : start ≤ i := hi.1
        have i2 : i ≤ stop := by omega
        have hc := hchan i i1 i2
        rw [hm']
        unfold step
        dsimp only
        rw [List.getElem?_eq_getElem (by omega), List.getElem?_map, List.getElem?_map, List.getElem?_range (by omega)]
        simp only [Option.map_some, hbin i i1 i2]
        obtain ⟨l', h1, h2, h3, h4⟩ := add_pair R n _ hc.1 hc.2
          (M.rnd (M.rnd √s[i] * (M.rnd (1 - M.rnd (melPosition M hz (freqToMel M lower) (melSpacing M n lower upper) i -
            ((⌈melPosition M hz (freqToMel M lower) (melSpacing M n lower upper) i⌉ - 1 : ℤ) : ℝ))))))
          (M.rnd (M.rnd √s[i] - M.rnd (M.rnd √s[i] * (M.rnd (1 - M.rnd (melPosition M hz (freqToMel M lower)
            (melSpacing M n lower upper) i -
            ((⌈melPosition M hz (freqToMel M lower) (melSpacing M n lower upper) i⌉ - 1 : ℤ) : ℝ)))))))
          l hl hd
        refine ⟨l', h1, h2, h3, fun c hc => ?_⟩
        rw [h4 c hc, List.getD_eq_getElem s 0 (by omega : i < s.length)]
        rfl)
      (List.replicate n 0) (by simp) (fun c => by simp [R.zero])
    refine ⟨r, r1, r2, fun c hc => ?_⟩
    have e := sum_of_parts A.rnd u0 u1 (δ := (n + 1) * positionError u v lower upper) (by positivity) (by linarith)
      (List.range' start (stop + 1 - start)) (by rw [List.length_range']; exact hK)
      (fun i => part M (⌈melPosition M hz (freqToMel M lower) (melSpacing M n lower upper) i⌉ - 1)
        (M.rnd (1 - M.rnd (melPosition M hz (freqToMel M lower) (melSpacing M n lower upper) i -
          ((⌈melPosition M hz (freqToMel M lower) (melSpacing M n lower upper) i⌉ - 1 : ℤ) : ℝ)))) √(s.getD i 0) c)
      (fun i => triangle c (position n lower upper (i * hz))) (fun i => √(s.getD i 0))
      (fun i hi => by
        rw [List.mem_range'_1] at hi
        exact part_error A R u1 hη (hpos i hi.1 (by omega)) (Real.sqrt_nonneg _) c)
      (fun i _ => by
        unfold triangle
        rw [abs_of_nonneg (le_max_left _ _)]
        exact max_le zero_le_one (by linarith [abs_nonneg (position n lower upper (i * hz) - c)]))
      (fun i _ => Real.sqrt_nonneg _)
    rw [hsum, hsum, List.length_range'] at e
    rw [r3 c hc]
    have z : (List.replicate n (0 : ℝ)).getD c 0 = 0 := by simp
    rw [z]
    exact e

/-- **C112.** The width of a bin and the range of the bins computed by `Initialize`: the width has at most three rounding
errors, and a bin is used if it is at least half a bin above the lower limit and not above the upper one, up to the rounding
of these two comparisons. -/
theorem C112_bins (M : Machine) (u v η : ℝ) (A : M.Accurate u v η) (R : Regular M.rnd) (u1 : u ≤ 1 / 1000)
    (hη : η ≤ u / 2000) (fft : ℕ) (rate lower upper : ℝ) (hr : 0 < rate) (hf : 2 ≤ fft) (hlo : 0 ≤ lower) (hhi : lower < upper)
    (hz : ℝ) (start stop : ℤ) (hhz : hzPerSbin M fft rate = hz)
    (hstart : castInt (M.rnd (3 / 2 + M.rnd (lower / hz))) = .ok start)
    (hstop : castInt (M.rnd (upper / hz)) = .ok stop) :
    |hz - rate / (2 * ((fft : ℝ) - 1))| ≤ 3 * u * (rate / (2 * ((fft : ℝ) - 1))) + η ∧
    (start - 1 / 2 : ℝ) ≤ 1 + lower / hz + 3 * u * (1 + lower / hz) ∧
    1 + lower / hz - 3 * u * (1 + lower / hz) < start + 1 / 2 ∧
    (stop : ℝ) ≤ upper / hz * (1 + u) + η ∧ upper / hz * (1 - u) - η < stop + 1 := by
  have η0 := A.rnd.eta_nonneg
  have u0 : 0 ≤ u := by linarith
  have f2 : (2 : ℝ) ≤ 2 * ((fft : ℝ) - 1) := by
    have : (2 : ℝ) ≤ fft := by exact_mod_cast hf
    linarith
  have floor : ∀ {x : ℝ} {k : ℤ}, 0 ≤ x → castInt x = .ok k → (k : ℝ) ≤ x ∧ x < k + 1 := by
    intro x k x0 h
    unfold castInt at h
    split_ifs at h with h1 h2
    · linarith
    · simp only [Except.ok.injEq] at h
      rw [← h]
      exact ⟨Int.floor_le _, Int.lt_floor_add_one _⟩
  have hz0 : 0 ≤ hz := by
    rw [← hhz]
    refine R.nonneg (div_nonneg hr.le (R.nonneg ?_))
    push_cast; linarith
  have x0 : 0 ≤ lower / hz := div_nonneg hlo hz0
  have y0 : 0 ≤ upper / hz := div_nonneg (hlo.trans hhi.le) hz0
  refine ⟨?_, ?_⟩
  · rw [← hhz]
    unfold hzPerSbin
    rw [Int.cast_natCast]
    generalize 2 * ((fft : ℝ) - 1) = t at *
    have e1 := A.rnd t
    have t0 : 0 < t := by linarith
    rw [abs_of_pos t0] at e1
    have e2 := A.rnd (rate / M.rnd t)
    generalize M.rnd t = t' at *
    have h1 : t * (1 - 11 / 10 * u) ≤ t' := by
      have : η ≤ 1 / 10 * u * t := by nlinarith
      linarith [(abs_le.1 e1).1]
    have h2 : t' ≤ t * (1 + 11 / 10 * u) := by
      have : η ≤ 1 / 10 * u * t := by nlinarith
      linarith [(abs_le.1 e1).2]
    have t0' : 0 < t' := lt_of_lt_of_le (mul_pos t0 (by linarith)) h1
    rw [abs_of_pos (div_pos hr t0')] at e2
    have q0 : 0 < rate / t := div_pos hr t0
    have q : |rate / t' - rate / t| ≤ 6 / 5 * u * (rate / t) := by
      have e3 : rate / t' - rate / t = (t - t') / t' * (rate / t) := by field_simp
      rw [e3, abs_mul, abs_of_pos q0]
      apply mul_le_mul_of_nonneg_right _ q0.le
      rw [abs_div, abs_of_pos t0', div_le_iff₀ t0', abs_le]
      have e4 : 6 / 5 * u * (t * (1 - 11 / 10 * u)) ≤ 6 / 5 * u * t' := mul_le_mul_of_nonneg_left h1 (by linarith)
      have e5 : u * t * u ≤ u * t * (1 / 1000) := mul_le_mul_of_nonneg_left u1 (by positivity)
      have e6 : 0 ≤ u * t := by positivity
      constructor <;> nlinarith
    have e4 := abs_add_le (M.rnd (rate / t') - rate / t') (rate / t' - rate / t)
    rw [sub_add_sub_cancel] at e4
    have e5 : u * (rate / t') ≤ u * (rate / t + 6 / 5 * u * (rate / t)) :=
      mul_le_mul_of_nonneg_left (by linarith [(abs_le.1 q).2]) u0
    have e6 : u * (u * (rate / t)) ≤ 1 / 1000 * (u * (rate / t)) := mul_le_mul_of_nonneg_right u1 (by positivity)
    have e7 : 0 ≤ u * (rate / t) := by positivity
    linarith
  · obtain ⟨a1, a2⟩ := floor (R.nonneg (add_nonneg (by norm_num) (R.nonneg x0))) hstart
    obtain ⟨b1, b2⟩ := floor (R.nonneg y0) hstop
    have e1 := A.rnd (lower / hz)
    have e2 := A.rnd (3 / 2 + M.rnd (lower / hz))
    have e3 := A.rnd (upper / hz)
    have r0 : 0 ≤ M.rnd (lower / hz) := R.nonneg x0
    rw [abs_of_nonneg x0] at e1
    rw [abs_of_nonneg (by linarith : 0 ≤ 3 / 2 + M.rnd (lower / hz))] at e2
    rw [abs_of_nonneg y0] at e3
    generalize M.rnd (3 / 2 + M.rnd (lower / hz)) = s at *
    generalize M.rnd (lower / hz) = r at *
    generalize M.rnd (upper / hz) = q at *
    generalize lower / hz = x at *
    generalize upper / hz = y at *
    rw [abs_le] at e1 e2 e3
    have f1 : u * r ≤ u * (x + u * x + η) := mul_le_mul_of_nonneg_left (by linarith [e1.2]) u0
    have f2 : u * (u * x) ≤ 1 / 1000 * (u * x) := mul_le_mul_of_nonneg_right u1 (by positivity)
    have f3 : u * η ≤ 1 / 1000 * η := mul_le_mul_of_nonneg_right u1 η0
    have f4 : 0 ≤ u * x := by positivity
    refine ⟨?_, ?_, ?_, ?_⟩ <;> nlinarith [e1.1, e1.2, e2.1, e2.2, e3.1, e3.2]

theorem ideal_accurate : Machine.ideal.Accurate (1 / 2 ^ 53) (1 / 2 ^ 53) (1 / 2 ^ 1075) :=
  ⟨binary64_accurate, fun x hx => by
    have := binary64_accurate (Real.log x)
    rwa [abs_of_nonneg (Real.log_nonneg hx)] at this⟩

theorem example_error : positionError (1 / 2 ^ 53) (1 / 2 ^ 53) 0 1750 ≤ 1 / 2 ^ 46 := by
  have l : 5 / 7 ≤ Real.log (1 + 1750 / 700) := by
    have := Real.one_sub_inv_le_log_of_pos (show (0 : ℝ) < 1 + 1750 / 700 by norm_num)
    norm_num at this ⊢
    exact this
  unfold positionError mel
  generalize Real.log (1 + 1750 / 700) = L at *
  rw [zero_div, add_zero, Real.log_one, mul_zero, sub_zero]
  have : 6 * (1127 * (10 * (1 / 2 ^ 53) + 2 * (1 / 2 ^ 53 + 1 / 2 ^ 53) * L)) / (1127 * L) =
      60 / 2 ^ 53 / L + 24 / 2 ^ 53 := by
    have : L ≠ 0 := by linarith
    field_simp
    ring
  rw [this]
  have : (60 : ℝ) / 2 ^ 53 / L ≤ 60 / 2 ^ 53 / (5 / 7) := div_le_div_of_nonneg_left (by norm_num) (by norm_num) l
  norm_num at this ⊢
  linarith

/-- Two channels between 0 Hz and 1750 Hz, four bins at 4200 Hz. -/
theorem example_config : (((2 : ℕ) : ℝ) + 1) * positionError (1 / 2 ^ 53) (1 / 2 ^ 53) 0 1750 ≤ 1 / 16 ∧
    (1 / 2 ^ 1075) * (((2 : ℕ) : ℝ) + 1) ≤ 1 / 2 ^ 53 * (mel 1750 - mel 0) ∧ hzPerSbin .ideal ((4 : ℕ) : ℤ) 4200 = 700 ∧
    castInt (Machine.ideal.rnd (3 / 2 + Machine.ideal.rnd (0 / 700))) = .ok ((1 : ℕ) : ℤ) ∧
    castInt (Machine.ideal.rnd (1750 / 700)) = .ok ((2 : ℕ) : ℤ) ∧ ∀ i : ℕ, 1 ≤ i → i ≤ 2 →
      -1 + (((2 : ℕ) : ℝ) + 1) * positionError (1 / 2 ^ 53) (1 / 2 ^ 53) 0 1750 < position 2 0 1750 (i * 700) ∧
      position 2 0 1750 (i * 700) ≤ ((2 : ℕ) : ℝ) - (((2 : ℕ) : ℝ) + 1) * positionError (1 / 2 ^ 53) (1 / 2 ^ 53) 0 1750 := by
  have i700 : binary64 700 = 700 := by simpa using binary64_int 700 (by norm_num)
  have i6 : binary64 6 = 6 := by simpa using binary64_int 6 (by norm_num)
  have i0 : binary64 0 = 0 := by simpa using binary64_int 0 (by norm_num)
  have half : ∀ k : ℤ, |k| ≤ 2 ^ 53 → binary64 (k / 2) = k / 2 := by
    intro k hk
    have := binary64_of k (-1) hk (by norm_num)
    rwa [zpow_neg_one, ← div_eq_mul_inv] at this
  have hη : (1 : ℝ) / 2 ^ 1075 ≤ 1 / 2 ^ 80 :=
    one_div_le_one_div_of_le (by positivity) (pow_le_pow_right₀ (by norm_num) (by norm_num))
  have ε := example_error
  have l2 : 1 / 2 ≤ Real.log (1 + 700 / 700) := by
    have := Real.one_sub_inv_le_log_of_pos (show (0 : ℝ) < 1 + 700 / 700 by norm_num)
    norm_num at this ⊢; exact this
  have l35 : 5 / 7 ≤ Real.log (1 + 1750 / 700) := by
    have := Real.one_sub_inv_le_log_of_pos (show (0 : ℝ) < 1 + 1750 / 700 by norm_num)
    norm_num at this ⊢; exact this
  have l35' : Real.log (1 + 1750 / 700) ≤ 5 / 2 := by
    have := Real.log_le_sub_one_of_pos (show (0 : ℝ) < 1 + 1750 / 700 by norm_num)
    norm_num at this ⊢; exact this
  have l3 : Real.log (1 + 1400 / 700) ≤ Real.log (1 + 1750 / 700) - 1 / 7 := by
    have := Real.one_sub_inv_le_log_of_pos (show (0 : ℝ) < (1 + 1750 / 700) / (1 + 1400 / 700) by norm_num)
    rw [Real.log_div (by norm_num) (by norm_num)] at this
    norm_num at this ⊢; linarith
  have l23 : Real.log (1 + 700 / 700) ≤ Real.log (1 + 1400 / 700) := Real.log_le_log (by norm_num) (by norm_num)
  have p : ∀ f, position 2 0 1750 f = Real.log (1 + f / 700) / Real.log (1 + 1750 / 700) * 3 - 1 := by
    intro f
    unfold position mel
    rw [zero_div, add_zero, Real.log_one, mul_zero, sub_zero, sub_zero, mul_div_mul_left _ _ (by norm_num)]
    norm_num
  exact ⟨by push_cast; norm_num at ε ⊢; linarith,
    by
      unfold mel
      rw [zero_div, add_zero, Real.log_one, mul_zero, sub_zero]
      generalize (1 : ℝ) / 2 ^ 1075 = η at *
      push_cast; norm_num at hη l35 ⊢; linarith,
    by
      unfold hzPerSbin Machine.ideal
      dsimp only
      rw [show (2 : ℝ) * ((((4 : ℕ) : ℤ) : ℝ) - 1) = 6 by norm_num, i6, show (4200 : ℝ) / 6 = 700 by norm_num, i700],
    by
      unfold Machine.ideal
      dsimp only
      have := half 3 (by norm_num)
      norm_num at this
      rw [zero_div, i0, add_zero, this, castInt_ok (by norm_num) (by norm_num)]
      norm_num,
    by
      unfold Machine.ideal
      dsimp only
      have := half 5 (by norm_num)
      norm_num at this
      rw [show (1750 : ℝ) / 700 = 5 / 2 by norm_num, this, castInt_ok (by norm_num) (by norm_num)]
      norm_num,
    by
      intro i i1 i2
      rw [p]
      generalize positionError (1 / 2 ^ 53) (1 / 2 ^ 53) 0 1750 = e at *
      have L0 : 0 < Real.log (1 + 1750 / 700) := by linarith
      have q1 : 1 / 5 ≤ Real.log (1 + 700 / 700) / Real.log (1 + 1750 / 700) := by
        rw [le_div_iff₀ L0]; linarith
      have q2 : Real.log (1 + 1400 / 700) / Real.log (1 + 1750 / 700) ≤ 19 / 20 := by
        rw [div_le_iff₀ L0]; linarith
      have q3 := div_le_div_of_nonneg_right l23 L0.le
      have e1 : e ≤ 1 / 100 := ε.trans (by norm_num)
      interval_cases i
      · rw [show (((1 : ℕ) : ℝ) * 700) = 700 by norm_num]
        generalize Real.log (1 + 700 / 700) / Real.log (1 + 1750 / 700) = a at *
        generalize Real.log (1 + 1400 / 700) / Real.log (1 + 1750 / 700) = b at *
        push_cast
        constructor <;> linarith
      · rw [show (((2 : ℕ) : ℝ) * 700) = 1400 by norm_num]
        generalize Real.log (1 + 700 / 700) / Real.log (1 + 1750 / 700) = a at *
        generalize Real.log (1 + 1400 / 700) / Real.log (1 + 1750 / 700) = b at *
        push_cast
        constructor <;> linarith⟩

/-- The hypotheses of `C112_accurate_partial` are met: two channels between 0 Hz and 1750 Hz, four bins at 4200 Hz. -/
example (m : Mel) : ∃ m', init .ideal m 4 4200 2 0 1750 = .ok (m', true) ∧
    ∀ s out : List ℝ, (∀ x ∈ s, 0 ≤ x) → 2 < s.length → ∃ r, compute .ideal m' s out = .ok r ∧ r.length = 2 := by
  have hη : (1 : ℝ) / 2 ^ 1075 ≤ 1 / 2 ^ 80 :=
    one_div_le_one_div_of_le (by positivity) (pow_le_pow_right₀ (by norm_num) (by norm_num))
  obtain ⟨c1, c2, c3, c4, c5, c6⟩ := example_config
  have := C112_accurate_partial .ideal _ _ _ ideal_accurate binary64_regular (by norm_num) (by norm_num) (by norm_num)
    (hη.trans (by norm_num)) m 4 2 4200 0 1750 (by norm_num) (by norm_num) (by norm_num) le_rfl (by norm_num)
    c1 c2 700 1 2 c3 c4 c5 (by norm_num) (by norm_num) c6
  obtain ⟨m', h1, h2⟩ := this
  refine ⟨m', h1, fun s out hs hl => ?_⟩
  obtain ⟨r, r1, r2, -⟩ := h2 s out hs hl
  exact ⟨r, r1, r2⟩

end Verif.FloatMel
