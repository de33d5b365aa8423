import Verif.Proof.FftUtil

/-!
# C40: FFT convolution and hard band-pass filtering

`next` and `nextReal` are the functions of the external library that round a size up; only that they round
up is used.
-/

namespace Verif.Fft
open Finset DftSpec

/-- **C40**: the FFT-based convolution of two nonempty inputs is the direct convolution. -/
theorem C40_convolution {next nextReal : ℕ → ℕ} (hnext : ∀ n, n ≤ next n)
    (hreal : ∀ n, n ≤ nextReal n) (a b : List ℝ) (ha : a ≠ []) (hb : b ≠ []) :
    linearConvolution next nextReal a b = some (conv a b) := by
  have ha' := List.length_pos_iff.mpr ha
  have hb' := List.length_pos_iff.mpr hb
  unfold linearConvolution
  dsimp only
  have hM := hreal (a.length + b.length - 1)
  generalize nextReal (a.length + b.length - 1) = M at hM ⊢
  have hMp : 0 < M := by omega
  rw [if_neg (by omega)]
  obtain ⟨t, ht, _⟩ := real_make (next := next) hMp true
  rw [ht]
  simp only [Option.bind_eq_bind, Option.bind_some]
  rw [make_forward hnext ht (resize_length M a), make_forward hnext ht (resize_length M b)]
  simp only [Option.bind_some]
  rw [inverse_of_bins hnext ht (by simp) (fun j => (conv a b).getD j 0)]
  · simp only [Option.bind_some]
    congr 1
    apply list_ext_getD 0
    · rw [resize_length, conv_length]
    · intro i hi
      rw [resize_length] at hi
      rw [resize_getD, if_pos hi, getD_range_map _ _ _ (by omega)]
  · intro k hk
    rw [F_conv hMp a b ⟨ha', hb'⟩ hM (by omega), ← F_resize M a, ← F_resize M b]
    simp [List.getD, List.getElem?_zipWith, show k < M / 2 + 1 by omega]

/-- **C40**: convolving a nonempty input with itself gives the iterated direct convolution with the given
number of factors; a number of factors that is not positive is refused. -/
theorem C40_self_convolution {next nextReal : ℕ → ℕ} (hnext : ∀ n, n ≤ next n)
    (hreal : ∀ n, n ≤ nextReal n) (x : List ℝ) (hx : x ≠ []) (n : ℕ) :
    selfConvolution next nextReal x (n + 1) = some (convPow x n) ∧
    ∀ m : ℤ, m ≤ 0 → selfConvolution next nextReal x m = none := by
  have hx' := List.length_pos_iff.mpr hx
  refine ⟨?_, fun m hm => by rw [selfConvolution, if_pos (by omega)]⟩
  unfold selfConvolution
  rw [if_neg (by omega)]
  have hnn : ((n : ℤ) + 1).toNat = n + 1 := by omega
  rw [hnn]
  dsimp only
  have hM := hreal ((x.length - 1) * (n + 1) + 1)
  generalize nextReal ((x.length - 1) * (n + 1) + 1) = M at hM ⊢
  have hMp : 0 < M := by omega
  have hxM : x.length ≤ M := by
    have : x.length - 1 ≤ (x.length - 1) * (n + 1) := Nat.le_mul_of_pos_right _ (by omega)
    omega
  rw [if_neg (by omega)]
  obtain ⟨t, ht, _⟩ := real_make (next := next) hMp true
  rw [ht]
  simp only [Option.bind_eq_bind, Option.bind_some]
  rw [make_forward hnext ht (resize_length M x)]
  simp only [Option.bind_some]
  rw [inverse_of_bins hnext ht (by simp) (fun j => (convPow x n).getD j 0)]
  · simp only [Option.bind_some]
    congr 1
    apply list_ext_getD 0
    · rw [resize_length, convPow_length x hx']
    · intro i hi
      rw [resize_length] at hi
      rw [resize_getD, if_pos hi, getD_range_map _ _ _ (by omega)]
  · intro k hk
    rw [F_convPow hMp x hx' n hM (by omega), ← F_resize M x]
    simp [List.getD, show k < M / 2 + 1 by omega]

/-- Case: a convolution with three terms in the middle, and a square. -/
example {next nextReal : ℕ → ℕ} (hnext : ∀ n, n ≤ next n) (hreal : ∀ n, n ≤ nextReal n) :
    linearConvolution next nextReal [1, 2, 3] [4, 5, 6] = some [4, 13, 28, 27, 18] ∧
    selfConvolution next nextReal [1, 1] 3 = some [1, 3, 3, 1] := by
  constructor
  · rw [C40_convolution hnext hreal _ _ (by simp) (by simp)]
    simp [conv, List.range_succ, sum_range_succ]; norm_num
  · rw [show (3 : ℤ) = ((2 : ℕ) : ℤ) + 1 by norm_num,
      (C40_self_convolution hnext hreal _ (by simp) 2).1]
    simp [convPow, conv, List.range_succ, sum_range_succ]; norm_num

/-- **C40**, violation: with one empty input the output is documented to have `size_a + size_b - 1`
elements, but the transform can be shorter than the other input, whose copy then overflows the buffer.
The size 4 is one that the library leaves as it is. -/
theorem C40_empty_violation (next nextReal : ℕ → ℕ) (h4 : nextReal 4 = 4) :
    linearConvolution next nextReal [] [1, 2, 3, 4, 5] = none := by
  simp [linearConvolution, h4]

theorem fillZero_length (a b : ℕ) (v : List ℂ) : (fillZero a b v).length = v.length := by
  simp [fillZero]

theorem copyRange_length (a b : ℕ) (u v : List ℂ) : (copyRange a b u v).length = v.length := by
  simp [copyRange]

theorem fillZero_getD (a b : ℕ) (v : List ℂ) {i : ℕ} (hi : i < v.length) :
    (fillZero a b v).getD i 0 = if a ≤ i ∧ i < b then 0 else v.getD i 0 := by
  rw [fillZero, getD_range_map _ _ _ hi]

theorem copyRange_getD (a b : ℕ) (u v : List ℂ) {i : ℕ} (hi : i < v.length) :
    (copyRange a b u v).getD i 0 = if a ≤ i ∧ i < b then u.getD i 0 else v.getD i 0 := by
  rw [copyRange, getD_range_map _ _ _ hi]

/-- **C40**: the hard band-pass filter of a spectrum accepts band edges from zero to the bin width times
the number of bins, keeps exactly the bins whose frequency is between the band edges, inclusive, and sets
all others to zero; in-place or not, and whatever the output vector contained. -/
theorem C40_bandpass_spectrum (input : List ℂ) (low high w : ℝ) (hne : input ≠ []) (hw : 0 < w)
    (hlow : 0 ≤ low) (hlh : low ≤ high) (hhigh : high ≤ w * input.length) (out : Option (List ℂ)) :
    hardBandpassSpectrum input low high w out
      = some ((List.range input.length).map fun k : ℕ =>
          if low ≤ k * w ∧ k * w ≤ high then input.getD k 0 else 0) := by
  unfold hardBandpassSpectrum
  rw [if_neg hne, if_neg (by simpa using hlow), if_neg (by simpa using hlh),
    if_neg (by simpa using hhigh), if_neg hw.ne']
  dsimp only
  congr 1
  have hc : (0 : ℤ) ≤ ⌈low / w⌉ := Int.ceil_nonneg (by positivity)
  have hf : (0 : ℤ) ≤ ⌊high / w⌋ := Int.floor_nonneg.mpr (by have := hlow.trans hlh; positivity)
  have key : ∀ k : ℕ, (low ≤ k * w ∧ k * w ≤ high) ↔ (⌈low / w⌉ ≤ k ∧ (k : ℤ) ≤ ⌊high / w⌋) := by
    intro k
    rw [Int.ceil_le, Int.le_floor, div_le_iff₀ hw, le_div_iff₀ hw]
    push_cast; rfl
  apply list_ext_getD 0
  · cases out <;> simp [fillZero, copyRange, resize_length]
  intro k hk0
  have hk : k < input.length := by
    cases out <;> simpa [fillZero, copyRange, resize_length] using hk0
  clear hk0
  rw [getD_range_map _ _ _ hk]
  have hstart : ((min ⌈low / w⌉ (input.length : ℤ)).toNat ≤ k) ↔ ⌈low / w⌉ ≤ k := by omega
  have hstart' : (k < (min ⌈low / w⌉ (input.length : ℤ)).toNat) ↔ ¬ ⌈low / w⌉ ≤ k := by omega
  have hstop : ((min (1 + ⌊high / w⌋) (input.length : ℤ)).toNat ≤ k) ↔ ¬ (k : ℤ) ≤ ⌊high / w⌋ := by
    omega
  have hstop' : (k < (min (1 + ⌊high / w⌋) (input.length : ℤ)).toNat) ↔ (k : ℤ) ≤ ⌊high / w⌋ := by
    omega
  simp only [key]
  cases out with
  | none =>
    dsimp only
    rw [fillZero_getD _ _ _ (by rw [fillZero_length]; exact hk), fillZero_getD _ _ _ hk,
      fillZero_length]
    simp only [hstop, hstart', Nat.zero_le, true_and, hk, and_true]
    by_cases h1 : ⌈low / w⌉ ≤ k <;> by_cases h2 : (k : ℤ) ≤ ⌊high / w⌋ <;> simp [h1, h2]
  | some o =>
    dsimp only
    rw [fillZero_getD _ _ _ (by rw [copyRange_length, fillZero_length, resize_length]; exact hk),
      copyRange_getD _ _ _ _ (by rw [fillZero_length, resize_length]; exact hk),
      fillZero_getD _ _ _ (by rw [resize_length]; exact hk),
      copyRange_length, fillZero_length, resize_length]
    simp only [hstop, hstart, hstart', hstop', Nat.zero_le, true_and, hk, and_true]
    by_cases h1 : ⌈low / w⌉ ≤ k <;> by_cases h2 : (k : ℤ) ≤ ⌊high / w⌋ <;> simp [h1, h2]

/-- **C40**: what the filter refuses. -/
theorem C40_bandpass_rejects (input : List ℂ) (low high w : ℝ) (out : Option (List ℂ))
    (h : input = [] ∨ low < 0 ∨ high < low ∨ w * input.length < high) :
    hardBandpassSpectrum input low high w out = none := by
  unfold hardBandpassSpectrum
  by_cases h0 : input = []
  · rw [if_pos h0]
  rw [if_neg h0]
  by_cases h1 : low ≥ 0
  · rw [if_neg (by simpa using h1)]
    by_cases h2 : low ≤ high
    · rw [if_neg (by simpa using h2), if_pos]
      rcases h with h | h | h | h
      · exact absurd h h0
      · exact absurd h (not_lt.mpr h1)
      · exact absurd h (not_lt.mpr h2)
      · exact not_le.mpr h
    · rw [if_pos h2]
  · rw [if_pos h1]

/-- **C40**: the hard low-pass filter of a spectrum keeps exactly the bins up to the band edge. -/
theorem C40_lowpass_spectrum (input : List ℂ) (high w : ℝ) (hne : input ≠ []) (hw : 0 < w)
    (hh : 0 ≤ high) (hhigh : high ≤ w * input.length) (out : Option (List ℂ)) :
    hardLowpassSpectrum input high w out
      = some ((List.range input.length).map fun k : ℕ =>
          if k * w ≤ high then input.getD k 0 else 0) := by
  rw [hardLowpassSpectrum, C40_bandpass_spectrum input 0 high w hne hw le_rfl hh hhigh]
  congr 1
  refine List.map_congr_left fun k _ => ?_
  have : 0 ≤ (k : ℝ) * w := by positivity
  simp [this]

/-- **C40**: the hard high-pass filter of a spectrum keeps exactly the bins from the band edge on, for
band edges up to half a bin above the last bin. -/
theorem C40_highpass_spectrum_partial (input : List ℂ) (low w : ℝ) (hne : input ≠ []) (hw : 0 < w)
    (hlow : 0 ≤ low) (hl : low ≤ (input.length - 1 / 2) * w) (out : Option (List ℂ)) :
    hardHighpassSpectrum input low w out
      = some ((List.range input.length).map fun k : ℕ =>
          if low ≤ k * w then input.getD k 0 else 0) := by
  rw [hardHighpassSpectrum]
  rw [C40_bandpass_spectrum input low _ w hne hw hlow hl (by nlinarith)]
  congr 1
  refine List.map_congr_left fun k hk => ?_
  have hk := List.mem_range.mp hk
  have : (k : ℝ) * w ≤ (input.length - 1 / 2) * w := by
    apply mul_le_mul_of_nonneg_right _ hw.le
    have : (k : ℝ) + 1 ≤ input.length := by exact_mod_cast hk
    linarith
  simp only [this, and_true]

/-- **C40**, violation: `HardHighpassSpectrum` is documented to accept band edges up to the bin width
times the number of bins, but it aborts for all those above the last half bin. -/
theorem C40_highpass_spectrum_violation (input : List ℂ) (low w : ℝ)
    (h1 : (input.length - 1 / 2) * w < low) (out : Option (List ℂ)) :
    hardHighpassSpectrum input low w out = none :=
  C40_bandpass_rejects _ _ _ _ _ (.inr (.inr (.inl h1)))

/-- Case: three bins of width 2, band edge 6. -/
example : 0 ≤ (6 : ℝ) ∧ (6 : ℝ) ≤ 2 * ([1, 1, 1] : List ℂ).length ∧
    hardHighpassSpectrum [1, 1, 1] 6 2 none = none :=
  ⟨by norm_num, by norm_num, C40_highpass_spectrum_violation _ _ _ (by norm_num) _⟩

theorem res_neg_zero (n : ℕ) : res n (-((0 : ℕ) : ℤ)) = 0 := by simp [res]

theorem res_neg {n k : ℕ} (h0 : 0 < k) (hk : k < n) : res n (-(k : ℤ)) = n - k := by
  unfold res
  rw [← Int.add_emod_left, Int.emod_eq_of_lt (by omega) (by omega)]; omega

/-- **C40**: the hard band-pass filter of a signal accepts band edges from zero to half the sample rate
and gives a signal of the same length whose Fourier transform is that of the input in the bins whose
frequency lies between the band edges, inclusive, and zero elsewhere. -/
theorem C40_fft_bandpass {next : ℕ → ℕ} (hnext : ∀ n, n ≤ next n) (x : List ℝ) (low high rate : ℝ)
    (hne : x ≠ []) (hrate : 0 < rate) (hlow : 0 ≤ low) (hlh : low ≤ high) (hhigh : high ≤ rate / 2) :
    ∃ y, fftHardBandpass next x low high rate = some y ∧ y.length = x.length ∧
      ∀ k ≤ x.length / 2, bin y k
        = if low ≤ k * (rate / x.length) ∧ k * (rate / x.length) ≤ high then bin x k else 0 := by
  have hn : 0 < x.length := List.length_pos_iff.mpr hne
  have hnr : (0 : ℝ) < x.length := by exact_mod_cast hn
  have hnc : (x.length : ℝ) ≠ 0 := hnr.ne'
  obtain ⟨t, ht, _⟩ := real_make (next := next) hn true
  obtain ⟨n, hxn⟩ : ∃ n, n = x.length := ⟨_, rfl⟩
  obtain ⟨X, hX⟩ : ∃ X, X = (List.range (n / 2 + 1)).map (F n fun j => (x.getD j 0 : ℂ)) := ⟨_, rfl⟩
  obtain ⟨Y, hY⟩ : ∃ Y : List ℂ, Y = (List.range (n / 2 + 1)).map fun k : ℕ =>
    if low ≤ k * (rate / n) ∧ k * (rate / n) ≤ high then X.getD k 0 else 0 := ⟨_, rfl⟩
  have hw : 0 < rate / n := by rw [hxn]; positivity
  have hXl : X.length = n / 2 + 1 := by simp [hX]
  have hYl : Y.length = n / 2 + 1 := by simp [hY]
  have hbw : high ≤ rate / n * X.length := by
    rw [hXl]
    have h1 : rate / 2 = rate / n * (n / 2) := by rw [hxn]; field_simp
    have h2 : (n : ℝ) / 2 ≤ (n / 2 + 1 : ℕ) := by
      have : n ≤ 2 * (n / 2 + 1) := by omega
      have : (n : ℝ) ≤ 2 * (n / 2 + 1 : ℕ) := by exact_mod_cast this
      linarith
    calc high ≤ rate / 2 := hhigh
      _ = rate / n * (n / 2) := h1
      _ ≤ _ := mul_le_mul_of_nonneg_left h2 hw.le
  have hval : fftHardBandpass next x low high rate = t.inverse Y := by
    unfold fftHardBandpass
    rw [if_neg hne, if_neg (by simpa using hlow), if_neg (by simpa using hlh), if_neg, ht]
    · simp only [Option.bind_eq_bind, Option.bind_some]
      rw [make_forward hnext ht rfl, ← hxn, ← hX]
      simp only [Option.bind_some]
      rw [C40_bandpass_spectrum X low high _ (by intro h; rw [h] at hXl; simp at hXl) hw hlow hlh hbw,
        hXl, ← hY]
      rfl
    · push Not
      have : 0 < rate * ((1 / 2) / x.length) := by positivity
      rw [mul_add]; linarith
  refine ⟨_, by rw [hval, make_inverse hnext ht (by rw [← hxn]; exact hYl)], by simp, fun k hk => ?_⟩
  rw [bin_map]
  have hk' : k < n := by rw [hxn]; omega
  rw [← hxn]
  have hsc : F n (fun j => (((G n (fun j => (hermitian n Y).getD j 0) j).re *
      (if true = true then 1 / (n : ℝ) else 1) : ℝ) : ℂ)) k
      = F n (fun j => ((G n (fun j => (hermitian n Y).getD j 0) j).re : ℂ)) k / n := by
    unfold F
    rw [sum_div]
    exact sum_congr rfl fun j _ => by simp only [if_true]; push_cast; ring
  rw [hsc, F_reG (by omega) _ hk']
  have hncc : (n : ℂ) ≠ 0 := by exact_mod_cast (by omega : n ≠ 0)
  rw [mul_div_cancel_left₀ _ hncc]
  have hYk : ∀ k ≤ n / 2, Y.getD k 0
      = if low ≤ k * (rate / n) ∧ k * (rate / n) ≤ high then bin x k else 0 := by
    intro k hk
    rw [hY, getD_range_map _ _ _ (by omega), hX, getD_range_map _ _ _ (by omega), bin_eq, hxn]
  have him : k = 0 ∨ 2 * k = n → (Y.getD k 0).im = 0 := by
    intro h
    rw [hYk k (by rw [hxn]; exact hk)]
    split_ifs
    · rcases h with rfl | h
      · exact bin_zero_im x
      · exact bin_nyquist_im x (h.trans hxn)
    · rfl
  rw [hermitian_getD _ hk', if_pos (by rw [hxn]; exact hk)]
  rw [← hYk k (by rw [hxn]; exact hk)]
  by_cases h0 : k = 0
  · subst h0
    rw [res_neg_zero, hermitian_getD _ hk', if_pos (by omega),
      Complex.conj_eq_iff_im.mpr (him (.inl rfl))]
    ring
  · rw [res_neg (by omega) hk', hermitian_getD _ (by omega)]
    by_cases h2 : 2 * k = n
    · have : n - k = k := by omega
      rw [this, if_pos (by omega), Complex.conj_eq_iff_im.mpr (him (.inr h2))]
      ring
    · rw [if_neg (by rw [hxn]; omega), show n - (n - k) = k by omega, Complex.conj_conj]
      ring

/-- **C40**: the low-pass and high-pass filters of a signal are the band-pass filters from zero and up to
half the sample rate, and accept every band edge in that range. -/
theorem C40_fft_lowpass_highpass {next : ℕ → ℕ} (hnext : ∀ n, n ≤ next n) (x : List ℝ)
    (edge rate : ℝ) (hne : x ≠ []) (hrate : 0 < rate) (h0 : 0 ≤ edge) (h1 : edge ≤ rate / 2) :
    (∃ y, fftHardLowpass next x edge rate = some y ∧ y.length = x.length ∧
      ∀ k ≤ x.length / 2, bin y k = if k * (rate / x.length) ≤ edge then bin x k else 0) ∧
    (∃ y, fftHardHighpass next x edge rate = some y ∧ y.length = x.length ∧
      ∀ k ≤ x.length / 2, bin y k = if edge ≤ k * (rate / x.length) then bin x k else 0) := by
  have hnr : (0 : ℝ) < x.length := by exact_mod_cast List.length_pos_iff.mpr hne
  constructor
  · obtain ⟨y, hy, hl, hb⟩ := C40_fft_bandpass hnext x 0 edge rate hne hrate le_rfl h0 h1
    refine ⟨y, hy, hl, fun k hk => ?_⟩
    rw [hb k hk]
    have : 0 ≤ (k : ℝ) * (rate / x.length) := by positivity
    simp [this]
  · obtain ⟨y, hy, hl, hb⟩ := C40_fft_bandpass hnext x edge (rate / 2) rate hne hrate h0 h1 le_rfl
    refine ⟨y, hy, hl, fun k hk => ?_⟩
    rw [hb k hk]
    have : (k : ℝ) * (rate / x.length) ≤ rate / 2 := by
      have h2 : (k : ℝ) ≤ x.length / 2 := by
        have : 2 * k ≤ x.length := by omega
        have : 2 * (k : ℝ) ≤ x.length := by exact_mod_cast this
        linarith
      calc (k : ℝ) * (rate / x.length) ≤ x.length / 2 * (rate / x.length) := by gcongr
        _ = rate / 2 := by field_simp
    simp [this]

example {next : ℕ → ℕ} (hnext : ∀ n, n ≤ next n) :
    ∃ y, fftHardBandpass next [1, 2, 3, 4, 5, 6] 1 2 6 = some y ∧ y.length = 6 := by
  obtain ⟨y, h1, h2, _⟩ := C40_fft_bandpass hnext [1, 2, 3, 4, 5, 6] 1 2 6 (by simp) (by norm_num)
    (by norm_num) (by norm_num) (by norm_num)
  exact ⟨y, h1, h2⟩

end Verif.Fft
