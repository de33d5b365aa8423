import Verif.Proof.FloatFftUtil

/-!
# C125: which bins the hard band-pass filters pass, in floating point

C40 is about exact arithmetic.
-/

namespace Verif.FloatFftUtil
open Verif.Rounding
open Verif.Fft (getD_range_map)
open Verif.FloatQuadratic (nat_exact int_exact r32)

/-- `HardBandpassSpectrum` on up to 2^24 bins, for parameters as documented (the edges are floats): it succeeds; every bin in the
closed pass band is unchanged, also one exactly on an edge; every bin is unchanged or zero; and every bin outside the pass band is
zero, unless it is within about one rounding of an edge. In place or not, and whatever the output vector contained. -/
theorem C125_spectrum (input : List ℂ) (low high w : ℝ) (hne : input ≠ []) (hlen : input.length ≤ 2 ^ 24) (hw : 0 < w)
    (hlow : 0 ≤ low) (hlh : low ≤ high) (hhigh : high ≤ w * input.length) (hf : binary32 high = high) (out : Option (List ℂ)) :
    ∃ r, hardBandpassSpectrum binary32 input low high w out = some r ∧ r.length = input.length ∧
      ∀ k < input.length,
        (low ≤ k * w → k * w ≤ high → r.getD k 0 = input.getD k 0) ∧
        (r.getD k 0 = input.getD k 0 ∨ r.getD k 0 = 0) ∧
        (k * w + 1 / 2 ^ 148 * w < low * (1 - 1 / 2 ^ 23) ∨ high * (1 + 1 / 2 ^ 23) < k * w → r.getD k 0 = 0) := by
  have hh : high ≤ binary32 (w * binary32 input.length) := by
    rw [nat_exact hlen]
    have := mono hhigh
    rwa [hf] at this
  refine ⟨_, result input low high w hne hw hlow hlh hh hlen out, by simp, fun k hk => ?_⟩
  rw [getD_range_map _ _ _ hk]
  obtain ⟨a1, a2, a3, a4⟩ := quotient hlow hw (k := k) (by omega)
  obtain ⟨b1, b2, b3, b4⟩ := quotient (hlow.trans hlh) hw (k := k) (by omega)
  refine ⟨fun h1 h2 => ?_, ?_, ?_⟩
  · rw [if_pos ⟨a1 h1, b2 h2⟩]
  · split_ifs
    · exact Or.inl rfl
    · exact Or.inr rfl
  · rintro (h | h)
    · rw [if_neg fun hc => absurd (a4 h) (not_lt.2 hc.1)]
    · rw [if_neg fun hc => absurd (b3 h) (not_lt.2 hc.2)]

/-- `FftHardBandpass` on up to 2^22 samples, for band edges as documented: no check fails; a bin of the spectrum, of frequency
`k * rate / n`, is unchanged if it is in the pass band by a relative margin of 2^-22, zero if it is outside by such a margin, and
one of the two in any case. -/
theorem C125_signal_partial (n : ℕ) (hn : 0 < n) (hn2 : n ≤ 2 ^ 22) (spectrum : List ℂ) (hs : spectrum.length = n / 2 + 1)
    (low high rate : ℝ) (hr : 1 / 2 ^ 60 ≤ rate) (hlow : 0 ≤ low) (hlh : low ≤ high) (hhigh : high ≤ rate / 2)
    (hf : binary32 high = high) :
    ∃ r, fftHardBandpass binary32 n spectrum low high rate = some r ∧ r.length = spectrum.length ∧
      ∀ k < spectrum.length,
        (low * (1 + 1 / 2 ^ 22) ≤ k * rate / n → k * rate / n ≤ high * (1 - 1 / 2 ^ 22) → r.getD k 0 = spectrum.getD k 0) ∧
        (r.getD k 0 = spectrum.getD k 0 ∨ r.getD k 0 = 0) ∧
        (k * rate / n + 1 / 2 ^ 147 * rate < low * (1 - 1 / 2 ^ 22) ∨ high * (1 + 1 / 2 ^ 22) < k * rate / n →
          r.getD k 0 = 0) := by
  have n0 : (0 : ℝ) < n := by exact_mod_cast hn
  have n1 : (1 : ℝ) ≤ n := by exact_mod_cast hn
  have n2 : (n : ℝ) ≤ 2 ^ 22 := by exact_mod_cast hn2
  have r0 : 0 < rate := lt_of_lt_of_le (by positivity) hr
  have h0 : 0 ≤ high := hlow.trans hlh
  have en := nat_exact (n := n) (by omega)
  obtain ⟨f, hfdef⟩ : ∃ f, f = rate / n := ⟨_, rfl⟩
  have hrf : rate = f * n := by rw [hfdef]; field_simp
  have f0 : 0 < f := by rw [hfdef]; positivity
  have fr : f ≤ rate := by rw [hrf]; nlinarith
  have flow : 1 / 2 ^ 82 ≤ f := by
    rw [hfdef, le_div_iff₀ n0]
    refine le_trans ?_ hr
    have e : (1 : ℝ) / 2 ^ 60 = 1 / 2 ^ 82 * 2 ^ 22 := by norm_num
    rw [e]
    exact mul_le_mul_of_nonneg_left n2 (by positivity)
  -- the bin width
  obtain ⟨w1, w2⟩ := abs_le.1 (binary32_accurate f)
  rw [abs_of_pos f0] at w1 w2
  have hη : (1 : ℝ) / 2 ^ 150 ≤ 1 / 2 ^ 60 * f := by
    have e : (1 : ℝ) / 2 ^ 150 = 1 / 2 ^ 68 * (1 / 2 ^ 82) := by norm_num
    rw [e]
    have : (1 : ℝ) / 2 ^ 68 * (1 / 2 ^ 82) ≤ 1 / 2 ^ 68 * f := mul_le_mul_of_nonneg_left flow (by positivity)
    linarith
  have B1 : f * (1 - 1.01 / 2 ^ 24) ≤ binary32 f := by generalize (1 : ℝ) / 2 ^ 150 = η at *; linarith
  have B2 : binary32 f ≤ f * (1 + 1.01 / 2 ^ 24) := by generalize (1 : ℝ) / 2 ^ 150 = η at *; linarith
  have w0 : 0 < binary32 f := lt_of_lt_of_le (by nlinarith) B1
  -- the checks
  have c1 : high < binary32 (rate * binary32 (1 / 2 + binary32 ((1 / 2) / binary32 n))) := by
    rw [en]
    have p23 : binary32 (1 / 2 ^ 23) = 1 / 2 ^ 23 :=
      ieee_of_representable (by norm_num) ⟨1, -23, by norm_num, by norm_num, by norm_num⟩
    have p1 : binary32 (1 / 2 + 1 / 2 ^ 23) = 1 / 2 + 1 / 2 ^ 23 :=
      ieee_of_representable (by norm_num) ⟨2 ^ 22 + 1, -23, by norm_num, by norm_num, by norm_num⟩
    have h1 : (1 : ℝ) / 2 ^ 23 ≤ 1 / 2 / n := by
      rw [le_div_iff₀ n0]; linarith
    have h2 := mono h1
    rw [p23] at h2
    have h3 := mono (show (1 : ℝ) / 2 + 1 / 2 ^ 23 ≤ 1 / 2 + binary32 (1 / 2 / n) by linarith)
    rw [p1] at h3
    have h4 := mono (mul_le_mul_of_nonneg_left h3 r0.le)
    refine lt_of_lt_of_le ?_ h4
    have hp : 0 < rate * (1 / 2 + 1 / 2 ^ 23) := by positivity
    obtain ⟨x1, x2⟩ := abs_le.1 (binary32_accurate (rate * (1 / 2 + 1 / 2 ^ 23)))
    rw [abs_of_pos hp] at x1 x2
    have hη' : (1 : ℝ) / 2 ^ 150 ≤ 1 / 2 ^ 60 * rate := hη.trans (by linarith)
    generalize (1 : ℝ) / 2 ^ 150 = η at *
    linarith
  have c2 : high ≤ binary32 f * spectrum.length := by
    have hl : ((n : ℝ) + 1) / 2 ≤ spectrum.length := by
      have : n + 1 ≤ 2 * spectrum.length := by omega
      have : (n : ℝ) + 1 ≤ 2 * spectrum.length := by exact_mod_cast this
      linarith
    have h1 : f * (1 - 1.01 / 2 ^ 24) * ((n + 1) / 2) ≤ binary32 f * spectrum.length :=
      mul_le_mul B1 hl (by positivity) w0.le
    refine le_trans (hhigh.trans ?_) h1
    rw [hrf]
    nlinarith
  unfold fftHardBandpass
  rw [if_neg hn.ne', if_neg (by simpa using hlow), if_neg (by simpa using hlh), if_neg (by simpa using c1)]
  dsimp only
  rw [en, ← hfdef]
  have hne : spectrum ≠ [] := by intro hc; rw [hc] at hs; simp at hs
  obtain ⟨r, e, hl, hk⟩ := C125_spectrum spectrum low high (binary32 f) hne (by omega) w0 hlow hlh c2 hf none
  refine ⟨r, e, hl, fun k hkl => ?_⟩
  obtain ⟨k1, k2, k3⟩ := hk k hkl
  have ek : (k : ℝ) * rate / n = k * f := by rw [hfdef]; ring
  have k0 : (0 : ℝ) ≤ k := by positivity
  have K1 : k * (f * (1 - 1.01 / 2 ^ 24)) ≤ k * binary32 f := mul_le_mul_of_nonneg_left B1 k0
  have K2 : k * binary32 f ≤ k * (f * (1 + 1.01 / 2 ^ 24)) := mul_le_mul_of_nonneg_left B2 k0
  have kf0 : 0 ≤ k * f := by positivity
  rw [ek]
  refine ⟨fun h1 h2 => k1 ?_ ?_, k2, ?_⟩
  · refine le_trans ?_ K1
    linarith
  · refine K2.trans ?_
    linarith
  · rintro (h | h)
    · refine k3 (Or.inl ?_)
      have h5 : 1 / 2 ^ 148 * binary32 f ≤ 1 / 2 ^ 147 * rate := by
        have e7 : (1 : ℝ) / 2 ^ 147 = 2 * (1 / 2 ^ 148) := by norm_num
        have : binary32 f ≤ 2 * rate := by linarith
        have := mul_le_mul_of_nonneg_left this (by positivity : (0 : ℝ) ≤ 1 / 2 ^ 148)
        rw [e7]; linarith
      have y0 : 0 ≤ 1 / 2 ^ 147 * rate := by positivity
      generalize (1 : ℝ) / 2 ^ 147 * rate = y1 at *
      generalize (1 : ℝ) / 2 ^ 148 * binary32 f = y2 at *
      have : k * f ≤ low := by linarith
      linarith
    · refine k3 (Or.inr ?_)
      refine lt_of_lt_of_le ?_ K1
      linarith

/-- The comments' definition of the pass band is not met exactly: a bin strictly below the lower edge passes (bin 3, at
3 + 3 * 2^-23; the edge is 3 + 4 * 2^-23). -/
theorem C125_edge_violation :
    ¬ ∀ (input : List ℂ) (low high w : ℝ), binary32 low = low → binary32 high = high → binary32 w = w → 0 < w → 0 ≤ low →
      low ≤ high → high ≤ w * input.length → ∀ r, hardBandpassSpectrum binary32 input low high w none = some r →
      ∀ k < input.length, (k : ℝ) * w < low → r.getD k 0 = 0 := by
  intro H
  have w32 : binary32 (1 + 1 / 2 ^ 23) = 1 + 1 / 2 ^ 23 :=
    ieee_of_representable (by norm_num) ⟨2 ^ 23 + 1, -23, by norm_num, by norm_num, by norm_num⟩
  have l32 : binary32 (3 + 4 / 2 ^ 23) = 3 + 4 / 2 ^ 23 :=
    ieee_of_representable (by norm_num) ⟨3 * 2 ^ 21 + 1, -21, by norm_num, by norm_num, by norm_num⟩
  have q : binary32 ((3 + 4 / 2 ^ 23) / (1 + 1 / 2 ^ 23)) = 3 := by
    unfold binary32
    rw [ieee_eq (e := -22) (m := 3 * 2 ^ 22) (by norm_num) (by norm_num) (by norm_num) (by norm_num [abs_lt])]
    norm_num
  have four : binary32 4 = 4 := by have := nat_exact (n := 4) (by norm_num); simpa using this
  have hres := result [1, 1, 1, 1] (3 + 4 / 2 ^ 23) (3 + 4 / 2 ^ 23) (1 + 1 / 2 ^ 23) (by simp) (by norm_num) (by norm_num) le_rfl
    (by
      have h4 : binary32 (([1, 1, 1, 1] : List ℂ).length : ℝ) = 4 := by simpa using four
      rw [h4]
      have := mono (show (3 + 4 / 2 ^ 23 : ℝ) ≤ (1 + 1 / 2 ^ 23) * 4 by norm_num)
      rwa [l32] at this) (by simp) none
  have := H [1, 1, 1, 1] (3 + 4 / 2 ^ 23) (3 + 4 / 2 ^ 23) (1 + 1 / 2 ^ 23) l32 l32 w32 (by norm_num) (by norm_num) le_rfl
    (by norm_num) _ hres 3 (by simp) (by norm_num)
  rw [getD_range_map _ _ _ (by simp), q] at this
  norm_num at this

/-- Nor does a bin exactly on an edge always pass the filters of signals, because the bin width is rounded: of 14 samples at 16 Hz
the high-pass filter with edge 0 removes the bin at the Nyquist frequency. -/
theorem C125_nyquist_violation :
    ¬ ∀ (n : ℕ) (spectrum : List ℂ) (low rate : ℝ), 0 < n → spectrum.length = n / 2 + 1 → binary32 low = low →
      binary32 rate = rate → 0 ≤ low → low ≤ rate / 2 → ∀ r, fftHardHighpass binary32 n spectrum low rate = some r →
      ∀ k < spectrum.length, low ≤ k * rate / n → r.getD k 0 = spectrum.getD k 0 := by
  intro H
  have r16 : binary32 16 = 16 := by have := nat_exact (n := 16) (by norm_num); simpa using this
  have r14 : binary32 ((14 : ℕ) : ℝ) = 14 := by have := nat_exact (n := 14) (by norm_num); simpa using this
  have r8 : binary32 8 = 8 := by have := nat_exact (n := 8) (by norm_num); simpa using this
  have z : binary32 0 = 0 := binary32_regular.zero
  have w : binary32 (16 / 14) = 9586981 / 2 ^ 23 := by
    unfold binary32
    rw [ieee_eq (e := -23) (m := 9586981) (by norm_num) (by norm_num) (by norm_num) (by norm_num [abs_lt])]
    norm_num
  have q : binary32 (8 / (9586981 / 2 ^ 23)) = 7 - 1 / 2 ^ 21 := by
    unfold binary32
    rw [ieee_eq (e := -21) (m := 7 * 2 ^ 21 - 1) (by norm_num) (by norm_num) (by norm_num) (by norm_num [abs_lt])]
    norm_num
  obtain ⟨sp, hsp⟩ : ∃ sp : List ℂ, sp = List.replicate 8 1 := ⟨_, rfl⟩
  have lsp : sp.length = 8 := by rw [hsp]; simp
  obtain ⟨r, e, -, -⟩ := C125_signal_partial 14 (by norm_num) (by norm_num) sp (by rw [lsp]) 0 8 16 (by norm_num) le_rfl
    (by norm_num) (by norm_num) r8
  have hi : fftHardHighpass binary32 14 sp 0 16 = some r := by
    unfold fftHardHighpass
    rw [show (16 : ℝ) / 2 = 8 by norm_num, r8]
    exact e
  have := H 14 sp 0 16 (by norm_num) (by rw [lsp]) z r16 le_rfl (by norm_num) r hi 7 (by rw [lsp]; norm_num) (by norm_num)
  have e' : hardBandpassSpectrum binary32 sp 0 8 (9586981 / 2 ^ 23) none = some r := by
    unfold fftHardBandpass at e
    split_ifs at e
    all_goals
      dsimp only at e
      rwa [r14, w] at e
  rw [result sp 0 8 _ (by rw [hsp]; simp) (by norm_num) le_rfl (by norm_num) (by
    rw [lsp, show ((8 : ℕ) : ℝ) = 8 by norm_num, r8]
    have := mono (show (8 : ℝ) ≤ 9586981 / 2 ^ 23 * 8 by norm_num)
    rwa [r8] at this) (by rw [lsp]; norm_num) none] at e'
  obtain rfl := Option.some.inj e'
  rw [getD_range_map _ _ _ (by rw [lsp]; norm_num), q, hsp] at this
  norm_num at this

/-- With 2^24 samples or more the high-pass filter always fails: the tolerance of its check is lost in rounding. -/
theorem C125_highpass_long_violation (n : ℕ) (hn : 2 ^ 24 ≤ n) (spectrum : List ℂ) (low rate : ℝ)
    (hr2 : 0 ≤ rate) : fftHardHighpass binary32 n spectrum low rate = none := by
  have e : binary32 (1 / 2 + binary32 ((1 / 2) / binary32 n)) ≤ 1 / 2 := by
    have n1 : ((2 ^ 24 : ℕ) : ℝ) ≤ n := by exact_mod_cast hn
    have m1 := mono n1
    rw [nat_exact (n := 2 ^ 24) le_rfl] at m1
    push_cast at m1
    have p25 : binary32 (1 / 2 ^ 25) = 1 / 2 ^ 25 :=
      ieee_of_representable (by norm_num) ⟨1, -25, by norm_num, by norm_num, by norm_num⟩
    have n0 : 0 < binary32 n := lt_of_lt_of_le (by norm_num) m1
    have h1 : (1 : ℝ) / 2 / binary32 n ≤ 1 / 2 ^ 25 := by
      rw [div_le_iff₀ n0]; linarith
    have h2 := mono h1
    rw [p25] at h2
    have h3 := mono (show 1 / 2 + binary32 ((1 / 2) / binary32 n) ≤ 1 / 2 + 1 / 2 ^ 25 by linarith)
    refine h3.trans (le_of_eq ?_)
    unfold binary32
    rw [ieee_eq (e := -24) (m := 2 ^ 23) (by norm_num) (by norm_num) (by norm_num) (Or.inr ⟨by norm_num [abs_le], by norm_num⟩)]
    norm_num
  have h : binary32 (rate * binary32 (1 / 2 + binary32 ((1 / 2) / binary32 n))) ≤ binary32 (rate / 2) := by
    refine mono ?_
    have := mul_le_mul_of_nonneg_left e hr2
    linarith
  unfold fftHardHighpass fftHardBandpass
  rw [if_neg (by omega)]
  split_ifs
  all_goals first | rfl | exact absurd ‹_ < _› (not_lt.2 h)

/-- The hypotheses of `C125_signal_partial` hold for 1024 samples at 44100 Hz and the band from 1 to 8 kHz: bin 100 passes, bin 10
does not. -/
example (spectrum : List ℂ) (hs : spectrum.length = 513) :
    ∃ r, fftHardBandpass binary32 1024 spectrum 1000 8000 44100 = some r ∧ r.getD 100 0 = spectrum.getD 100 0 ∧
      r.getD 10 0 = 0 := by
  have r8 : binary32 8000 = 8000 := by have := nat_exact (n := 8000) (by norm_num); simpa using this
  obtain ⟨r, e, -, h⟩ := C125_signal_partial 1024 (by norm_num) (by norm_num) spectrum (by rw [hs]) 1000 8000 44100
    (by norm_num) (by norm_num) (by norm_num) (by norm_num) r8
  refine ⟨r, e, (h 100 (by omega)).1 (by norm_num) (by norm_num), (h 10 (by omega)).2.2 (Or.inl (by norm_num))⟩

end Verif.FloatFftUtil
