import Verif.Proof.FftReal

/-!
# C39: the Fourier transform wrappers compute the discrete Fourier transform for every size

`next` stands for `kiss_fft_next_fast_size` of the external library, of which only `n ≤ next n` is used.
-/

namespace Verif.Fft
open Finset DftSpec

theorem isFast_examples : isFastSize 60 = true ∧ isFastSize 29 = false ∧ isFastSize 62 = false := by
  decide +kernel

theorem complex_make {next : ℕ → ℕ} {n : ℕ} (hn : 0 < n) (norm : Bool) :
    ∃ t, ComplexFft.make next n norm = some t ∧ t.normalization = norm ∧
      (t.impl = .kiss n ∨ t.impl = .bluestein (.make next n)) := by
  unfold ComplexFft.make
  rw [if_neg (by omega)]
  by_cases h : isFastSize n
  · exact ⟨⟨.kiss n, norm⟩, by simp [h], rfl, .inl rfl⟩
  · exact ⟨⟨.bluestein (.make next n), norm⟩, by simp [h], rfl, .inr rfl⟩

theorem real_make {next : ℕ → ℕ} {n : ℕ} (hn : 0 < n) (norm : Bool) :
    ∃ t, RealFft.make next n norm = some t ∧ t.normalization = norm ∧ RealOk next n t.impl := by
  unfold RealFft.make
  rw [if_neg (by omega)]
  by_cases h : isFastSize n
  · by_cases he : n % 2 = 0
    · exact ⟨⟨.kiss n, norm⟩, by simp [h, he], rfl, .inl ⟨rfl, he⟩⟩
    · exact ⟨⟨.complex (.kiss n), norm⟩, by simp [h, he], rfl, .inr ⟨_, rfl, .inl rfl⟩⟩
  · exact ⟨⟨.complex (.bluestein (.make next n)), norm⟩, by simp [h], rfl, .inr ⟨_, rfl, .inr rfl⟩⟩

/-- **C39**: the transformers exist exactly for the positive sizes. -/
theorem C39_make (next : ℕ → ℕ) (size : ℤ) (norm : Bool) :
    ((∃ t, ComplexFft.make next size norm = some t) ↔ 0 < size) ∧
    ((∃ t, RealFft.make next size norm = some t) ↔ 0 < size) := by
  constructor
  · constructor
    · rintro ⟨t, h⟩
      by_contra hc
      rw [ComplexFft.make, if_pos (by omega)] at h
      exact absurd h (by simp)
    · intro h
      obtain ⟨n, rfl⟩ := Int.eq_ofNat_of_zero_le h.le
      obtain ⟨t, ht, _⟩ := complex_make (next := next) (n := n) (by omega) norm
      exact ⟨t, ht⟩
  · constructor
    · rintro ⟨t, h⟩
      by_contra hc
      rw [RealFft.make, if_pos (by omega)] at h
      exact absurd h (by simp)
    · intro h
      obtain ⟨n, rfl⟩ := Int.eq_ofNat_of_zero_le h.le
      obtain ⟨t, ht, _⟩ := real_make (next := next) (n := n) (by omega) norm
      exact ⟨t, ht⟩

/-- **C39**: for every size, fast or not, the forward transform of a vector of that size is its discrete
Fourier transform; a vector of any other size is refused. -/
theorem C39_complex_forward {next : ℕ → ℕ} (hnext : ∀ n, n ≤ next n) {size : ℕ} {norm : Bool}
    {t : ComplexFft} (ht : ComplexFft.make next size norm = some t) (x : List ℂ) :
    t.forward x = if x.length = size then some (dft x) else none := by
  have hn : 0 < size := by
    have := (C39_make next size norm).1.mp ⟨t, ht⟩; omega
  obtain ⟨t', ht', _, himpl⟩ := complex_make (next := next) hn norm
  obtain rfl : t' = t := by rw [ht'] at ht; exact Option.some.inj ht
  unfold ComplexFft.forward
  rw [complexImpl_size next himpl]
  by_cases h : x.length = size
  · rw [if_neg (by simp [h]), if_pos h, complexImpl_forward hn next hnext himpl, dft_eq, h]
  · rw [if_pos h, if_neg h]

/-- **C39**: for every size the inverse transform is the conjugate transform, divided by the size when
normalization is enabled. -/
theorem C39_complex_inverse {next : ℕ → ℕ} (hnext : ∀ n, n ≤ next n) {size : ℕ} {norm : Bool}
    {t : ComplexFft} (ht : ComplexFft.make next size norm = some t) (x : List ℂ) :
    t.inverse x = if x.length = size then
      some (if norm then (idft x).map (· / (size : ℂ)) else idft x) else none := by
  have hn : 0 < size := by
    have := (C39_make next size norm).1.mp ⟨t, ht⟩; omega
  obtain ⟨t', ht', hnorm, himpl⟩ := complex_make (next := next) hn norm
  obtain rfl : t' = t := by rw [ht'] at ht; exact Option.some.inj ht
  unfold ComplexFft.inverse
  rw [complexImpl_size next himpl, hnorm]
  by_cases h : x.length = size
  · rw [if_neg (by simp [h]), if_pos h]
    dsimp only
    rw [complexImpl_inverse hn next hnext himpl, idft_eq, h]
    simp only [mul_one_div]
  · rw [if_pos h, if_neg h]

/-- **C39**: forward followed by inverse gives the input back, multiplied by the size unless
normalization is enabled. -/
theorem C39_complex_roundtrip {next : ℕ → ℕ} (hnext : ∀ n, n ≤ next n) {size : ℕ} {norm : Bool}
    {t : ComplexFft} (ht : ComplexFft.make next size norm = some t) {x : List ℂ}
    (hx : x.length = size) :
    t.forward x >>= t.inverse = some (if norm then x else x.map ((size : ℂ) * ·)) := by
  have hn : 0 < size := by
    have := (C39_make next size norm).1.mp ⟨t, ht⟩; omega
  have hc : (size : ℂ) ≠ 0 := by exact_mod_cast hn.ne'
  rw [C39_complex_forward hnext ht, if_pos hx]
  simp only [Option.bind_eq_bind, Option.bind_some]
  rw [C39_complex_inverse hnext ht, if_pos (by simp [dft, hx])]
  have key : idft (dft x) = x.map ((size : ℂ) * ·) := by
    apply list_ext_getD 0
    · simp [idft, dft]
    · intro k hk
      have hk : k < size := by simpa [idft, dft, hx] using hk
      have hl : (dft x).length = size := by simp [dft, hx]
      rw [idft_eq, hl, getD_range_map _ _ _ hk]
      rw [G_congr (y := F size fun j => x.getD j 0) (fun j hj => by
        rw [dft_eq, hx, getD_range_map _ _ _ hj])]
      rw [G_F hn _ hk]
      simp [List.getD, hx, hk]
  rw [key]
  cases norm
  · rfl
  · simp [List.map_map, Function.comp_def, hc]

/-- **C39**: the real transform gives the nonnegative frequencies of the discrete Fourier transform, for
every size. -/
theorem C39_real_forward {next : ℕ → ℕ} (hnext : ∀ n, n ≤ next n) {size : ℕ} {norm : Bool}
    {t : RealFft} (ht : RealFft.make next size norm = some t) (x : List ℝ) :
    t.forward x = if x.length = size then some ((dft (x.map Complex.ofReal)).take (size / 2 + 1))
      else none := by
  have hn : 0 < size := by
    have := (C39_make next size norm).2.mp ⟨t, ht⟩; omega
  obtain ⟨t', ht', _, himpl⟩ := real_make (next := next) hn norm
  obtain rfl : t' = t := by rw [ht'] at ht; exact Option.some.inj ht
  unfold RealFft.forward
  rw [realImpl_size next himpl]
  by_cases h : x.length = size
  · rw [if_neg (by simp [h]), if_pos h, realImpl_forward hn next hnext himpl, dft_eq, List.length_map, h,
      ← List.map_take, List.take_range, Nat.min_eq_left (by omega)]
    simp only [getD_map_ofReal]
  · rw [if_pos h, if_neg h]

/-- **C39**: the inverse real transform is the (real part of the) conjugate transform of the spectrum
extended by conjugate symmetry, for every size and whichever implementation is selected; it is refused
unless the spectrum has `size / 2 + 1` bins. -/
theorem C39_real_inverse {next : ℕ → ℕ} (hnext : ∀ n, n ≤ next n) {size : ℕ} {norm : Bool}
    {t : RealFft} (ht : RealFft.make next size norm = some t) (x : List ℂ) :
    t.inverse x = if x.length = size / 2 + 1 then
      some ((idft (hermitian size x)).map fun v => if norm then v.re / (size : ℝ) else v.re) else none := by
  have hn : 0 < size := by
    have := (C39_make next size norm).2.mp ⟨t, ht⟩; omega
  obtain ⟨t', ht', hnorm, himpl⟩ := real_make (next := next) hn norm
  obtain rfl : t' = t := by rw [ht'] at ht; exact Option.some.inj ht
  unfold RealFft.inverse RealFft.transformedSize
  rw [realImpl_size next himpl, hnorm]
  by_cases h : x.length = size / 2 + 1
  · rw [if_neg (by simp [h]), if_pos h, realImpl_inverse hn next hnext himpl h]
    have hl : (hermitian size x).length = size := by simp [hermitian]
    rw [idft_eq, hl]
    cases norm <;> simp [List.map_map, Function.comp_def, div_eq_mul_inv]
  · rw [if_pos h, if_neg h]

/-- **C39**: forward followed by inverse gives the real input back, multiplied by the size unless
normalization is enabled. -/
theorem C39_real_roundtrip {next : ℕ → ℕ} (hnext : ∀ n, n ≤ next n) {size : ℕ} {norm : Bool}
    {t : RealFft} (ht : RealFft.make next size norm = some t) {x : List ℝ} (hx : x.length = size) :
    t.forward x >>= t.inverse = some (if norm then x else x.map ((size : ℝ) * ·)) := by
  have hn : 0 < size := by
    have := (C39_make next size norm).2.mp ⟨t, ht⟩; omega
  have hc : (size : ℝ) ≠ 0 := by exact_mod_cast hn.ne'
  rw [C39_real_forward hnext ht, if_pos hx]
  simp only [Option.bind_eq_bind, Option.bind_some]
  rw [C39_real_inverse hnext ht, if_pos (by simp [dft, hx]; omega)]
  congr 1
  have hX : ∀ k ≤ size / 2, ((dft (x.map Complex.ofReal)).take (size / 2 + 1)).getD k 0
      = F size (fun j => ((x.getD j 0 : ℝ) : ℂ)) k := by
    intro k hk
    rw [dft_eq, List.length_map, hx, ← List.map_take, List.take_range, Nat.min_eq_left (by omega),
      getD_range_map _ _ _ (by omega)]
    simp only [getD_map_ofReal]
  have hl : (hermitian size ((dft (x.map Complex.ofReal)).take (size / 2 + 1))).length = size := by
    simp [hermitian]
  have key : ∀ k < size, (idft (hermitian size ((dft (x.map Complex.ofReal)).take
      (size / 2 + 1)))).getD k 0 = size * (x.getD k 0 : ℝ) := by
    intro k hk
    rw [idft_eq, hl, getD_range_map _ _ _ hk]
    rw [G_congr (fun j hj => hermitian_F hn (fun j => x.getD j 0) hX hj), G_F hn _ hk]
  apply list_ext_getD 0
  · cases norm <;> simp [idft, hermitian, hx]
  · intro k hk
    have hks : k < size := by simpa [idft, hermitian] using hk
    have hlen : (idft (hermitian size ((dft (x.map Complex.ofReal)).take (size / 2 + 1)))).length
        = size := by simp [idft, hermitian]
    have h2 := key k hks
    rw [List.getD_eq_getElem _ _ (by omega)] at h2
    rw [List.getD_eq_getElem _ _ (by simpa [hlen] using hks), List.getElem_map, h2]
    have hre : ((size : ℂ) * ((x.getD k 0 : ℝ) : ℂ)).re = size * x.getD k 0 := by
      rw [← Complex.ofReal_natCast, ← Complex.ofReal_mul, Complex.ofReal_re]
    rw [hre]
    cases norm
    · simp [List.getD, hx, hks]
    · simp [hc]

/-- Case: size 29 is transformed by Bluestein's algorithm, size 60 is not, and the statements above apply
to both. -/
example (next : ℕ → ℕ) : ComplexFft.make next 29 true = some ⟨.bluestein (.make next 29), true⟩ ∧
    ComplexFft.make next 60 false = some ⟨.kiss 60, false⟩ ∧
    RealFft.make next 62 true = some ⟨.complex (.bluestein (.make next 62)), true⟩ ∧
    RealFft.make next 60 true = some ⟨.kiss 60, true⟩ ∧
    RealFft.make next 15 true = some ⟨.complex (.kiss 15), true⟩ := by
  have h15 : isFastSize 15 = true := by decide +kernel
  refine ⟨?_, ?_, ?_, ?_, ?_⟩ <;>
    simp [ComplexFft.make, RealFft.make, isFast_examples, h15]

example (next : ℕ → ℕ) (hnext : ∀ n, n ≤ next n) (x : List ℂ) (hx : x.length = 29) (t : ComplexFft)
    (ht : ComplexFft.make next 29 true = some t) : t.forward x >>= t.inverse = some x :=
  C39_complex_roundtrip (size := 29) hnext ht hx

end Verif.Fft
