import Verif.Proof.Mel
import Verif.Theorems.Dct

/-!
# C35 and C63: the mel filterbank and MFCCs
-/

namespace Verif.Mfcc
open Finset Verif.MfccSpec

/-- **C35.** What `Initialize` accepts, from every state; a rejected configuration is reported, and the
only other outcome is the overflow of the conversion of a bin number to `int`. -/
theorem C35_accepts (m : Mel) (fft : ℕ) (rate : ℝ) (n : ℕ) (lower upper : ℝ) :
    ((∃ m', m.init fft rate n lower upper = .ok (m', false)) ↔
      ¬ (1 ≤ n ∧ 0 < rate ∧ 2 ≤ fft ∧ 0 ≤ lower ∧ lower < upper)) ∧
    ((1 ≤ n ∧ 0 < rate ∧ 2 ≤ fft ∧ 0 ≤ lower ∧ lower < upper) →
      3 / 2 + lower / (rate / (2 * ((fft : ℝ) - 1))) < 2 ^ 31 →
      upper / (rate / (2 * ((fft : ℝ) - 1))) < 2 ^ 31 →
      ∃ m', m.init fft rate n lower upper = .ok (m', true)) := by
  constructor
  · constructor
    · rintro ⟨m', h⟩ ⟨hn, hr, hf, hlo, hhi⟩
      unfold Mel.init at h
      dsimp only at h
      rw [if_neg (by omega), if_neg (not_le.2 hr), if_neg (by omega), if_neg (not_lt.2 hlo),
        if_neg (not_le.2 hhi)] at h
      simp only [bind, Except.bind] at h
      split at h
      · simp at h
      · split at h
        · simp at h
        · split at h
          · simp at h
          · simp [pure, Except.pure] at h
    · intro h
      unfold Mel.init
      dsimp only
      split_ifs with h1 h2 h3 h4 h5
      · exact ⟨_, rfl⟩
      · exact ⟨_, rfl⟩
      · exact ⟨_, rfl⟩
      · exact ⟨_, rfl⟩
      · exact ⟨_, rfl⟩
      · exfalso
        apply h
        exact ⟨by omega, not_le.1 h2, by omega, not_lt.1 h4, not_le.1 h5⟩
  · rintro ⟨hn, hr, hf, hlo, hhi⟩ h1 h2
    obtain ⟨m', h, -⟩ := init_spec m fft rate n lower upper hn hr hf hlo hhi h1 h2
    exact ⟨m', h⟩

/-- The bins used are below the FFT length if the upper limit is at most half the sample rate. -/
theorem stop_lt {rate upper : ℝ} {fft : ℕ} (hr : 0 < rate) (hf : 2 ≤ fft) (h : upper ≤ rate / 2) :
    ⌊upper / (rate / (2 * ((fft : ℝ) - 1)))⌋ < (fft : ℤ) := by
  have hf' : (2 : ℝ) ≤ fft := by exact_mod_cast hf
  rw [Int.floor_lt, div_lt_iff₀ (hz_pos hr hf)]
  push_cast
  rw [mul_div_assoc', lt_div_iff₀ (by linarith)]
  nlinarith

theorem sum_list_used {n : ℕ} {hz lower upper : ℝ} (hz0 : 0 < hz) (hlo : 0 ≤ lower) (hhi : lower < upper)
    (g : ℕ → ℝ) (k : ℕ) (hk : ⌊upper / hz⌋ < (k : ℤ)) (c : ℕ) :
    ((List.range' (⌊3 / 2 + lower / hz⌋).toNat
      (⌊upper / hz⌋ + 1 - ⌊3 / 2 + lower / hz⌋).toNat).map fun i =>
        weight n hz lower upper c i * g i).sum = ∑ i ∈ range k, weight n hz lower upper c i * g i := by
  rw [Dft.list_sum_range']
  have h0 : 0 ≤ ⌊3 / 2 + lower / hz⌋ :=
    Int.floor_nonneg.2 (add_nonneg (by norm_num) (div_nonneg hlo hz0.le))
  have h1 : 0 ≤ ⌊upper / hz⌋ := Int.floor_nonneg.2 (div_nonneg (hlo.trans hhi.le) hz0.le)
  generalize hS : ⌊3 / 2 + lower / hz⌋ = S at *
  generalize hE : ⌊upper / hz⌋ = E at *
  have hu : ∀ i : ℕ, Used hz lower upper i ↔ S ≤ (i : ℤ) ∧ (i : ℤ) ≤ E := by
    intro i; rw [used_iff hz0, hS, hE]
  have himg : (∑ j ∈ range (E + 1 - S).toNat, weight n hz lower upper c (S.toNat + j) * g (S.toNat + j))
      = ∑ i ∈ Ico S.toNat (S.toNat + (E + 1 - S).toNat), weight n hz lower upper c i * g i := by
    rw [Finset.sum_Ico_eq_sum_range]
    congr 2
    omega
  rw [himg]
  apply sum_subset_zero_on_sdiff
  · intro i hi
    rw [mem_Ico] at hi
    rw [mem_range]
    omega
  · intro i hi
    rw [mem_sdiff, mem_range, mem_Ico] at hi
    unfold weight
    rw [if_neg, zero_mul]
    rw [hu]
    omega
  · intro i _; rfl

/-- **C35.** For every accepted configuration with an upper limit of at most half the sample rate, and
every spectrum of nonnegative powers with at least `fft_length` bins, `Compute` makes no access out of
bounds and returns, for each channel, the sum of the magnitudes weighted by its mel-scale triangle. -/
theorem C35_compute (m m' : Mel) (fft : ℕ) (rate : ℝ) (n : ℕ) (lower upper : ℝ)
    (h : m.init fft rate n lower upper = .ok (m', true)) (hny : upper ≤ rate / 2)
    (s out : List ℝ) (hs : fft ≤ s.length) :
    m'.compute s out = .ok ((List.range n).map fun c =>
      channel n (rate / (2 * ((fft : ℝ) - 1))) lower upper fft (fun i => s.getD i 0) c) := by
  obtain ⟨hn, hr, hf, hlo, hhi, hg⟩ := init_inv m m' fft rate n lower upper h
  have hz0 := hz_pos hr hf
  have hstop := stop_lt hr hf hny
  generalize rate / (2 * ((fft : ℝ) - 1)) = hz at *
  unfold Mel.compute
  rw [if_neg (by rw [hg.initialized]; simp), if_neg (by rw [hg.stop]; omega),
    if_neg (by rw [hg.channels]; omega), hg.start, hg.stop, hg.channels, Int.toNat_natCast]
  obtain ⟨l, h1, h2, h3⟩ := foldlM_add n (m'.step s)
    (fun c i => weight n hz lower upper c i * √(s.getD i 0))
    (List.range' (⌊3 / 2 + lower / hz⌋).toNat (⌊upper / hz⌋ + 1 - ⌊3 / 2 + lower / hz⌋).toNat) (by
      intro i hi l hl
      have h0 : 0 ≤ ⌊3 / 2 + lower / hz⌋ :=
        Int.floor_nonneg.2 (add_nonneg (by norm_num) (div_nonneg hlo hz0.le))
      rw [List.mem_range'_1] at hi
      have hi' : ⌊3 / 2 + lower / hz⌋ ≤ (i : ℤ) ∧ (i : ℤ) ≤ ⌊upper / hz⌋ := by omega
      have hu := (used_iff hz0 i).2 hi'
      have hifft : i < fft := by omega
      have hr := channel_range n hz0 hlo i hu
      have hb := ceil_bounds (position n lower upper (i * hz))
      obtain ⟨l', e1, e2, e3⟩ := add_pair n _ hr.1 hr.2
        (√(s.getD i 0) * (1 - (position n lower upper (i * hz) -
            ((⌈position n lower upper (i * hz)⌉ - 1 : ℤ) : ℝ))))
        (√(s.getD i 0) - √(s.getD i 0) * (1 - (position n lower upper (i * hz) -
            ((⌈position n lower upper (i * hz)⌉ - 1 : ℤ) : ℝ)))) l hl
      refine ⟨l', ?_, e2, fun c hc => ?_⟩
      · unfold Mel.step
        rw [hg.weights i hu hifft, hg.mapper i hu hifft, List.getElem?_eq_getElem (by omega)]
        rw [List.getD_eq_getElem _ _ (by omega)] at e1
        dsimp only
        rw [hg.channels]
        exact e1
      · rw [e3 c hc]
        unfold weight
        rw [if_pos hu, triangle_eq c _ _ hb.1 hb.2]
        split_ifs <;> ring)
    (List.replicate n 0) (by simp)
  rw [h1]
  congr 1
  apply List.ext_getElem (by simp [h2])
  intro c hc1 hc2
  rw [h2] at hc1
  have := h3 c hc1
  rw [List.getD_eq_getElem _ _ (by omega)] at this
  rw [this, List.getElem_map, List.getElem_range, sum_list_used hz0 hlo hhi _ fft (by omega) c,
    List.getD_eq_getElem _ _ (by simpa using hc1)]
  simp [channel]

/-- **C35.** Weights are between 0 and 1; a bin between the centre frequencies of the first and the last
channel contributes weight one in total. -/
theorem C35_partition_of_unity (n : ℕ) (p : ℝ) :
    (∀ c, 0 ≤ triangle c p ∧ triangle c p ≤ 1) ∧
    (0 ≤ p → p ≤ (n : ℝ) - 1 → ∑ c ∈ range n, triangle c p = 1) := by
  constructor
  · intro c
    unfold triangle
    exact ⟨le_max_left _ _, max_le zero_le_one (by linarith [abs_nonneg (p - c)])⟩
  · intro h0 h1
    have hb := ceil_bounds p
    generalize hk : ⌈p⌉ - 1 = k at hb
    have hk0 : -1 ≤ k := by
      have : (0 : ℤ) ≤ ⌈p⌉ := Int.ceil_nonneg h0
      omega
    have hk1 : k < n - 1 := by
      have : ⌈p⌉ ≤ (n : ℤ) - 1 := by rw [Int.ceil_le]; push_cast; exact h1
      omega
    have e : ∀ c ∈ range n, triangle c p = (if (c : ℤ) = k then 1 - (p - k) else 0) +
        if (c : ℤ) = k + 1 then p - k else 0 := fun c _ => triangle_eq c k p hb.1 hb.2
    rw [sum_congr rfl e, sum_add_distrib]
    have e2 : ∑ c ∈ range n, (if (c : ℤ) = k + 1 then p - k else 0) = p - k := by
      rw [sum_eq_single (k + 1).toNat]
      · rw [if_pos (by omega)]
      · intro c _ hc; rw [if_neg (by omega)]
      · intro hc; rw [mem_range] at hc; exact absurd (by omega) hc
    rw [e2]
    rcases eq_or_lt_of_le hk0 with hk' | hk'
    · have e1 : ∑ c ∈ range n, (if (c : ℤ) = k then 1 - (p - k) else 0) = 0 := by
        apply sum_eq_zero
        intro c _
        rw [if_neg (by omega)]
      rw [e1]
      have : (k : ℝ) = -1 := by exact_mod_cast hk'.symm
      have hp : p ≤ 0 := by have := hb.2; linarith
      have : p = 0 := le_antisymm hp h0
      linarith
    · have e1 : ∑ c ∈ range n, (if (c : ℤ) = k then 1 - (p - k) else 0) = 1 - (p - k) := by
        rw [sum_eq_single k.toNat]
        · rw [if_pos (by omega)]
        · intro c _ hc; rw [if_neg (by omega)]
        · intro hc; rw [mem_range] at hc; exact absurd (by omega) hc
      rw [e1]; ring

/-- **C35.** Channel `c` is centred at the frequency that divides the mel scale between the limits in
ratio `c + 1 : n - c`, and position increases with frequency. -/
theorem C35_centres (n : ℕ) {lower upper : ℝ} (h0 : 0 ≤ lower) (h1 : lower < upper) :
    (∀ f, ∀ c : ℕ, position n lower upper f = c ↔
      mel f = mel lower + (c + 1) / (n + 1) * (mel upper - mel lower)) ∧
    (∀ f g, 0 ≤ f → f < g → position n lower upper f < position n lower upper g) := by
  have hd : 0 < mel upper - mel lower := sub_pos.2 (mel_strict h0 h1)
  have hn : (0 : ℝ) < n + 1 := by positivity
  constructor
  · intro f c
    unfold position
    constructor
    · intro h
      have h2 : (mel f - mel lower) * (n + 1) = (c + 1) * (mel upper - mel lower) := by
        have : (mel f - mel lower) / (mel upper - mel lower) * (n + 1) = c + 1 := by linarith
        field_simp at this
        linarith
      field_simp
      linarith
    · intro h
      rw [h]
      field_simp
      ring
  · intro f g hf hfg
    unfold position
    have := mel_strict hf hfg
    have h2 : (mel f - mel lower) / (mel upper - mel lower) <
        (mel g - mel lower) / (mel upper - mel lower) :=
      div_lt_div_of_pos_right (by linarith) hd
    nlinarith

/-- **C35.** `channel_weights_sum_` is the response to a flat unit spectrum. -/
theorem C35_flat (m m' : Mel) (fft : ℕ) (rate : ℝ) (n : ℕ) (lower upper : ℝ)
    (h : m.init fft rate n lower upper = .ok (m', true)) (hny : upper ≤ rate / 2) (out : List ℝ) :
    m'.compute (List.replicate fft 1) out = .ok m'.sums := by
  rw [C35_compute m m' fft rate n lower upper h hny _ _ (by simp)]
  obtain ⟨hn, hr, hf, hlo, hhi, hg⟩ := init_inv m m' fft rate n lower upper h
  congr 1
  apply List.ext_getElem (by simp [hg.sums_length])
  intro c h1 h2
  rw [List.getElem_map, List.getElem_range, ← List.getD_eq_getElem _ 0 h2, hg.sums c (by
    rw [hg.sums_length] at h2; exact h2)]
  unfold channel
  apply sum_congr rfl
  intro i hi
  dsimp only
  rw [List.getD_eq_getElem _ _ (by simpa using mem_range.1 hi)]
  simp

theorem inverseTerm_ok (m : Mel) (n : ℕ) (b : Bool) (mel out : List ℝ) (i : ℕ) (c : ℤ) (w : ℝ)
    (hmel : mel.length = n) (hs : m.sums.length = n) (hb : b = true → 0 ≤ c ∧ c < n)
    (hi : i < out.length) :
    m.inverseTerm b mel out i c w = .ok (out.set i (out.getD i 0 +
      if b then w * mel.getD c.toNat 0 / m.sums.getD c.toNat 0 else 0)) := by
  unfold Mel.inverseTerm
  by_cases hbt : b = true
  · obtain ⟨h0, h1⟩ := hb hbt
    rw [if_pos hbt, if_pos h0, if_pos hbt, List.getElem?_eq_getElem (by omega),
      List.getElem?_eq_getElem (by omega), List.getD_eq_getElem mel _ (by omega),
      List.getD_eq_getElem m.sums _ (by omega)]
    dsimp only
    rw [addAt, if_pos ⟨by omega, by omega⟩, Int.toNat_natCast]
  · rw [if_neg hbt, if_neg hbt, add_zero, List.getD_eq_getElem _ _ hi]
    simp

/-- **C35.** For every accepted configuration with an upper limit of at most half the sample rate whose
channels all have some weight, `EstimateInverse` makes no access out of bounds; in every used bin it
returns the square of the interpolated per-channel averages, elsewhere zero. -/
theorem C35_inverse (m m' : Mel) (fft : ℕ) (rate : ℝ) (n : ℕ) (lower upper : ℝ)
    (h : m.init fft rate n lower upper = .ok (m', true)) (hny : upper ≤ rate / 2)
    (_hw : ∀ c < n, 0 < ∑ j ∈ range fft, weight n (rate / (2 * ((fft : ℝ) - 1))) lower upper c j)
    (mel out : List ℝ) (hmel : mel.length = n) :
    ∃ r, m'.estimateInverse mel out = .ok r ∧ r.length = fft ∧ ∀ i < fft, r.getD i 0 =
      (∑ c ∈ range n, weight n (rate / (2 * ((fft : ℝ) - 1))) lower upper c i * mel.getD c 0 /
        ∑ j ∈ range fft, weight n (rate / (2 * ((fft : ℝ) - 1))) lower upper c j) ^ 2 := by
  obtain ⟨hn, hr, hf, hlo, hhi, hg⟩ := init_inv m m' fft rate n lower upper h
  have hz0 := hz_pos hr hf
  have hstop := stop_lt hr hf hny
  generalize rate / (2 * ((fft : ℝ) - 1)) = hz at *
  have hsum : ∀ i, (∑ c ∈ range n, weight n hz lower upper c i * mel.getD c 0 /
        ∑ j ∈ range fft, weight n hz lower upper c j) =
      ∑ c ∈ range n, weight n hz lower upper c i * mel.getD c 0 / m'.sums.getD c 0 := by
    intro i
    apply sum_congr rfl
    intro c hc
    rw [hg.sums c (mem_range.1 hc)]
  simp only [hsum]
  unfold Mel.estimateInverse
  rw [if_neg (by rw [hg.initialized]; simp), if_neg (by rw [hg.channels, hmel]; simp),
    if_neg (by rw [hg.fftLength]; omega), hg.start, hg.stop, hg.fftLength, Int.toNat_natCast]
  have h0 : 0 ≤ ⌊3 / 2 + lower / hz⌋ :=
    Int.floor_nonneg.2 (add_nonneg (by norm_num) (div_nonneg hlo hz0.le))
  -- one bin
  have hstep : ∀ i, Used hz lower upper i → i < fft → ∀ l : List ℝ, l.length = fft → l.getD i 0 = 0 →
      m'.inverseStep mel l i = .ok (l.set i ((∑ c ∈ range n, weight n hz lower upper c i *
        mel.getD c 0 / m'.sums.getD c 0) ^ 2)) := by
    intro i hu hi l hl hl0
    have hr := channel_range n hz0 hlo i hu
    have hb := ceil_bounds (position n lower upper (i * hz))
    unfold Mel.inverseStep
    rw [hg.mapper i hu hi, hg.weights i hu hi]
    dsimp only
    have hterms : ∀ c ∈ range n, weight n hz lower upper c i * mel.getD c 0 / m'.sums.getD c 0 =
        (if (c : ℤ) = ⌈position n lower upper (i * hz)⌉ - 1 then
          (1 - (position n lower upper (i * hz) -
            ((⌈position n lower upper (i * hz)⌉ - 1 : ℤ) : ℝ))) * mel.getD c 0 / m'.sums.getD c 0 else 0)
        + if (c : ℤ) = ⌈position n lower upper (i * hz)⌉ - 1 + 1 then
          (position n lower upper (i * hz) -
            ((⌈position n lower upper (i * hz)⌉ - 1 : ℤ) : ℝ)) * mel.getD c 0 / m'.sums.getD c 0
          else 0 := by
      intro c _
      unfold weight
      rw [if_pos hu, triangle_eq c _ _ hb.1 hb.2]
      split_ifs
      · omega
      all_goals ring
    rw [sum_congr rfl hterms, sum_add_distrib]
    generalize position n lower upper (i * hz) = p at *
    generalize ⌈p⌉ - 1 = k at *
    rw [hg.channels, inverseTerm_ok m' n _ mel l i (k + 1) _ hmel hg.sums_length (by
      intro hb; rw [decide_eq_true_eq] at hb; omega) (by omega)]
    simp only [bind, Except.bind]
    rw [inverseTerm_ok m' n _ mel _ i k _ hmel hg.sums_length (by
      intro hb; rw [decide_eq_true_eq] at hb; omega) (by rw [List.length_set]; omega)]
    dsimp only
    rw [List.set_set, List.getElem?_set_self (by omega)]
    dsimp only
    rw [List.set_set, hl0]
    have g1 : (l.set i (0 + if decide (k + 1 < (n : ℤ)) = true then
        (1 - (1 - (p - k))) * mel.getD (k + 1).toNat 0 / m'.sums.getD (k + 1).toNat 0 else 0)).getD i 0 =
        if decide (k + 1 < (n : ℤ)) = true then
        (1 - (1 - (p - k))) * mel.getD (k + 1).toNat 0 / m'.sums.getD (k + 1).toNat 0 else 0 := by
      rw [List.getD_eq_getElem _ _ (by rw [List.length_set]; omega), List.getElem_set_self, zero_add]
    rw [g1]
    have s1 : (∑ c ∈ range n, if (c : ℤ) = k then
        (1 - (p - k)) * mel.getD c 0 / m'.sums.getD c 0 else 0) =
        if decide (k ≥ 0) = true then (1 - (p - k)) * mel.getD k.toNat 0 / m'.sums.getD k.toNat 0
        else 0 := by
      by_cases hk : k ≥ 0
      · rw [if_pos (by simpa using hk), sum_eq_single k.toNat]
        · rw [if_pos (by omega)]
        · intro c _ hc; rw [if_neg (by omega)]
        · intro hc; rw [mem_range] at hc; exact absurd (by omega) hc
      · rw [if_neg (by simpa using hk)]
        apply sum_eq_zero
        intro c _
        rw [if_neg (by omega)]
    have s2 : (∑ c ∈ range n, if (c : ℤ) = k + 1 then
        (p - k) * mel.getD c 0 / m'.sums.getD c 0 else 0) =
        if decide (k + 1 < (n : ℤ)) = true then
          (1 - (1 - (p - k))) * mel.getD (k + 1).toNat 0 / m'.sums.getD (k + 1).toNat 0 else 0 := by
      by_cases hk : k + 1 < (n : ℤ)
      · rw [if_pos (by simpa using hk), sum_eq_single (k + 1).toNat]
        · rw [if_pos (by omega), sub_sub_cancel]
        · intro c _ hc; rw [if_neg (by omega)]
        · intro hc; rw [mem_range] at hc; exact absurd (by omega) hc
      · rw [if_neg (by simpa using hk)]
        apply sum_eq_zero
        intro c hc
        rw [mem_range] at hc
        rw [if_neg (by omega)]
    rw [s1, s2, sq, add_comm (if decide (k ≥ 0) = true then _ else _)]
  -- the loop
  have hloop : ∀ (is : List ℕ), is.Nodup → (∀ i ∈ is, Used hz lower upper i ∧ i < fft) →
      ∀ l : List ℝ, l.length = fft → (∀ i ∈ is, l.getD i 0 = 0) →
      ∃ r, is.foldlM (m'.inverseStep mel) l = .ok r ∧ r.length = fft ∧ ∀ i < fft, r.getD i 0 =
        if i ∈ is then (∑ c ∈ range n, weight n hz lower upper c i *
          mel.getD c 0 / m'.sums.getD c 0) ^ 2 else l.getD i 0 := by
    intro is
    induction is with
    | nil => intro _ _ l hl _; exact ⟨l, rfl, hl, fun i _ => by simp⟩
    | cons a is ih =>
      intro hnd hin l hl hz0'
      rw [List.nodup_cons] at hnd
      have ha := hin a (by simp)
      rw [List.foldlM_cons, hstep a ha.1 ha.2 l hl (hz0' a (by simp))]
      obtain ⟨r, h1, h2, h3⟩ := ih hnd.2 (fun i hi => hin i (by simp [hi]))
        (l.set a ((∑ c ∈ range n, weight n hz lower upper c a * mel.getD c 0 / m'.sums.getD c 0) ^ 2))
        (by rw [List.length_set]; exact hl) (by
          intro i hi
          have hne : a ≠ i := fun h => hnd.1 (h ▸ hi)
          have hif := (hin i (by simp [hi])).2
          rw [List.getD_eq_getElem _ _ (by rw [List.length_set]; omega), List.getElem_set_ne hne,
            ← List.getD_eq_getElem _ 0]
          exact hz0' i (by simp [hi]))
      refine ⟨r, h1, h2, fun i hi => ?_⟩
      rw [h3 i hi]
      by_cases hia : i = a
      · subst hia
        rw [if_neg hnd.1, if_pos (by simp), List.getD_eq_getElem _ _ (by rw [List.length_set]; omega),
          List.getElem_set_self]
      · by_cases hmem : i ∈ is
        · rw [if_pos hmem, if_pos (by simp [hmem])]
        · rw [if_neg hmem, if_neg (by simp [hmem, hia]),
            List.getD_eq_getElem _ _ (by rw [List.length_set]; omega),
            List.getElem_set_ne (fun h => hia h.symm), ← List.getD_eq_getElem _ 0]
  obtain ⟨r, h1, h2, h3⟩ := hloop
    (List.range' (⌊3 / 2 + lower / hz⌋).toNat (⌊upper / hz⌋ + 1 - ⌊3 / 2 + lower / hz⌋).toNat)
    List.nodup_range' (by
      intro i hi
      rw [List.mem_range'_1] at hi
      refine ⟨(used_iff hz0 i).2 ⟨by omega, by omega⟩, by omega⟩)
    (List.replicate fft 0) (by simp) (by intro i _; simp [List.getD_eq_getElem?_getD, List.getElem?_replicate]; split_ifs <;> rfl)
  refine ⟨r, h1, h2, fun i hi => ?_⟩
  rw [h3 i hi]
  split_ifs with hmem
  · rfl
  · have hnu : ¬ Used hz lower upper i := by
      intro hu
      apply hmem
      rw [List.mem_range'_1]
      have := (used_iff hz0 i).1 hu
      omega
    have : ∀ c ∈ range n, weight n hz lower upper c i * mel.getD c 0 / m'.sums.getD c 0 = 0 := by
      intro c _
      unfold weight
      rw [if_neg hnu, zero_mul, zero_div]
    rw [sum_eq_zero this]
    simp [List.getD_eq_getElem _ _ (show i < (List.replicate fft (0 : ℝ)).length by simpa using hi)]

/-- **C35.** A spectrum that is too short is rejected: the output is left alone. -/
theorem C35_short (m : Mel) (s out : List ℝ) (h : (s.length : ℤ) ≤ m.stop) :
    m.compute s out = .ok out := by
  unfold Mel.compute
  split_ifs <;> rfl

/-- The upper limit is not checked against half the sample rate. For **every** accepted configuration in
which it exceeds half the sample rate by one bin or more, `EstimateInverse` accesses its tables out of
bounds for every mel vector of the right size, and so does `Compute` for every spectrum that passes its
size check. -/
theorem C35_above_nyquist_violation (m m' : Mel) (fft : ℕ) (rate : ℝ) (n : ℕ) (lower upper : ℝ)
    (h : m.init fft rate n lower upper = .ok (m', true))
    (hny : rate / 2 + rate / (2 * ((fft : ℝ) - 1)) ≤ upper)
    (hone : lower + rate / (2 * ((fft : ℝ) - 1)) * 3 / 2 ≤ upper) :
    (∀ mel out, mel.length = n → ∃ e, m'.estimateInverse mel out = .error e) ∧
    (∀ s out, m'.stop < s.length → ∃ e, m'.compute s out = .error e) := by
  obtain ⟨hn, hr, hf, hlo, hhi, hg⟩ := init_inv m m' fft rate n lower upper h
  have hz0 := hz_pos hr hf
  have hf' : (2 : ℝ) ≤ fft := by exact_mod_cast hf
  have hhz : rate / 2 = rate / (2 * ((fft : ℝ) - 1)) * ((fft : ℝ) - 1) := by
    have : (fft : ℝ) - 1 ≠ 0 := by linarith
    field_simp
  rw [hhz] at hny
  clear hhz
  generalize rate / (2 * ((fft : ℝ) - 1)) = hz at *
  have hstop : (fft : ℤ) ≤ ⌊upper / hz⌋ := by
    rw [Int.le_floor, le_div_iff₀ hz0]
    push_cast
    linarith
  have hss : ⌊3 / 2 + lower / hz⌋ ≤ ⌊upper / hz⌋ := by
    apply Int.floor_le_floor
    rw [le_div_iff₀ hz0, add_mul, div_mul_cancel₀ _ hz0.ne']
    linarith
  have h0 : 0 ≤ ⌊3 / 2 + lower / hz⌋ :=
    Int.floor_nonneg.2 (add_nonneg (by norm_num) (div_nonneg hlo hz0.le))
  have hmem : (⌊upper / hz⌋).toNat ∈ List.range' (⌊3 / 2 + lower / hz⌋).toNat
      (⌊upper / hz⌋ + 1 - ⌊3 / 2 + lower / hz⌋).toNat := by
    rw [List.mem_range'_1]; omega
  have hmap : m'.mapper[(⌊upper / hz⌋).toNat]? = none := by
    rw [List.getElem?_eq_none_iff, hg.mapper_length]; omega
  constructor
  · intro mel out hmel
    unfold Mel.estimateInverse
    rw [if_neg (by rw [hg.initialized]; simp), if_neg (by rw [hg.channels, hmel]; simp),
      if_neg (by rw [hg.fftLength]; omega), hg.start, hg.stop]
    apply foldlM_error _ _ _ hmem
    intro l
    refine ⟨.oob, ?_⟩
    unfold Mel.inverseStep
    rw [hmap]
  · intro s out hs
    unfold Mel.compute
    rw [if_neg (by rw [hg.initialized]; simp), if_neg (by omega),
      if_neg (by rw [hg.channels]; omega), hg.start, hg.stop]
    apply foldlM_error _ _ _ hmem
    intro l
    refine ⟨.oob, ?_⟩
    unfold Mel.step
    rw [hmap]
    cases s[(⌊upper / hz⌋).toNat]? <;> cases m'.weights[(⌊upper / hz⌋).toNat]? <;> rfl

/-- The hypotheses of the violation are met: 3 bins at 4 Hz, 1 channel up to 10 Hz. -/
example (m : Mel) : ∃ m', m.init (3 : ℕ) 4 (1 : ℕ) 0 10 = .ok (m', true) ∧
    ((4 : ℝ) / 2 + 4 / (2 * (((3 : ℕ) : ℝ) - 1)) ≤ 10) := by
  refine ⟨_, ((C35_accepts m 3 4 1 0 10).2 (by norm_num) (by norm_num) (by norm_num)).choose_spec, ?_⟩
  norm_num

/-- A failed `Initialize` of an initialized object overwrites the number of channels but keeps the
tables, and the object still counts as initialized: `Compute` then writes outside its output vector. -/
theorem C35_failed_reinitialize_violation (m : Mel) :
    ∃ m1 m2, m.init 2 2 1 0 1 = .ok (m1, true) ∧ m1.init 2 2 0 0 1 = .ok (m2, false) ∧
      m2.compute [1, 1] [] = .error .oob := by
  obtain ⟨m1, h1, hg⟩ := init_spec m 2 2 1 0 1 le_rfl (by norm_num) le_rfl le_rfl (by norm_num)
    (by norm_num) (by norm_num)
  have hz1 : (2 : ℝ) / (2 * (((2 : ℕ) : ℝ) - 1)) = 1 := by norm_num
  rw [hz1] at hg
  refine ⟨m1, { m1 with
    channels := 0
    fftLength := 2 }, h1, ?_, ?_⟩
  · unfold Mel.init; simp
  · have hu : Used 1 0 1 1 := by unfold Used; norm_num
    have hpos : position 1 0 1 (((1 : ℕ) : ℝ) * 1) = 1 := by
      unfold position
      have : mel 1 - mel 0 ≠ 0 := (sub_pos.2 (mel_strict le_rfl zero_lt_one)).ne'
      norm_num [div_self this]
    have hmap := hg.mapper 1 hu (by norm_num)
    have hw := hg.weights 1 hu (by norm_num)
    rw [hpos] at hmap hw
    have hs : m1.start = 1 := by rw [hg.start]; norm_num [Int.floor_eq_iff]
    have he : m1.stop = 1 := by rw [hg.stop]; norm_num
    unfold Mel.compute
    dsimp only
    rw [if_neg (by rw [hg.initialized]; simp), if_neg (by rw [he]; simp), if_neg (by norm_num), hs, he]
    have : List.range' (1 : ℤ).toNat ((1 : ℤ) + 1 - 1).toNat = [1] := rfl
    rw [this]
    simp only [List.foldlM_cons]
    unfold Mel.step
    dsimp only
    rw [hmap, hw]
    simp [addAtIf, addAt, bind, Except.bind]

/-! ### MFCC -/

/-- **C63.** After every successful `Initialize` (with the upper limit at most half the sample rate),
`Compute` returns, for every frame of at least the initialized length, the first coefficients of the DCT
of the logarithm of the mel spectrum, floored at 1e-12. -/
theorem C63_mfcc (m m' : Mfcc) (fft : ℕ) (rate : ℝ) (n k : ℕ) (hn : m.channelCount = n)
    (hk : m.coefficientCount = k) (h : m.init fft rate = .ok (m', true))
    (hny : m.upper ≤ rate / 2) (s out : List ℝ) (hs : fft ≤ s.length) :
    m'.compute s out = .ok ((List.range k).map fun i => dct n (fun c => Real.log (max (1 / 10 ^ 12)
      (channel n (rate / (2 * ((fft : ℝ) - 1))) m.lower m.upper fft (fun i => s.getD i 0) c))) i) := by
  unfold Mfcc.init at h
  rw [hn, hk] at h
  simp only [bind, Except.bind] at h
  cases hm : m.mel.init fft rate n m.lower m.upper with
  | error e => rw [hm] at h; simp at h
  | ok r =>
    obtain ⟨mel, ok1⟩ := r
    rw [hm] at h
    simp only [pure, Except.pure, Except.ok.injEq, Prod.mk.injEq, Bool.and_eq_true] at h
    obtain ⟨h1, h2, h3⟩ := h
    subst h2
    unfold Mfcc.compute
    rw [← h1]
    dsimp only
    rw [h3, if_neg (by simp), C35_compute m.mel mel fft rate n m.lower m.upper hm hny s [] hs]
    simp only [bind, Except.bind]
    rw [C36_transform m.dct n k h3]
    congr 1
    apply List.map_congr_left
    intro i _
    unfold dct
    apply sum_congr rfl
    intro c hc
    have hc' := mem_range.1 hc
    congr 1
    dsimp only
    rw [List.getD_eq_getElem _ _ (by simpa using hc'), List.getElem_map, List.getElem_map,
      List.getElem_range]
    unfold floorLog
    congr 1
    split_ifs with hlt
    · rw [max_eq_left hlt.le]
    · rw [max_eq_right (not_lt.1 hlt)]

/-- **C63.** A failed `Initialize` leaves the object uninitialized; `Compute` of an uninitialized object
leaves the output alone; the setters refuse an initialized object. -/
theorem C63_uninitialized (m m' : Mfcc) (fft : ℤ) (rate : ℝ) (b : Bool)
    (h : m.init fft rate = .ok (m', b)) :
    m'.initialized = b ∧ (b = false → ∀ s out, m'.compute s out = .ok out) ∧
    (b = true → ∀ k, m'.setCoefficientCount k = .error .check) := by
  have hi : m'.initialized = b := by
    unfold Mfcc.init at h
    simp only [bind, Except.bind] at h
    cases hm : m.mel.init fft rate m.channelCount m.lower m.upper with
    | error e => rw [hm] at h; simp at h
    | ok r =>
      rw [hm] at h
      simp only [pure, Except.pure, Except.ok.injEq, Prod.mk.injEq] at h
      obtain ⟨h1, h2⟩ := h
      rw [← h1, ← h2]
  refine ⟨hi, ?_, ?_⟩
  · intro hb s out
    unfold Mfcc.compute
    rw [if_pos (hi.trans hb)]
  · intro hb k
    unfold Mfcc.setCoefficientCount
    rw [if_pos (hi.trans hb)]

/-- The rejection of a short frame by the filterbank is not passed on: `Mfcc::Compute` returns a vector
of zeros for it, instead of leaving the output alone or reporting an error. -/
theorem C63_short_frame_violation (m m' : Mfcc) (fft : ℕ) (rate : ℝ) (n k : ℕ)
    (hn : m.channelCount = n) (hk : m.coefficientCount = k) (h : m.init fft rate = .ok (m', true))
    (s out : List ℝ) (hs : (s.length : ℤ) ≤ m'.mel.stop) :
    m'.compute s out = .ok (List.replicate k 0) := by
  unfold Mfcc.init at h
  rw [hn, hk] at h
  simp only [bind, Except.bind] at h
  cases hm : m.mel.init fft rate n m.lower m.upper with
  | error e => rw [hm] at h; simp at h
  | ok r =>
    obtain ⟨mel, ok1⟩ := r
    rw [hm] at h
    simp only [pure, Except.pure, Except.ok.injEq, Prod.mk.injEq, Bool.and_eq_true] at h
    obtain ⟨h1, h2, h3⟩ := h
    subst h2
    unfold Mfcc.compute
    rw [C35_short m'.mel s [] hs, ← h1]
    dsimp only
    rw [h3, if_neg (by simp)]
    simp only [bind, Except.bind, List.map_nil]
    rw [C36_transform m.dct n k h3]
    congr 1
    apply List.ext_getElem (by simp)
    intro i _ _
    simp [dct]

/-- A case that meets the hypotheses: the default parameters with a 257-bin spectrum at 16 kHz. -/
example (mel : Mel) (d : Dct) : ∃ m',
    (⟨mel, d, false, 20, 4000, 40, 13⟩ : Mfcc).init (257 : ℕ) 16000 = .ok (m', true) := by
  obtain ⟨m1, h1⟩ := (C35_accepts mel 257 16000 40 20 4000).2 (by norm_num) (by norm_num) (by norm_num)
  have h2 := (C36_accepts d 40 13).2 (by norm_num)
  unfold Mfcc.init
  have h1' : mel.init ((257 : ℕ) : ℤ) 16000 40 20 4000 = .ok (m1, true) := by exact_mod_cast h1
  simp only [bind, Except.bind, h1']
  rw [h2]
  exact ⟨_, rfl⟩

end Verif.Mfcc
