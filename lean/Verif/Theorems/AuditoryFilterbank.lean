import Verif.Proof.AuditoryFilterbank4

/-!
# C78, C79: the auditory cascade filterbank

Only the definitions of `Verif.Model.AuditoryFilterbank` and `Verif.Spec.AuditoryFilterbank` are needed to read the
statements (and `Usable`: the checked parameters with a first pole below the Nyquist frequency).
-/

namespace Verif.AuditoryFilterbank
open Verif.BiquadCascade Verif.FilterDesign Verif.BiquadAnalysis Verif.Stream Verif.LinearFilter.Spec

variable {C : ℕ}

/-! ## C78: design -/

/-- No feed-forward polynomial but the last is taken for one of a lower order by `Simplify`. -/
def Numerators (cs : List (Stage ℝ)) : Prop :=
  ∀ k, k + 1 < cs.length → 1 / 10 ^ 10 < |(cs.getD k Spec.noStage).b.getD 2 0|

/-- What `Init` leaves, seen through the accessors: the coefficients `cs`, a channel for every visible stage (and only for
those), with the peak, the ERB and the sampling rate of that stage. -/
structure Shows (p : Params) (allow : Bool) (rate : ℝ) (N : ℕ) (cs : List (Stage ℝ)) (peaks : List ℝ) (b : Bank C) :
    Prop where
  coeffs : b.coeffs = cs
  size : ∀ channel, channel < b.size ↔ Spec.Visible p.selection N channel
  peak : ∀ channel < b.size, b.peak channel = some (peaks.getD (Spec.stageOf p.selection channel) 0)
  bandwidth : ∀ channel < b.size,
    b.bandwidth channel = some (Spec.erb (Spec.freq p rate (Spec.stageOf p.selection channel)))
  rates : ∀ channel < b.size, b.rate channel = some (Spec.rateOf p allow rate (Spec.stageOf p.selection channel))

/-- After `Init`. -/
theorem init_shows {p : Params} {allow : Bool} {rate : ℝ} (hu : Usable p allow rate) {N : ℕ} (hN : Spec.IsCount p rate N)
    (hf : p.selection.useAll = false → p.selection.first < N) {cs : List (Stage ℝ)} {peaks : List ℝ}
    (hlen : cs.length = N) (h : Good p allow rate cs peaks) (hb : Numerators cs) :
    ∃ b : Bank C, (Bank.new p allow : Bank C).init rate = .ok b ∧ Shows p allow rate N cs peaks b ∧ b.params = p ∧
      b.allow = allow ∧ b.peaks = peaks ∧
      (0 < N → Rep b (cellsOf C p allow rate cs)) ∧
      ∀ channel < b.size, b.exposed[channel]? = some (Spec.stageOf p.selection channel) := by
  obtain ⟨l, hl, hl'⟩ := select_spec hu.ok N hf
  have hi := init_ok (C := C) hu.ok hN hlen h (by rw [← hlen]; exact hb) hl
  obtain ⟨b, hb'⟩ : ∃ b : Bank C, b = ⟨p, allow, peaks, (List.range N).map fun k => Spec.erb (Spec.freq p rate k), cs,
        cs.map fun c => (filterOf c, fun _ => Biquad.resetState), (List.range N).map (Spec.rateOf p allow rate),
        List.replicate N [], List.replicate N 0,
        ((List.range N).filter (decimated p allow rate)).map fun _ => false, l⟩ := ⟨_, rfl⟩
  rw [← hb'] at hi
  have hsize : ∀ channel, channel < b.size ↔ Spec.Visible p.selection N channel := by
    intro c
    have : c < b.size ↔ ∃ m, l[c]? = some m := by
      rw [hb']
      show c < l.length ↔ _
      constructor
      · intro h; exact ⟨_, List.getElem?_eq_getElem h⟩
      · rintro ⟨m, hm⟩; exact (List.getElem?_eq_some_iff.1 hm).1
    rw [this]
    constructor
    · rintro ⟨m, hm⟩; exact ((hl' c m).1 hm).1
    · intro h; exact ⟨_, (hl' c _).2 ⟨h, rfl⟩⟩
  have hex : ∀ channel < b.size, b.exposed[channel]? = some (Spec.stageOf p.selection channel) := by
    intro c hc
    rw [hb']
    exact (hl' c _).2 ⟨(hsize c).1 hc, rfl⟩
  have hst : ∀ channel < b.size, Spec.stageOf p.selection channel < N := fun c hc => ((hsize c).1 hc).1
  refine ⟨b, hi, ⟨by rw [hb'], hsize, ?_, ?_, ?_⟩, by rw [hb'], by rw [hb'], by rw [hb'], ?_, hex⟩
  · intro c hc
    have h1 := hst c hc
    unfold Bank.peak
    rw [hex c hc]
    show b.peaks[_]? = _
    rw [hb']
    show peaks[_]? = _
    rw [List.getD_eq_getElem _ _ (by rw [h.1]; omega), List.getElem?_eq_getElem]
  · intro c hc
    have h1 := hst c hc
    unfold Bank.bandwidth
    rw [hex c hc]
    show b.bandwidths[_]? = _
    rw [hb']
    simp [h1]
  · intro c hc
    have h1 := hst c hc
    unfold Bank.rate
    rw [hex c hc]
    show b.rates[_]? = _
    rw [hb']
    simp [h1]
  · intro h0
    apply rep_init hu.ok.1 (by intro h; rw [h] at hlen; simp at hlen; omega)
    · rw [hb']
    · rw [hb', hlen]
    · rw [hb', hlen]
    · rw [hb', hlen]
    · intro i hi'
      rw [hb'] at hi'
      obtain ⟨c, hc, rfl⟩ := List.getElem_of_mem hi'
      have := (hl' c l[c]).1 (List.getElem?_eq_getElem hc)
      rw [this.2, hlen]
      exact this.1.1

/-- **C78.** For all parameters that `Init` accepts, with a first pole below the Nyquist frequency, there is a number of
stages with pole frequencies `step_erbs` ERBs apart from the highest one down to the minimum, and there are coefficients
and peaks as specified (`Spec.Designed`); unless `Simplify` takes one of the feed-forward polynomials for one of lower
order, `Init` leaves exactly these. -/
theorem C78_design {p : Params} {allow : Bool} {rate : ℝ} (hu : Usable p allow rate) :
    ∃ N, Spec.IsCount p rate N ∧ ∃ cs peaks, cs.length = N ∧ Spec.Designed p allow rate cs peaks ∧
      (Numerators cs → (p.selection.useAll = false → p.selection.first < N) →
        ∃ b : Bank C, (Bank.new p allow : Bank C).init rate = .ok b ∧ Shows p allow rate N cs peaks b) := by
  obtain ⟨N, -, hN⟩ := centers_spec (p := p) rate hu.ok.2.2.2.2.2.2.2.2.1 hu.ok.2.2.2.2.1
  obtain ⟨cs, peaks, hlen, h⟩ := good_exists hu N hN.1
  refine ⟨N, hN, cs, peaks, hlen, h.designed hu hN hlen, fun hb hf => ?_⟩
  obtain ⟨b, h1, h2, -⟩ := init_shows (C := C) hu hN hf hlen h hb
  exact ⟨b, h1, h2⟩

/-- **C78.** With few stages no polynomial is taken for one of lower order: `Init` returns. (The bound allows five stages
with the default `pole_zeta`.) -/
theorem C78_few_stages {p : Params} {allow : Bool} {rate : ℝ} (hu : Usable p allow rate) {N : ℕ}
    (hN : Spec.IsCount p rate N) (hf : p.selection.useAll = false → p.selection.first < N)
    (hfew : ∀ k, k + 1 < N → 1 / 10 ^ 10 < 2 * p.zeta / 25 * (4 * p.zeta ^ 2 / 15) ^ k) :
    ∃ (b : Bank C) (cs : List (Stage ℝ)) (peaks : List ℝ), (Bank.new p allow : Bank C).init rate = .ok b ∧ cs.length = N ∧
      Spec.Designed p allow rate cs peaks ∧ Shows p allow rate N cs peaks b := by
  obtain ⟨cs, peaks, hlen, h⟩ := good_exists hu N hN.1
  obtain ⟨b, h1, h2, -⟩ := init_shows (C := C) hu hN hf hlen h (by
    intro k hk
    have := h.numerators hu.ok.1 hu.ok.2.2.2.2.2.2.1 (by omega : k < cs.length)
    exact (hfew k (by omega)).trans_le (this.trans (le_abs_self _)))
  exact ⟨b, cs, peaks, h1, hlen, h.designed hu hN hlen, h2⟩

/-- **C78.** The parameters are checked. -/
theorem C78_checks (s : Bank C) {rate : ℝ} (h : ¬ s.params.Ok s.allow rate) : s.init rate = .error .check := by
  unfold Bank.init
  rw [if_neg h]

/-- **C78.** `Init` aborts if the first channel to show does not exist. -/
theorem C78_no_selection (s : Bank C) {rate : ℝ} {N : ℕ} (hN : Spec.IsCount s.params rate N)
    (ha : s.params.selection.useAll = false) (hf : N ≤ s.params.selection.first) (b : Bank C) : s.init rate ≠ .ok b := by
  unfold Bank.init
  split_ifs with hp
  · obtain ⟨M, hM, hM'⟩ := centers_spec (p := s.params) rate hp.2.2.2.2.2.2.2.2.1 hp.2.2.2.2.1
    obtain rfl := IsCount.unique hN hM'
    have hs : select s.params.selection N = .error .check := by
      unfold select
      have : ∀ c m : ℕ, ¬ (selectLoop s.params.selection.skip.toNat N (N + 1) s.params.selection.first.toNat
          s.params.selection.maxChannels.toNat)[c]? = some m := by
        intro c m h
        rw [selectLoop_spec _ _ (by have := (hp.2.2.2.2.2.2.2.2.2.1 ha).2.1; omega) _ _ _ (by omega)] at h
        have : 0 ≤ s.params.selection.skip.toNat * c := Nat.zero_le _
        omega
      have h0 : (selectLoop s.params.selection.skip.toNat N (N + 1) s.params.selection.first.toNat
          s.params.selection.maxChannels.toNat) = [] := by
        cases hl : (selectLoop s.params.selection.skip.toNat N (N + 1) s.params.selection.first.toNat
          s.params.selection.maxChannels.toNat) with
        | nil => rfl
        | cons m l =>
          exfalso
          apply this 0 m
          rw [hl]
          rfl
      simp [ha, h0]
    simp only [hM, List.length_map, List.length_range, hs]
    cases Bank.designLoop _ _ _ _ <;> simp
  · simp

/-! ### A concrete filterbank -/

/-- Two stages; the second one is shown, at half of the rate. -/
noncomputable def exampleParams : Params :=
  { highest := 100
    fraction := 0.85
    stepErbs := 1.9
    maxSamplesPerCycle := 12
    minRate := 600
    zeta := 0.15
    minPole := 30
    selection := ⟨false, 1, 1, 1⟩ }

theorem example_usable : Usable exampleParams true 1200 := by
  refine ⟨?_, Or.inl (by norm_num [exampleParams])⟩
  unfold Params.Ok exampleParams
  norm_num

theorem example_freq0 : Spec.freq exampleParams 1200 0 = 100 := by
  unfold Spec.freq exampleParams
  norm_num

theorem example_freq1 : Spec.freq exampleParams 1200 1 = 32.56159 := by
  rw [Spec.freq, example_freq0]
  unfold exampleParams Spec.erb
  norm_num

theorem example_count : Spec.IsCount exampleParams 1200 2 := by
  constructor
  · intro k hk
    have : k = 0 ∨ k = 1 := by omega
    rcases this with rfl | rfl
    · rw [example_freq0]; norm_num [exampleParams]
    · rw [example_freq1]; norm_num [exampleParams]
  · rw [Spec.freq, example_freq1]
    unfold exampleParams Spec.erb
    norm_num

theorem example_rate1 : Spec.rateOf exampleParams true 1200 1 = 600 := by
  rw [Spec.rateOf, if_pos]
  · rw [Spec.rateOf]; norm_num
  · rw [example_freq1, Spec.rateOf]
    unfold exampleParams
    norm_num

theorem example_few (k : ℕ) (hk : k + 1 < 2) :
    (1 : ℝ) / 10 ^ 10 < 2 * exampleParams.zeta / 25 * (4 * exampleParams.zeta ^ 2 / 15) ^ k := by
  obtain rfl : k = 0 := by omega
  norm_num [exampleParams]

theorem example_visible {channel : ℕ} : Spec.Visible exampleParams.selection 2 channel ↔ channel = 0 := by
  unfold Spec.Visible Spec.stageOf exampleParams
  simp

/-- `C78_few_stages` has instances, and so has `C78_design` with all its premises. -/
theorem example_init : ∃ (b : Bank C) (cs : List (Stage ℝ)) (peaks : List ℝ),
    (Bank.new exampleParams true : Bank C).init 1200 = .ok b ∧ cs.length = 2 ∧
      Spec.Designed exampleParams true 1200 cs peaks ∧ Shows exampleParams true 1200 2 cs peaks b :=
  C78_few_stages example_usable example_count (fun _ => by norm_num [exampleParams]) example_few

/-- **C78 violated**: the options are documented as showing the stages `m = first_channel + skip_every_n k` with
`m < max_channels`; here stage 1 is shown although `max_channels` is 1. -/
theorem C78_selection_violation : ∃ b : Bank C, (Bank.new exampleParams true : Bank C).init 1200 = .ok b ∧ b.size = 1 ∧
    b.bandwidth 0 = some (Spec.erb (Spec.freq exampleParams 1200 1)) ∧ exampleParams.selection.maxChannels = 1 ∧
    Spec.erb (Spec.freq exampleParams 1200 1) ≠ Spec.erb (Spec.freq exampleParams 1200 0) := by
  obtain ⟨b, cs, peaks, h1, h2, h3, h4⟩ := example_init (C := C)
  have hv : ∀ c, c < b.size ↔ c = 0 := fun c => (h4.size c).trans example_visible
  have hs : b.size = 1 := by
    have a := (hv 0).2 rfl
    have d : ¬ 1 < b.size := fun h => by have := (hv 1).1 h; omega
    omega
  refine ⟨b, h1, hs, h4.bandwidth 0 (by omega), rfl, ?_⟩
  rw [example_freq0, example_freq1]
  unfold Spec.erb
  norm_num

/-- **C78 violated**: `GetSampleRate()` is documented to be the rate passed to `Init` because "GetSampleRate(0) is equal to
the sample rate that was passed to Init()"; channel 0 need not be stage 0. -/
theorem C78_sample_rate_violation : ∃ b : Bank C, (Bank.new exampleParams true : Bank C).init 1200 = .ok b ∧
    b.rate 0 = some 600 := by
  obtain ⟨b, cs, peaks, h1, h2, h3, h4⟩ := example_init (C := C)
  have := h4.rates 0 ((h4.size 0).2 (example_visible.2 rfl))
  rw [show Spec.stageOf exampleParams.selection 0 = 1 from rfl, example_rate1] at this
  exact ⟨b, h1, this⟩

/-- **C78 violated**: the parameters document a decimation only "if the sample rate after decimation will be greater than
min_sample_rate"; here it is equal. -/
theorem C78_min_rate_violation : ∃ b : Bank C, (Bank.new exampleParams true : Bank C).init 1200 = .ok b ∧
    b.rate 0 = some 600 ∧ ¬ exampleParams.minRate < 600 := by
  obtain ⟨b, h1, h2⟩ := C78_sample_rate_violation (C := C)
  exact ⟨b, h1, h2, by norm_num [exampleParams]⟩

theorem designLoop_error {s : Bank C} {stage : ℕ} {rate pole : ℝ} {poles : List ℝ} {e : Err}
    (h : s.designStage stage rate pole = .error e) : s.designLoop stage rate (pole :: poles) = .error e := by
  rw [Bank.designLoop, h]

/-- **C78 violated**: a second `Init` reads beyond the end of the sampling rates, because the coefficients of the first one
are still there. For every filterbank with few stages. -/
theorem C78_second_init_violation {p : Params} {allow : Bool} {rate : ℝ} (hu : Usable p allow rate) {N : ℕ}
    (hN : Spec.IsCount p rate N) (h0 : 0 < N) (hf : p.selection.useAll = false → p.selection.first < N)
    (hfew : ∀ k < N, 1 / 10 ^ 10 < 2 * p.zeta / 25 * (4 * p.zeta ^ 2 / 15) ^ k) :
    ∃ b : Bank C, (Bank.new p allow : Bank C).init rate = .ok b ∧ b.init rate = .error .outOfBounds := by
  obtain ⟨h1, h2, h3, h4, h5, h6, h7, h8, h9, -, -⟩ := id hu.ok
  obtain ⟨cs, peaks, hlen, h⟩ := good_exists hu N hN.1
  have hnum : ∀ k < N, 1 / 10 ^ 10 < |(cs.getD k Spec.noStage).b.getD 2 0| := by
    intro k hk
    have := h.numerators hu.ok.1 hu.ok.2.2.2.2.2.2.1 (by omega : k < cs.length)
    exact (hfew k (by omega)).trans_le (this.trans (le_abs_self _))
  obtain ⟨b, e1, e2, e3, e4, -⟩ := init_shows (C := C) hu hN hf hlen h fun k hk => hnum k (by omega)
  refine ⟨b, e1, ?_⟩
  obtain ⟨M, hM, hM'⟩ := centers_spec (p := p) rate h9 h5
  obtain rfl := IsCount.unique hN hM'
  obtain ⟨n, rfl⟩ : ∃ n, N = n + 1 := ⟨N - 1, by omega⟩
  unfold Bank.init
  rw [if_pos (by rw [e3, e4]; exact hu.ok)]
  simp only [e3, hM]
  rw [List.range_eq_range', List.range'_succ, List.map_cons, List.map_cons, List.map_cons]
  obtain ⟨r, m1, m2⟩ := resonator_spec h7 h8 (h9.trans (hN.1 0 h0)) hu.first
  have hs : simplify (1 / 10 ^ 10) (cs ++ [r]) = some (cs ++ [r]) := by
    apply simplify_id
    intro c hc
    rw [List.mem_append, List.mem_singleton] at hc
    rcases hc with hc | rfl
    · obtain ⟨k, hk, rfl⟩ := List.getElem_of_mem hc
      obtain ⟨r', g', hg'⟩ := h.2 k hk
      have i1 := hnum k (by omega)
      have i2 := hg'.lens.2.2.2.1
      rw [List.getD_eq_getElem _ _ hk] at i1 i2
      refine ⟨i1, ?_⟩
      rw [abs_of_pos (by linarith)]
      exact lt_of_lt_of_le (by norm_num) i2
    · have i1 := m2.b2
      have i2 := m2.a2
      constructor
      · rw [abs_of_pos (by linarith)]
        exact lt_of_lt_of_le (by norm_num) i1
      · rw [abs_of_pos (by linarith)]
        exact lt_of_lt_of_le (by norm_num) i2
  have hd : decimateFirst p b.allow 0 rate (Spec.freq p rate 0) = false := by simp [decimateFirst]
  have : ∀ s : Bank C, s.params = p → s.allow = b.allow → s.coeffs = cs → s.rates = [] →
      s.designStage 0 rate (Spec.freq p rate 0) = .error .outOfBounds := by
    intro s s1 s2 s3 s4
    unfold Bank.designStage
    simp only [s1, s2, hd, Bool.false_eq_true, if_false, m1, s3, s4, appendBiquad, hs, List.nil_append, List.length_singleton,
      List.length_append, hlen]
    rw [if_pos (by omega)]
  rw [designLoop_error (this _ ?_ ?_ ?_ ?_)]
  · rfl
  · rfl
  · exact e2.coeffs
  · rfl

example : ∃ b : Bank C, (Bank.new exampleParams true : Bank C).init 1200 = .ok b ∧ b.init 1200 = .error .outOfBounds :=
  C78_second_init_violation example_usable example_count (by norm_num) (fun _ => by norm_num [exampleParams]) (by
    intro k hk
    have : k = 0 ∨ k = 1 := by omega
    rcases this with rfl | rfl <;> norm_num [exampleParams])

/-- **C78 violated**: with the default parameters and a rate of 60 Hz `Init` succeeds without a single stage; every
`ProcessBlock` then accesses the first one. -/
theorem C78_no_stages_violation (x : List (Fin C → ℝ)) : ∃ b : Bank C,
    (Bank.new Params.default true : Bank C).init 60 = .ok b ∧ b.size = 0 ∧ b.process x = .error .outOfBounds := by
  have hu : Usable Params.default true 60 := by
    refine ⟨?_, Or.inl (by norm_num [Params.default])⟩
    unfold Params.Ok Params.default
    norm_num
  have hN : Spec.IsCount Params.default 60 0 := by
    refine ⟨by simp, ?_⟩
    unfold Spec.freq Params.default
    norm_num
  have hi := init_ok (C := C) (cs := []) (peaks := []) (l := []) hu.ok hN rfl ⟨rfl, by simp⟩ (by simp) rfl
  exact ⟨_, hi, rfl, rfl⟩

/-- **C78 violated**: `max_pole_nyquist_fraction = 1` passes the checks "to prevent violating the Nyquist sampling
criterion"; the first pole is then at the Nyquist frequency and the design of the first stage aborts. -/
theorem C78_nyquist_violation {p : Params} {allow : Bool} {rate : ℝ} (hp : p.Ok allow rate) (hf : p.fraction = 1)
    (hh : rate / 2 ≤ p.highest) (hm : p.minPole < rate / 2) : (Bank.new p allow : Bank C).init rate = .error .check := by
  obtain ⟨h1, h2, h3, h4, h5, h6, h7, h8, h9, -, -⟩ := id hp
  have hfirst : Spec.freq p rate 0 = rate / 2 := by
    show min p.highest (p.fraction * rate / 2) = _
    rw [hf, one_mul, min_eq_right hh]
  obtain ⟨N, hM, hN⟩ := centers_spec (p := p) rate h9 h5
  obtain ⟨n, rfl⟩ : ∃ n, N = n + 1 := by
    cases N with
    | zero => exact absurd hN.2 (by rw [hfirst]; exact not_le.2 hm)
    | succ n => exact ⟨n, rfl⟩
  unfold Bank.init
  rw [if_pos (show (Bank.new p allow : Bank C).params.Ok (Bank.new p allow : Bank C).allow rate from hp)]
  simp only [show (Bank.new p allow : Bank C).params = p from rfl, hM]
  rw [List.range_eq_range', List.range'_succ, List.map_cons, List.map_cons, List.map_cons]
  have hr : resonator p rate (rate / 2) = none := by
    unfold resonator bilinearTransform
    rw [if_neg]
    rintro ⟨-, -, h⟩
    linarith
  have : ∀ s : Bank C, s.params = p → s.designStage 0 rate (Spec.freq p rate 0) = .error .check := by
    intro s s1
    unfold Bank.designStage
    have hd : decimateFirst p s.allow 0 rate (Spec.freq p rate 0) = false := by simp [decimateFirst]
    simp only [s1, hd, Bool.false_eq_true, if_false]
    rw [hfirst, hr]
  rw [designLoop_error (this _ rfl)]

example : (Bank.new { Params.default with fraction := 1 } true : Bank C).init 8000 = .error .check := by
  apply C78_nyquist_violation
  · unfold Params.Ok Params.default
    norm_num
  · rfl
  · norm_num [Params.default]
  · norm_num [Params.default]

/-! ## C79: processing -/

theorem chain_unique : ∀ {stages : List (Stage ℝ × Bool)} {x : List ℝ} {ys zs : List (List ℝ)},
    (∀ c ∈ stages, ∃ a0 as, c.1.a = a0 :: as ∧ a0 ≠ 0) → Spec.Chain stages x ys → Spec.Chain stages x zs → ys = zs
  | [], _, _, _, _, h1, h2 => by
    rw [Spec.Chain] at h1 h2
    rw [h1, h2]
  | (c, d) :: rest, x, ys, zs, h, ⟨y, ys', e1, d1, c1⟩, ⟨z, zs', e2, d2, c2⟩ => by
    obtain ⟨a0, as, ea, ha⟩ := h (c, d) (by simp)
    obtain rfl := DiffEq.unique ea (isUnit_iff_ne_zero.2 ha) d1 d2
    obtain rfl := chain_unique (fun c' hc' => h c' (by simp [hc'])) c1 c2
    rw [e1, e2]

/-- **C79.** After `Init`, for all parameters as in C78, all inputs of any number of microphones and all ways to cut them
into blocks: `ProcessBlock` returns, and the concatenated output of each channel is, for each microphone, the first
difference of the output of its stage, where the stages form a chain of filters with the designed coefficients, each
filtering the output of the one before (every other sample of it where the rate is halved). The chain determines its
signals. -/
theorem C79_output {p : Params} {allow : Bool} {rate : ℝ} (hu : Usable p allow rate) {N : ℕ} (hN : Spec.IsCount p rate N)
    (h0 : 0 < N) (hf : p.selection.useAll = false → p.selection.first < N) :
    ∃ cs peaks, cs.length = N ∧ Spec.Designed p allow rate cs peaks ∧
      (Numerators cs → ∃ b : Bank C, (Bank.new p allow : Bank C).init rate = .ok b ∧ b.coeffs = cs ∧
        ∀ channel, Spec.Visible p.selection N channel → ∀ blocks, ∃ b' outs,
          b.run channel blocks = .ok (b', outs) ∧ outs.length = blocks.length ∧
          ∀ mic, ∃ ys, Spec.Chain (Spec.stages p allow rate cs) (blocks.flatten.map (· mic)) ys ∧
            (∀ zs, Spec.Chain (Spec.stages p allow rate cs) (blocks.flatten.map (· mic)) zs → zs = ys) ∧
            outs.flatten.map (· mic) = Spec.difference (ys.getD (Spec.stageOf p.selection channel) [])) := by
  obtain ⟨cs, peaks, hlen, h⟩ := good_exists hu N hN.1
  refine ⟨cs, peaks, hlen, h.designed hu hN hlen, fun hb => ?_⟩
  obtain ⟨b, e1, e2, -, -, -, e3, e4⟩ := init_shows (C := C) hu hN hf hlen h hb
  refine ⟨b, e1, e2.coeffs, fun channel hv blocks => ?_⟩
  obtain ⟨b', outs, r1, -, -, r2, r3⟩ := Rep.run blocks (e3 h0) (e4 channel ((e2.size channel).2 hv))
  refine ⟨b', outs, r1, r2, fun mic => ?_⟩
  obtain ⟨ys, c1, c2⟩ := chain_spec mic (Spec.stages p allow rate cs) blocks.flatten (by
    intro c hc
    obtain ⟨k, hk, rfl⟩ := List.mem_map.1 hc
    obtain ⟨r, g, hg⟩ := h.2 k (by simpa using hk)
    exact ⟨hg.lens.1, hg.lens.2.1, hg.lens.2.2.1⟩)
  refine ⟨ys, c1, fun zs hz => chain_unique ?_ hz c1, ?_⟩
  · intro c hc
    obtain ⟨k, hk, rfl⟩ := List.mem_map.1 hc
    obtain ⟨r, g, hg⟩ := h.2 k (by simpa using hk)
    have hl := hg.lens
    dsimp only
    match (cs.getD k noStage).a, hl.2.1, hl.2.2.1 with
    | [a0, a1, a2], _, h1 =>
      refine ⟨a0, [a1, a2], rfl, ?_⟩
      have : a0 = 1 := h1
      rw [this]; norm_num
  rw [r3]
  have hl := congrArg (fun l : List (List ℝ) => l.getD (Spec.stageOf p.selection channel) []) c2
  have e5 : ∀ (l : List (List (Fin C → ℝ))) (n : ℕ), (l.map (List.map (· mic))).getD n [] = (l.getD n []).map (· mic) := by
    intro l n
    rw [List.getD_eq_getElem?_getD, List.getD_eq_getElem?_getD, List.getElem?_map]
    cases l[n]? <;> rfl
  have e6 : ∀ (l : List (List ℝ)) (n : ℕ), (l.map Spec.difference).getD n [] = Spec.difference (l.getD n []) := by
    intro l n
    rw [List.getD_eq_getElem?_getD, List.getD_eq_getElem?_getD, List.getElem?_map]
    cases l[n]? <;> rfl
  rw [e5, e6] at hl
  exact hl

theorem fresh_reset (c : Stage ℝ) (d : Bool) : (fresh c d : Cell C).reset = fresh c d := by
  cases d <;> rfl

/-- **C79.** `Reset` after any input brings back the behaviour after `Init`, for all channels and inputs. -/
theorem C79_reset {p : Params} {allow : Bool} {rate : ℝ} (hu : Usable p allow rate) {N : ℕ} (hN : Spec.IsCount p rate N)
    (h0 : 0 < N) (hf : p.selection.useAll = false → p.selection.first < N) :
    ∃ cs peaks, cs.length = N ∧ Spec.Designed p allow rate cs peaks ∧
      (Numerators cs → ∃ b : Bank C, (Bank.new p allow : Bank C).init rate = .ok b ∧ b.coeffs = cs ∧
        ∀ channel, Spec.Visible p.selection N channel → ∀ channel' before b' outs, b.run channel' before = .ok (b', outs) →
          Spec.Visible p.selection N channel' → ∀ blocks,
          ∃ b1 b2 outs1 outs2, b'.reset.run channel blocks = .ok (b1, outs1) ∧ b.run channel blocks = .ok (b2, outs2) ∧
            outs1.flatten = outs2.flatten) := by
  obtain ⟨cs, peaks, hlen, h⟩ := good_exists hu N hN.1
  refine ⟨cs, peaks, hlen, h.designed hu hN hlen, fun hb => ?_⟩
  obtain ⟨b, e1, e2, -, -, -, e3, e4⟩ := init_shows (C := C) hu hN hf hlen h hb
  refine ⟨b, e1, e2.coeffs, fun channel hv channel' before b' outs hrun hv' blocks => ?_⟩
  have hc := e4 channel ((e2.size channel).2 hv)
  obtain ⟨b'', outs', r1, r2, r3, -, -⟩ := Rep.run before (e3 h0) (e4 channel' ((e2.size channel').2 hv'))
  rw [r1, Except.ok.injEq, Prod.mk.injEq] at hrun
  obtain ⟨rfl, rfl⟩ := hrun
  have hrep := r2.reset
  rw [reset_shapes (chainBlock_shape _ _)] at hrep
  have hfresh : (cellsOf C p allow rate cs).map Cell.reset = cellsOf C p allow rate cs := by
    unfold cellsOf
    rw [List.map_map]
    apply List.map_congr_left
    intro c _
    exact fresh_reset c.1 c.2
  rw [hfresh] at hrep
  obtain ⟨b1, outs1, q1, -, -, -, q2⟩ := Rep.run blocks hrep (show b''.reset.exposed[channel]? = _ by
    show b''.exposed[channel]? = _
    rw [r3]; exact hc)
  obtain ⟨b2, outs2, s1, -, -, -, s2⟩ := Rep.run blocks (e3 h0) hc
  exact ⟨b1, b2, outs1, outs2, q1, s1, q2.trans s2.symm⟩

/-- The hypotheses of C79 hold for the example: the second stage of `exampleParams`, here for one block of two microphones. -/
example : ∃ (b : Bank 2) (b' : Bank 2) (outs : List (List (Fin 2 → ℝ))),
    (Bank.new exampleParams true : Bank 2).init 1200 = .ok b ∧
      b.run 0 [[fun _ => 1, fun i => i], [fun _ => 2]] = .ok (b', outs) ∧ outs.length = 2 := by
  obtain ⟨cs, peaks, hlen, h⟩ := good_exists example_usable 2 example_count.1
  have hb : Numerators cs := by
    intro k hk
    have := h.numerators example_usable.ok.1 example_usable.ok.2.2.2.2.2.2.1 (by omega : k < cs.length)
    exact (example_few k (by omega)).trans_le (this.trans (le_abs_self _))
  obtain ⟨b, e1, e2, -, -, -, e3, e4⟩ := init_shows (C := 2) example_usable example_count
    (fun _ => by norm_num [exampleParams]) hlen h hb
  obtain ⟨b', outs, r1, -, -, r2, -⟩ := Rep.run [[fun _ => 1, fun i => i], [fun _ => 2]] (e3 (by norm_num))
    (e4 0 ((e2.size 0).2 (example_visible.2 rfl)))
  exact ⟨b, b', outs, e1, r1, by rw [r2]; rfl⟩

end Verif.AuditoryFilterbank
