import Verif.Proof.IirDesign11

/-!
# C83, C84: zero-pole-gain filters of the portable IIR designs

C83: zero-pole-gain filters, their evaluation and transformations. C84: sorting and conversion to biquads.
-/

namespace Verif.IirDesign
open Verif.PortableComplex Verif.IirDesign.Spec
open scoped ComplexConjugate

/-- **C83.** `ZpkInit` gives the identity. -/
theorem C83_init (f : Zpk) (s : ℂ) : system (zpkInit f) s = 1 := by
  simp [system, zpkInit, zeros, poles, entries]

/-- **C83.** `ZpkEval` evaluates the system, at every frequency that is not a pole. -/
theorem C83_eval (f : Zpk) (s : CD) (h : ∀ p ∈ poles f, p ≠ s.val) : (zpkEval f s).val = system f s.val :=
  zpkEval_val f s h

/-- **C83.** `ZpkBilinearTransform` substitutes `s = 2 fs (z - 1) / (z + 1)`; a stable analog filter becomes a filter
with all poles inside the unit circle. -/
theorem C83_bilinear (f : Zpk) {rate : ℝ} (hr : 0 < rate) (hf : RealFilter f)
    (hK : ∀ r, r ∈ zeros f ∨ r ∈ poles f → r ≠ ((2 * rate : ℝ) : ℂ)) :
    ∃ g, zpkBilinearTransform f rate = .ok g ∧ RealFilter g ∧
      g.numZeros = max f.numZeros f.numPoles ∧ g.numPoles = max f.numZeros f.numPoles ∧
      (∀ z : ℂ, z ≠ -1 → system g z = system f (((2 * rate : ℝ) : ℂ) * (z - 1) / (z + 1))) ∧
      (f.numZeros ≤ f.numPoles → (∀ p ∈ poles f, p.re < 0) → ∀ p ∈ poles g, ‖p‖ < 1) := by
  obtain ⟨g, e, h1, h2, h3, h4, h5⟩ := bilinear_spec f rate hr hf hK
  refine ⟨g, e, bilinear_realFilter f g rate hf h1 h2, h3, h4, fun z hz => bilinear_system f g rate hK h1 h2 h5 hz, ?_⟩
  intro hn hs p hp
  rw [h2, Nat.sub_eq_zero_of_le hn, List.replicate_zero, List.append_nil] at hp
  obtain ⟨r, hr', rfl⟩ := List.mem_map.1 hp
  exact bl_disc (by positivity) (hs r hr')

/-- **C83.** It fails for a sampling rate that is not positive. -/
theorem C83_bilinear_failure (f : Zpk) {rate : ℝ} (hr : rate ≤ 0) : zpkBilinearTransform f rate = .error .fail := by
  rw [zpkBilinearTransform, if_pos (by push Not; exact hr)]

/-- **C83.** `ZpkAnalogPrototypeToLowpass` scales the frequency; counts, realness and stability are kept. -/
theorem C83_lowpass (f : Zpk) {c : ℝ} (hc : 0 < c) :
    (∀ s : ℂ, system (toLowpass f c) s = system f (s / c)) ∧
    (toLowpass f c).numZeros = f.numZeros ∧ (toLowpass f c).numPoles = f.numPoles ∧
    (RealFilter f → RealFilter (toLowpass f c)) ∧
    ((∀ p ∈ poles f, p.re < 0) → ∀ p ∈ poles (toLowpass f c), p.re < 0) := by
  refine ⟨toLowpass_system f hc.ne', rfl, rfl, toLowpass_real c, ?_⟩
  intro h p hp
  rw [toLowpass_poles] at hp
  obtain ⟨r, hr, rfl⟩ := List.mem_map.1 hp
  rw [mul_comm, Complex.re_ofReal_mul]
  exact mul_neg_of_pos_of_neg hc (h r hr)

/-- **C83.** `ZpkAnalogPrototypeToHighpass` inverts the frequency. -/
theorem C83_highpass {f : Zpk} {c : ℝ} (hc : 0 < c) (hf : RealFilter f) (hn : f.numZeros ≤ f.numPoles)
    (hz : ∀ r ∈ zeros f, r ≠ 0) (hp : ∀ r ∈ poles f, r.re < 0) :
    (∀ s : ℂ, s ≠ 0 → system (toHighpass f c) s = system f (c / s)) ∧
    (toHighpass f c).numZeros = f.numPoles ∧ (toHighpass f c).numPoles = f.numPoles ∧
    RealFilter (toHighpass f c) ∧ ∀ p ∈ poles (toHighpass f c), p.re < 0 := by
  have hp0 : ∀ r ∈ poles f, r ≠ 0 := by
    rintro r hr rfl
    exact absurd (hp 0 hr) (by simp)
  refine ⟨fun s hs => toHighpass_system c hf hn hz hp0 hs, ?_, rfl, toHighpass_real c hf hz hp0, ?_⟩
  · rw [toHighpass_numZeros, max_eq_right hn]
  · intro p h
    rw [toHighpass_poles c hp0] at h
    obtain ⟨r, hr, rfl⟩ := List.mem_map.1 h
    exact inv_left c hc (hp r hr)

/-- **C83.** `ZpkAnalogPrototypeToBandpass`, up to 15 poles. -/
theorem C83_bandpass {f : Zpk} {low high : ℝ} (hl : 0 < low) (hh : low < high) (hf : RealFilter f)
    (hn : f.numZeros ≤ f.numPoles) (h15 : f.numPoles ≤ 15) (hp : ∀ r ∈ poles f, r.re < 0) :
    (toBandpass f low high).2 = true ∧ RealFilter (toBandpass f low high).1 ∧
    (toBandpass f low high).1.numPoles = 2 * f.numPoles ∧
    (toBandpass f low high).1.numZeros = f.numPoles + f.numZeros ∧
    (∀ p ∈ poles (toBandpass f low high).1, p.re < 0) ∧
    ∀ s : ℂ, s ≠ 0 →
      system (toBandpass f low high).1 s = system f ((s ^ 2 + low * high) / (s * ((high : ℂ) - low))) := by
  obtain ⟨h1, h2, h3, h4, h5, -, h7⟩ := toBandpass_spec hl hh hf hn h15
  refine ⟨h1, h2, h3, h4, ?_, h7⟩
  intro r hr'
  obtain ⟨p, hpp, e⟩ := h5 r hr'
  refine ((quad_left (b := high - low) (c := low * high) (by linarith) (mul_pos hl (hl.trans hh)) ?_).1).2 (hp p hpp)
  rw [← e]; push_cast; ring

/-- **C83.** `ZpkAnalogPrototypeToBandstop`, up to 15 poles. -/
theorem C83_bandstop {f : Zpk} {low high : ℝ} (hl : 0 < low) (hh : low < high) (hf : RealFilter f)
    (hn : f.numZeros ≤ f.numPoles) (h15 : f.numPoles ≤ 15) (hz : ∀ r ∈ zeros f, r ≠ 0) (hp : ∀ r ∈ poles f, r.re < 0) :
    (toBandstop f low high).2 = true ∧ RealFilter (toBandstop f low high).1 ∧
    (toBandstop f low high).1.numPoles = 2 * f.numPoles ∧
    (toBandstop f low high).1.numZeros = 2 * f.numPoles ∧
    (∀ p ∈ poles (toBandstop f low high).1, p.re < 0) ∧
    ∀ s : ℂ, s ≠ 0 → s ^ 2 + low * high ≠ 0 →
      system (toBandstop f low high).1 s = system f (s * ((high : ℂ) - low) / (s ^ 2 + low * high)) := by
  have hp0 : ∀ r ∈ poles f, r ≠ 0 := by
    rintro r hr rfl
    exact absurd (hp 0 hr) (by simp)
  obtain ⟨h1, h2, h3, h4, h5, -, h7⟩ := toBandstop_spec hl hh hf hz hp0 hn h15
  refine ⟨h1, h2, h3, h4, ?_, h7⟩
  intro r hr'
  obtain ⟨p, hpp, e⟩ := h5 r hr'
  refine ((quad_left (q := p⁻¹) (b := high - low) (c := low * high) (by linarith) (mul_pos hl (hl.trans hh)) ?_).1).2 ?_
  · rw [← e]; push_cast; ring
  · rw [show p⁻¹ = ((1 : ℝ) : ℂ) / p by simp]
    exact inv_left 1 one_pos (hp p hpp)

/-- **C83.** With more than 15 poles both return 0. -/
theorem C83_band_failure {f : Zpk} (low high : ℝ) (h : 15 < f.numPoles) :
    (toBandpass f low high).2 = false ∧ (toBandstop f low high).2 = false := by
  constructor
  · rw [toBandpass_eq, shift_fails (halfBand f (high - low)) _ (Or.inr h)]
  · rw [toBandstop_eq, shift_fails (toHighpass f ((high - low) / 2)) _ (Or.inr h)]

/-- A first-order lowpass `1 / (s + 1)`. -/
def onePole : Zpk := ⟨fun _ => ⟨0, 0⟩, fun _ => ⟨-1, 0⟩, 0, 1, 1⟩

theorem onePole_real : RealFilter onePole ∧ zeros onePole = [] ∧ poles onePole = [-1] := by
  have h1 : zeros onePole = [] := rfl
  have h2 : poles onePole = [-1] := by
    show [(⟨-1, 0⟩ : CD).val] = [-1]
    rw [val_real]; simp
  refine ⟨⟨by rw [h1]; simp, by rw [h2]; simp⟩, h1, h2⟩

example : (∀ s : ℂ, s ≠ 0 → system (toHighpass onePole 3) s = system onePole ((3 : ℝ) / s)) ∧
    (toBandpass onePole 1 2).1.numPoles = 2 := by
  obtain ⟨h0, h1, h2⟩ := onePole_real
  have hp : ∀ r ∈ poles onePole, r.re < 0 := by
    intro r hr
    rw [h2, List.mem_singleton] at hr
    rw [hr]; simp
  refine ⟨(C83_highpass (c := 3) (by norm_num) h0 (Nat.zero_le _) (by rw [h1]; simp) hp).1, ?_⟩
  exact (C83_bandpass (low := 1) (high := 2) (by norm_num) (by norm_num) h0 (Nat.zero_le _) (by decide) hp).2.2.1

/-- **C84.** `ZpkSort` succeeds exactly if the roots are closed under conjugation. Then the roots are the same, and
sorted: first the real ones, then conjugate pairs, each by increasing real part. -/
theorem C84_sort (q : QSort) (f : Zpk) (hc : ∀ r, r ∈ zeros f ∨ r ∈ poles f → Clear r) :
    ((∃ g, zpkSort q f = some g) ↔ RealFilter f) ∧
    ∀ g, zpkSort q f = some g → g.numZeros = f.numZeros ∧ g.numPoles = f.numPoles ∧ g.gain = f.gain ∧
      (zeros g).Perm (zeros f) ∧ (poles g).Perm (poles f) ∧
      SortedRoots g.zeros g.numZeros ∧ SortedRoots g.poles g.numPoles := by
  obtain ⟨z1, z2⟩ := rootsSort_spec q f.zeros f.numZeros fun r hr => hc r (Or.inl hr)
  obtain ⟨p1, p2⟩ := rootsSort_spec q f.poles f.numPoles fun r hr => hc r (Or.inr hr)
  refine ⟨⟨?_, ?_⟩, ?_⟩
  · rintro ⟨g, hg⟩
    unfold zpkSort at hg
    cases hz : rootsSort q f.zeros f.numZeros with
    | none => rw [hz] at hg; simp at hg
    | some Z =>
      rw [hz] at hg
      dsimp only at hg
      cases hp : rootsSort q f.poles f.numPoles with
      | none => rw [hp] at hg; simp at hg
      | some P => exact ⟨z1.1 ⟨Z, hz⟩, p1.1 ⟨P, hp⟩⟩
  · rintro ⟨h1, h2⟩
    obtain ⟨Z, hZ⟩ := z1.2 h1
    obtain ⟨P, hP⟩ := p1.2 h2
    refine ⟨{ f with zeros := Z, poles := P }, ?_⟩
    unfold zpkSort
    rw [hZ]
    dsimp only
    rw [hP]
  · intro g hg
    unfold zpkSort at hg
    cases hz : rootsSort q f.zeros f.numZeros with
    | none => rw [hz] at hg; simp at hg
    | some Z =>
      rw [hz] at hg
      dsimp only at hg
      cases hp : rootsSort q f.poles f.numPoles with
      | none => rw [hp] at hg; simp at hg
      | some P =>
        rw [hp] at hg
        have := Option.some.inj hg
        subst this
        exact ⟨rfl, rfl, rfl, (z2 Z hz).1, (p2 P hp).1, (z2 Z hz).2, (p2 P hp).2⟩

/-- **C84.** `ZpkToBiquads`, if there are as many zeros as poles: `ceil(degree / 2)` biquads with the same response,
and with exactly the given poles (and possibly one at 0). -/
theorem C84_biquads_partial (q : QSort) (f : Zpk) {maxB : ℤ} (hn : f.numZeros = f.numPoles) (h1 : 1 ≤ f.numPoles)
    (hf : RealFilter f) (hc : ∀ r, r ∈ zeros f ∨ r ∈ poles f → Clear r)
    (hm : (((f.numPoles + 1) / 2 : ℕ) : ℤ) ≤ maxB) :
    ∃ cs, zpkToBiquads q f false maxB = .ok cs ∧ cs.length = (f.numPoles + 1) / 2 ∧
      (∀ z : ℂ, z ≠ 0 → (∀ p ∈ poles f, p ≠ z) → transfer cs z = system f z) ∧
      (∀ c ∈ cs, ∀ w : ℂ, w ^ 2 + c.a1 * w + c.a2 = 0 → w = 0 ∨ w ∈ poles f) ∧
      ∀ p ∈ poles f, ∃ c ∈ cs, p ^ 2 + c.a1 * p + c.a2 = 0 := by
  obtain ⟨cs, e, h2, h3, h4⟩ := toBiquads_spec q f hn h1 hf hc hm
  exact ⟨cs, e, h2, h3, h4, toBiquads_poles q f hn h1 hf hc hm e⟩

/-- **C84.** It fails if `coeffs` is `NULL` or too small. -/
theorem C84_biquads_failure (q : QSort) (f : Zpk) {isNull : Bool} {maxB : ℤ} (h1 : 1 ≤ f.numPoles)
    (h : isNull = true ∨ maxB < (((f.numPoles + 1) / 2 : ℕ) : ℤ)) : zpkToBiquads q f isNull maxB = .error .fail :=
  toBiquads_error q f h1 h

/-- One pole at 1/2, no zeros; `x` is what the unused entries of `zeros` hold. -/
noncomputable def stale (x : ℝ) : Zpk := ⟨fun _ => ⟨x, 0⟩, fun _ => ⟨1 / 2, 0⟩, 0, 1, 1⟩

theorem stale_sort (q : QSort) (x : ℝ) :
    ∃ P, zpkSort q (stale x) = some ⟨fun _ => ⟨x, 0⟩, P, 0, 1, 1⟩ ∧ P 0 = ⟨1 / 2, 0⟩ := by
  have hp0 : poles (stale x) = [((1 / 2 : ℝ) : ℂ)] := rfl
  have hz0 : zeros (stale x) = [] := rfl
  have hr : RealFilter (stale x) := by
    constructor
    · rw [hz0]; simp
    · rw [hp0, List.map_singleton, Complex.conj_ofReal]
  obtain ⟨h1, h2⟩ := C84_sort q (stale x) (by
    intro r hr'
    left
    rw [hz0, hp0] at hr'
    rcases hr' with hr' | hr'
    · exact absurd hr' List.not_mem_nil
    · rw [List.mem_singleton.1 hr', Complex.ofReal_im])
  obtain ⟨g, hg⟩ := h1.2 hr
  obtain ⟨a1, a2, a3, -, a5, -⟩ := h2 g hg
  have ez : g.zeros = fun _ => ⟨x, 0⟩ := by
    unfold zpkSort at hg
    cases hz : rootsSort q (stale x).zeros (stale x).numZeros with
    | none => rw [hz] at hg; simp at hg
    | some Z =>
      rw [hz] at hg
      dsimp only at hg
      cases hp : rootsSort q (stale x).poles (stale x).numPoles with
      | none => rw [hp] at hg; simp at hg
      | some P =>
        rw [hp] at hg
        rw [← Option.some.inj hg]
        dsimp only
        have hz' : rootsSort q (stale x).zeros 0 = some Z := hz
        have q0 : q.run [] = [] := List.perm_nil.1 (q.perm [])
        simp only [rootsSort, partitionLoop, List.range_zero, List.map_nil, q0, Nat.sub_zero, List.length_nil, pairLoop,
          List.append_nil, Option.some.injEq] at hz'
        rw [← hz']
        funext i
        simp [writeList, stale]
  refine ⟨g.poles, ?_, ?_⟩
  · rw [hg]
    congr 1
    obtain ⟨gz, gp, gn1, gn2, gg⟩ := g
    simp only at a1 a2 a3 ez ⊢
    rw [ez, a1, a2, a3]
    rfl
  · have e : poles g = [(g.poles 0).val] := by
      rw [poles, a2]; rfl
    rw [e, hp0] at a5
    exact CD.val_inj (by simpa [val_real] using a5)

/-- **C84, violated.** With fewer zeros than poles, `ZpkToBiquads` reads entries of `zeros` that are not zeros of the
filter: two `Zpk` that stand for the same system give different biquads (iir_design.c:467). -/
theorem C84_stale_violation (q : QSort) :
    (∀ s, system (stale 0) s = system (stale 5) s) ∧ zpkToBiquads q (stale 0) false 1 = .ok [⟨1, 0, 0, -(1 / 2), 0⟩] ∧
    zpkToBiquads q (stale 5) false 1 = .ok [⟨1, -5, 0, -(1 / 2), 0⟩] := by
  have key : ∀ x, zpkToBiquads q (stale x) false 1 = .ok [⟨1, -x, 0, -(1 / 2), 0⟩] := by
    intro x
    obtain ⟨P, h, hP⟩ := stale_sort q x
    unfold zpkToBiquads
    rw [if_neg (by simp), if_neg (by simp [stale])]
    dsimp only
    rw [h]
    simp [stale, biquadsLoop, nextQuadraticFactor, hP]
  refine ⟨fun s => rfl, ?_, ?_⟩
  · rw [key]; norm_num
  · rw [key]

/-- `qsort` exists: merge sort. -/
noncomputable def mergeSort : QSort where
  run l := l.mergeSort fun w z => decide (orderComplex w z ≤ 0)
  perm l := List.mergeSort_perm l _
  sorted l := by
    have := List.pairwise_mergeSort (le := fun w z => decide (orderComplex w z ≤ 0))
      (by
        intro a b c h1 h2
        rw [decide_eq_true_iff, order_le] at *
        rcases h1 with h1 | ⟨h1, h3⟩ <;> rcases h2 with h2 | ⟨h2, h4⟩
        · exact Or.inl (h1.trans h2)
        · exact Or.inl (by rw [← h2]; exact h1)
        · exact Or.inl (by rw [h1]; exact h2)
        · exact Or.inr ⟨h1.trans h2, h3.trans h4⟩)
      (by
        intro a b
        rw [Bool.or_eq_true, decide_eq_true_iff, decide_eq_true_iff, order_le, order_le]
        rcases lt_trichotomy a.real b.real with h | h | h
        · exact Or.inl (Or.inl h)
        · rcases le_total |a.imag| |b.imag| with h' | h'
          · exact Or.inl (Or.inr ⟨h, h'⟩)
          · exact Or.inr (Or.inr ⟨h.symm, h'⟩)
        · exact Or.inr (Or.inl h)) l
    refine this.imp ?_
    intro a b h
    exact of_decide_eq_true h

example : ∃ cs, zpkToBiquads mergeSort ⟨fun _ => ⟨-1, 0⟩, fun i => ⟨1 / 2, if i = 0 then 1 / 2 else -1 / 2⟩, 2, 2, 3⟩
    false 1 = .ok cs ∧ cs.length = 1 := by
  have hz : zeros ⟨fun _ => ⟨-1, 0⟩, fun i => ⟨1 / 2, if i = 0 then 1 / 2 else -1 / 2⟩, 2, 2, 3⟩
      = [(⟨-1, 0⟩ : CD).val, (⟨-1, 0⟩ : CD).val] := rfl
  have hp : poles ⟨fun _ => ⟨-1, 0⟩, fun i => ⟨1 / 2, if i = 0 then 1 / 2 else -1 / 2⟩, 2, 2, 3⟩
      = [(⟨1 / 2, 1 / 2⟩ : CD).val, (⟨1 / 2, -1 / 2⟩ : CD).val] := by simp [poles, entries, List.range_succ]
  obtain ⟨cs, h1, h2, -⟩ := C84_biquads_partial mergeSort
    ⟨fun _ => ⟨-1, 0⟩, fun i => ⟨1 / 2, if i = 0 then 1 / 2 else -1 / 2⟩, 2, 2, 3⟩ (maxB := 1) rfl (by norm_num)
    (by
      have c1 : conj (⟨-1, 0⟩ : CD).val = (⟨-1, 0⟩ : CD).val := by apply Complex.ext <;> simp [CD.val]
      have c2 : conj (⟨1 / 2, 1 / 2⟩ : CD).val = (⟨1 / 2, -1 / 2⟩ : CD).val := by
        apply Complex.ext <;> simp [CD.val]; norm_num
      constructor
      · rw [hz]; simp [c1]
      · rw [hp, List.map_cons, List.map_cons, List.map_nil, c2, ← c2, Complex.conj_conj]
        exact List.Perm.swap _ _ _)
    (by
      intro r hr
      rw [hz, hp] at hr
      simp only [List.mem_cons, List.not_mem_nil, or_false] at hr
      rcases hr with (rfl | rfl) | (rfl | rfl)
      · exact Or.inl rfl
      · exact Or.inl rfl
      · right
        have : ‖(⟨1 / 2, 1 / 2⟩ : CD).val‖ ≤ |(1 / 2 : ℝ)| + |(1 / 2 : ℝ)| := Complex.norm_le_abs_re_add_abs_im _
        have hi : |(⟨1 / 2, 1 / 2⟩ : CD).val.im| = 1 / 2 := by simp [CD.val]
        rw [hi]
        norm_num at this ⊢
        linarith
      · right
        have : ‖(⟨1 / 2, -1 / 2⟩ : CD).val‖ ≤ |(1 / 2 : ℝ)| + |(-1 / 2 : ℝ)| := Complex.norm_le_abs_re_add_abs_im _
        have hi : |(⟨1 / 2, -1 / 2⟩ : CD).val.im| = 1 / 2 := by simp [CD.val]; norm_num
        rw [hi]
        norm_num [abs_of_neg] at this ⊢
        linarith)
    (by norm_num)
  exact ⟨cs, h1, h2⟩

end Verif.IirDesign
