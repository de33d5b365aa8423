import Verif.Proof.IirDesign3

/-!
# Biquads from sorted roots, and the four designs from a prototype
-/

namespace Verif.IirDesign
open Verif.PortableComplex Spec
open scoped ComplexConjugate

/-- Taking the roots two at a time from the end gives conjugate pairs or pairs of real numbers. -/
def Good (a : ℕ → CD) : ℕ → Prop
  | 0 => True
  | 1 => (a 0).imag = 0
  | d + 2 => (((a (d + 1)).imag = 0 ∧ (a d).imag = 0) ∨ a d = PortableComplex.conj (a (d + 1))) ∧ Good a d

theorem paired_even {l : List CD} (h : Paired l) : l.length % 2 = 0 := by
  induction h with
  | nil => rfl
  | cons r l _ _ ih => simp only [List.length_cons]; omega

theorem paired_get {l : List CD} (h : Paired l) (i : ℕ) (z : CD) (hz : l[2 * i + 1]? = some z) :
    l[2 * i]? = some (PortableComplex.conj z) := by
  induction h generalizing i with
  | nil => simp at hz
  | cons r l _ _ ih =>
    cases i with
    | zero =>
      simp at hz ⊢
      rw [hz]
    | succ i =>
      have e1 : 2 * (i + 1) + 1 = (2 * i + 1) + 1 + 1 := by ring
      have e2 : 2 * (i + 1) = (2 * i) + 1 + 1 := by ring
      rw [e1, List.getElem?_cons_succ, List.getElem?_cons_succ] at hz
      rw [e2, List.getElem?_cons_succ, List.getElem?_cons_succ]
      exact ih i hz

theorem good_of_sorted {a : ℕ → CD} {n : ℕ} (h : SortedRoots a n) : Good a n := by
  obtain ⟨reals, others, hl, hr, -, hp, -⟩ := h
  have hlen : n = reals.length + others.length := by
    have := congrArg List.length hl
    simpa using this
  have hev := paired_even hp
  have hget : ∀ j < n, (reals ++ others)[j]? = some (a j) := by
    intro j hj
    rw [← hl, List.getElem?_map, List.getElem?_range hj]
    rfl
  have key : ∀ d, d ≤ n → d % 2 = n % 2 → Good a d := by
    intro d
    induction d using Nat.strongRecOn with
    | ind d ih =>
      intro hd hmod
      match d, ih, hd, hmod with
      | 0, _, _, _ => exact trivial
      | 1, _, hd, hmod =>
        have h1 : 0 < reals.length := by omega
        have := hget 0 (by omega)
        rw [List.getElem?_append_left h1] at this
        exact hr _ (List.mem_of_getElem? this)
      | d + 2, ih, hd, hmod =>
        refine ⟨?_, ih d (by omega) (by omega) (by omega)⟩
        by_cases hlt : d < reals.length
        · left
          have h1 := hget (d + 1) (by omega)
          have h2 := hget d (by omega)
          rw [List.getElem?_append_left (by omega)] at h1 h2
          exact ⟨hr _ (List.mem_of_getElem? h1), hr _ (List.mem_of_getElem? h2)⟩
        · right
          obtain ⟨i, hi⟩ : ∃ i, d = reals.length + 2 * i := ⟨(d - reals.length) / 2, by omega⟩
          have h1 := hget (d + 1) (by omega)
          have h2 := hget d (by omega)
          rw [List.getElem?_append_right (by omega)] at h1 h2
          have e1 : d + 1 - reals.length = 2 * i + 1 := by omega
          have e2 : d - reals.length = 2 * i := by omega
          rw [e1] at h1
          rw [e2, paired_get hp i _ h1] at h2
          exact (Option.some.inj h2).symm
  exact key n le_rfl rfl

/-- One quadratic factor. -/
theorem factor_spec {a : ℕ → CD} {d : ℕ} (hd : 1 ≤ d) (h : Good a d) :
    (nextQuadraticFactor a ((d : ℤ) - 1)).2 = ((d - 2 : ℕ) : ℤ) - 1 ∧ Good a (d - 2) ∧
    (∀ z : ℂ, z ≠ 0 → ps (entries a d) z = ps (entries a (d - 2)) z * z ^ (d - (d - 2)) *
      (1 + ((nextQuadraticFactor a ((d : ℤ) - 1)).1.1 : ℂ) * z⁻¹
        + (nextQuadraticFactor a ((d : ℤ) - 1)).1.2 * z⁻¹ ^ 2)) ∧
    ∀ w : ℂ, w ^ 2 + (nextQuadraticFactor a ((d : ℤ) - 1)).1.1 * w + (nextQuadraticFactor a ((d : ℤ) - 1)).1.2 = 0 →
      w = 0 ∨ w ∈ entries a d := by
  match d, hd, h with
  | 1, _, h =>
    have h1 : (a 0).val = ((a 0).real : ℂ) := by
      apply Complex.ext
      · rfl
      · exact h
    have e : nextQuadraticFactor a (((1 : ℕ) : ℤ) - 1) = ((-(a 0).real, 0), -1) := by
      rw [nextQuadraticFactor, if_neg (by simp), if_pos (by simp)]
      rfl
    rw [e]
    refine ⟨by simp, trivial, ?_, ?_⟩
    · intro z hz
      simp [entries, h1]
      field_simp
      ring
    · intro w hw
      have h2 : w * (w - (a 0).real) = 0 := by
        push_cast at hw
        linear_combination hw
      rcases mul_eq_zero.1 h2 with h2 | h2
      · exact Or.inl h2
      · right
        simp [entries, h1]
        exact sub_eq_zero.1 h2
  | d + 2, _, h =>
    obtain ⟨h1, h2⟩ := h
    have e : nextQuadraticFactor a (((d + 2 : ℕ) : ℤ) - 1) = ((-(a (d + 1)).real - (a d).real,
        (a (d + 1)).real * (a d).real - (a (d + 1)).imag * (a d).imag), (d : ℤ) - 1) := by
      have e1 : ((d + 2 : ℕ) : ℤ) - 1 = ((d + 1 : ℕ) : ℤ) := by push_cast; ring
      have e2 : ((d + 1 : ℕ) : ℤ) - 1 = (d : ℤ) := by push_cast; ring
      rw [e1, nextQuadraticFactor, if_neg (by omega), if_neg (by omega), Int.toNat_natCast, e2, Int.toNat_natCast]
      push_cast
      ring_nf
    have s1 : ((-(a (d + 1)).real - (a d).real : ℝ) : ℂ) = -((a (d + 1)).val + (a d).val) := by
      apply Complex.ext
      · simp [CD.val]; ring
      · rcases h1 with h1 | h1
        · simp [CD.val, h1.1, h1.2]
        · rw [h1]; simp [CD.val, PortableComplex.conj]
    have s2 : (((a (d + 1)).real * (a d).real - (a (d + 1)).imag * (a d).imag : ℝ) : ℂ)
        = (a (d + 1)).val * (a d).val := by
      apply Complex.ext
      · simp [CD.val]
      · rcases h1 with h1 | h1
        · simp [CD.val, h1.1, h1.2]
        · rw [h1]; simp [CD.val, PortableComplex.conj]; ring
    rw [e]
    dsimp only
    rw [s1, s2]
    have e3 : d + 2 - 2 = d := by omega
    have e4 : d + 2 - d = 2 := by omega
    rw [e3, e4]
    refine ⟨rfl, h2, ?_, ?_⟩
    · intro z hz
      rw [show d + 2 = d + 1 + 1 by rfl, entries_succ, entries_succ, ps_append, ps_append, ps_cons, ps_cons, ps_nil]
      field_simp
      ring
    · intro w hw
      right
      have h3 : (w - (a (d + 1)).val) * (w - (a d).val) = 0 := by linear_combination hw
      rw [show d + 2 = d + 1 + 1 by rfl, entries_succ, entries_succ]
      rcases mul_eq_zero.1 h3 with h3 | h3
      · rw [sub_eq_zero.1 h3]; simp
      · rw [sub_eq_zero.1 h3]; simp

theorem entries_sub {a : ℕ → CD} {d : ℕ} {w : ℂ} (h : w ∈ entries a (d - 2)) : w ∈ entries a d := by
  obtain ⟨i, hi, rfl⟩ := List.mem_map.1 h
  exact mem_entries (by have := List.mem_range.1 hi; omega)

theorem biquadsLoop_spec (f : Zpk) (d : ℕ) : Good f.zeros d → Good f.poles d →
    (biquadsLoop f ((d + 1) / 2) ((d : ℤ) - 1) ((d : ℤ) - 1)).length = (d + 1) / 2 ∧
    (∀ z : ℂ, z ≠ 0 → (∀ p ∈ entries f.poles d, p ≠ z) →
      transfer (biquadsLoop f ((d + 1) / 2) ((d : ℤ) - 1) ((d : ℤ) - 1)) z
        = (if d = 0 then 1 else (f.gain : ℂ)) * ps (entries f.zeros d) z / ps (entries f.poles d) z) ∧
    ∀ c ∈ biquadsLoop f ((d + 1) / 2) ((d : ℤ) - 1) ((d : ℤ) - 1), ∀ w : ℂ, w ^ 2 + c.a1 * w + c.a2 = 0 →
      w = 0 ∨ w ∈ entries f.poles d := by
  induction d using Nat.strongRecOn with
  | ind d ih =>
    intro hz hp
    rcases Nat.eq_zero_or_pos d with rfl | hd
    · refine ⟨rfl, ?_, ?_⟩
      · intro z _ _
        simp [biquadsLoop, transfer, entries]
      · intro c hc
        simp [biquadsLoop] at hc
    · obtain ⟨z1, z2, z3, -⟩ := factor_spec hd hz
      obtain ⟨p1, p2, p3, p4⟩ := factor_spec hd hp
      obtain ⟨i1, i2, i3⟩ := ih (d - 2) (by omega) z2 p2
      have hk : (d + 1) / 2 = (d - 2 + 1) / 2 + 1 ∨ d = 1 := by omega
      have hk' : (d + 1) / 2 = ((d + 1) / 2 - 1) + 1 := by omega
      have hk2 : (d + 1) / 2 - 1 = (d - 2 + 1) / 2 ∨ (d = 1) := by omega
      have hrest : biquadsLoop f ((d + 1) / 2 - 1) (((d - 2 : ℕ) : ℤ) - 1) (((d - 2 : ℕ) : ℤ) - 1)
          = biquadsLoop f ((d - 2 + 1) / 2) (((d - 2 : ℕ) : ℤ) - 1) (((d - 2 : ℕ) : ℤ) - 1) := by
        congr 1
        omega
      have e : biquadsLoop f ((d + 1) / 2) ((d : ℤ) - 1) ((d : ℤ) - 1) =
          ⟨1 * (if (d + 1) / 2 - 1 = 0 then f.gain else 1),
            (nextQuadraticFactor f.zeros ((d : ℤ) - 1)).1.1 * (if (d + 1) / 2 - 1 = 0 then f.gain else 1),
            (nextQuadraticFactor f.zeros ((d : ℤ) - 1)).1.2 * (if (d + 1) / 2 - 1 = 0 then f.gain else 1),
            (nextQuadraticFactor f.poles ((d : ℤ) - 1)).1.1, (nextQuadraticFactor f.poles ((d : ℤ) - 1)).1.2⟩ ::
          biquadsLoop f ((d - 2 + 1) / 2) (((d - 2 : ℕ) : ℤ) - 1) (((d - 2 : ℕ) : ℤ) - 1) := by
        conv_lhs => rw [hk', biquadsLoop]
        rw [← hrest, z1, p1]
      rw [e]
      refine ⟨?_, ?_, ?_⟩
      · rw [List.length_cons, i1]
        omega
      · intro z hz0 hne
        have hne' : ∀ p ∈ entries f.poles (d - 2), p ≠ z := fun p hp => hne p (entries_sub hp)
        have hI := i2 z hz0 hne'
        have hT : ∀ (c : Coeffs) (l : List Coeffs), transfer (c :: l) z
            = ((c.b0 : ℂ) + c.b1 * z⁻¹ + c.b2 * z⁻¹ ^ 2) / (1 + c.a1 * z⁻¹ + c.a2 * z⁻¹ ^ 2) * transfer l z := by
          intro c l
          simp [transfer]
        rw [hT, hI]
        have n1 := ps_ne.2 hne
        have n2 := ps_ne.2 hne'
        rw [p3 z hz0] at n1
        rw [z3 z hz0, p3 z hz0, if_neg (by omega : ¬ d = 0)]
        have n3 : (1 + ((nextQuadraticFactor f.poles ((d : ℤ) - 1)).1.1 : ℂ) * z⁻¹
          + (nextQuadraticFactor f.poles ((d : ℤ) - 1)).1.2 * z⁻¹ ^ 2) ≠ 0 := right_ne_zero_of_mul n1
        have n4 : z ^ (d - (d - 2)) ≠ 0 := pow_ne_zero _ hz0
        generalize (1 + ((nextQuadraticFactor f.poles ((d : ℤ) - 1)).1.1 : ℂ) * z⁻¹
          + (nextQuadraticFactor f.poles ((d : ℤ) - 1)).1.2 * z⁻¹ ^ 2) = A at *
        have hg : (if (d + 1) / 2 - 1 = 0 then (f.gain : ℂ) else 1) * (if d - 2 = 0 then (1 : ℂ) else f.gain) = f.gain := by
          by_cases h : d - 2 = 0
          · rw [if_pos h, if_pos (by omega)]; ring
          · rw [if_neg h, if_neg (by omega)]; ring
        have hg2 : (((if (d + 1) / 2 - 1 = 0 then f.gain else 1 : ℝ)) : ℂ) = if (d + 1) / 2 - 1 = 0 then (f.gain : ℂ) else 1 := by
          split_ifs <;> simp
        simp only [Complex.ofReal_mul, hg2, Complex.ofReal_one]
        clear hg2
        generalize (if (d + 1) / 2 - 1 = 0 then (f.gain : ℂ) else 1) = g1 at *
        generalize (if d - 2 = 0 then (1 : ℂ) else (f.gain : ℂ)) = g2 at *
        rw [← hg]
        generalize ((nextQuadraticFactor f.zeros ((d : ℤ) - 1)).1.1 : ℂ) = B1
        generalize ((nextQuadraticFactor f.zeros ((d : ℤ) - 1)).1.2 : ℂ) = B2
        generalize ps (entries f.poles (d - 2)) z = P at *
        generalize ps (entries f.zeros (d - 2)) z = Z at *
        generalize z ^ (d - (d - 2)) = Q at *
        clear hI hT z3 p3 i2 i3 p4 ih z1 p1 e hrest i1
        field_simp
      · intro c hc w hw
        rcases List.mem_cons.1 hc with rfl | hc
        · exact p4 w hw
        · rcases i3 c hc w hw with h | h
          · exact Or.inl h
          · exact Or.inr (entries_sub h)

/-- `ZpkToBiquads` for as many zeros as poles. -/
theorem toBiquads_spec (q : QSort) (f : Zpk) {maxB : ℤ} (hn : f.numZeros = f.numPoles) (h1 : 1 ≤ f.numPoles)
    (hf : RealFilter f) (hc : ∀ r, r ∈ zeros f ∨ r ∈ poles f → Clear r) (hm : (((f.numPoles + 1) / 2 : ℕ) : ℤ) ≤ maxB) :
    ∃ cs, zpkToBiquads q f false maxB = .ok cs ∧ cs.length = (f.numPoles + 1) / 2 ∧
      (∀ z : ℂ, z ≠ 0 → (∀ p ∈ poles f, p ≠ z) → transfer cs z = system f z) ∧
      ∀ c ∈ cs, ∀ w : ℂ, w ^ 2 + c.a1 * w + c.a2 = 0 → w = 0 ∨ w ∈ poles f := by
  obtain ⟨z1, z2⟩ := rootsSort_spec q f.zeros f.numZeros fun r hr => hc r (Or.inl hr)
  obtain ⟨p1, p2⟩ := rootsSort_spec q f.poles f.numPoles fun r hr => hc r (Or.inr hr)
  obtain ⟨Z, hZ⟩ := z1.2 hf.1
  obtain ⟨P, hP⟩ := p1.2 hf.2
  obtain ⟨z3, z4⟩ := z2 Z hZ
  obtain ⟨p3, p4⟩ := p2 P hP
  have hsort : zpkSort q f = some { f with zeros := Z, poles := P } := by
    unfold zpkSort
    rw [hZ]
    dsimp only
    rw [hP]
  unfold zpkToBiquads
  rw [if_neg (by simp; omega), if_neg (by omega)]
  dsimp only
  have hdeg : (if f.numZeros > f.numPoles then f.numZeros else f.numPoles) = f.numPoles := by
    rw [if_neg (by omega)]
  rw [hdeg, if_neg (by omega), hsort]
  rw [hn] at z4
  obtain ⟨b1, b2, b3⟩ := biquadsLoop_spec { f with zeros := Z, poles := P } f.numPoles (good_of_sorted z4) (good_of_sorted p4)
  refine ⟨_, rfl, b1, ?_, ?_⟩
  · intro z hz hne
    rw [b2 z hz fun p hp => hne p ((p3.mem_iff).1 hp), if_neg (by omega), system_eq]
    rw [ps_perm p3]
    rw [hn] at z3
    rw [ps_perm z3]
    have e1 : zeros f = entries f.zeros f.numPoles := by rw [zeros, hn]
    rw [e1]
    rfl
  · intro c hc' w hw
    rcases b3 c hc' w hw with h | h
    · exact Or.inl h
    · exact Or.inr ((p3.mem_iff).1 h)

/-- The result of discretising the analog filter `f`. -/
structure Discretizes (cs : List Coeffs) (f : Zpk) (rate : ℝ) : Prop where
  count : cs.length = (f.numPoles + 1) / 2
  stable : Stable cs
  same : ∀ z : ℂ, z ≠ 0 → z ≠ -1 → (∀ p ∈ poles f, p ≠ ((2 * rate : ℝ) : ℂ) * (z - 1) / (z + 1)) →
    transfer cs z = system f (((2 * rate : ℝ) : ℂ) * (z - 1) / (z + 1))

theorem bl_ne {K : ℝ} {r z : ℂ} (hr : r ≠ K) (hz : z ≠ -1) (h : r ≠ (K : ℂ) * (z - 1) / (z + 1)) :
    bl K r ≠ z := by
  intro h0
  apply h
  have hz1 : z + 1 ≠ 0 := fun h => hz (by linear_combination h)
  have h1 : (K : ℂ) - r ≠ 0 := sub_ne_zero.2 hr.symm
  rw [bl, div_eq_iff h1] at h0
  rw [eq_div_iff hz1]
  linear_combination h0

theorem discretize_spec (q : QSort) (f : Zpk) {rate : ℝ} {maxB : ℤ} (hr : 0 < rate) (hf : RealFilter f)
    (hn : f.numZeros ≤ f.numPoles) (h1 : 1 ≤ f.numPoles)
    (hz : ∀ r ∈ zeros f, r.re ≤ 0) (hp : ∀ r ∈ poles f, r.re < 0)
    (hc : ∀ r, r ∈ zeros f ∨ r ∈ poles f → Clear (bl (2 * rate) r))
    (hm : (((f.numPoles + 1) / 2 : ℕ) : ℤ) ≤ maxB) :
    ∃ cs, discretizeToBiquads q f rate false maxB = .ok cs ∧ Discretizes cs f rate := by
  have hK : ∀ r, r ∈ zeros f ∨ r ∈ poles f → r ≠ ((2 * rate : ℝ) : ℂ) := by
    intro r h h0
    have hre : r.re = 2 * rate := by rw [h0]; exact Complex.ofReal_re _
    rcases h with h | h
    · linarith [hz r h]
    · linarith [hp r h]
  obtain ⟨g, g0, g1, g2, g3, g4, g5⟩ := bilinear_spec f rate hr hf hK
  rw [max_eq_right hn] at g3 g4
  rw [Nat.sub_eq_zero_of_le hn, List.replicate_zero, List.append_nil] at g2
  have g2' : poles g = (poles f).map (bl (2 * rate)) ++ List.replicate (f.numZeros - f.numPoles) (-1) := by
    rw [g2, Nat.sub_eq_zero_of_le hn, List.replicate_zero, List.append_nil]
  have hclear : ∀ r, r ∈ zeros g ∨ r ∈ poles g → Clear r := by
    intro r h
    rw [g1, g2, List.mem_append] at h
    rcases h with (h | h) | h
    · obtain ⟨s, hs, rfl⟩ := List.mem_map.1 h
      exact hc s (Or.inl hs)
    · rw [List.eq_of_mem_replicate h]
      left
      simp
    · obtain ⟨s, hs, rfl⟩ := List.mem_map.1 h
      exact hc s (Or.inr hs)
  have hreal := bilinear_realFilter f g rate hf g1 g2'
  obtain ⟨cs, c1, c2, c3, c4⟩ := toBiquads_spec q g (maxB := maxB) (by rw [g3, g4]) (by omega) hreal hclear (by rw [g4]; exact hm)
  refine ⟨cs, ?_, ?_, ?_, ?_⟩
  · unfold discretizeToBiquads
    rw [g0]
    exact c1
  · rw [c2, g4]
  · intro c hc' w hw
    rcases c4 c hc' w hw with h | h
    · rw [h]; simp
    · rw [g2] at h
      obtain ⟨s, hs, rfl⟩ := List.mem_map.1 h
      exact bl_disc (by linarith) (hp s hs)
  · intro z hz0 hz1 hne
    rw [c3 z hz0, bilinear_system f g rate hK g1 g2' g5 hz1]
    intro p hp'
    rw [g2] at hp'
    obtain ⟨s, hs, rfl⟩ := List.mem_map.1 hp'
    exact bl_ne (hK s (Or.inr hs)) hz1 (hne s hs)

/-! ### Failure -/

theorem toBiquads_error (q : QSort) (f : Zpk) {isNull : Bool} {maxB : ℤ} (h1 : 1 ≤ f.numPoles)
    (h : isNull = true ∨ maxB < (((f.numPoles + 1) / 2 : ℕ) : ℤ)) : zpkToBiquads q f isNull maxB = .error .fail := by
  unfold zpkToBiquads
  by_cases h0 : isNull = true ∨ maxB ≤ 0
  · rw [if_pos h0]
  · rw [if_neg h0, if_neg (by omega)]
    dsimp only
    rw [if_pos]
    push Not at h0
    have : maxB < (((f.numPoles + 1) / 2 : ℕ) : ℤ) := h.resolve_left h0.1
    split_ifs <;> omega

theorem discretize_error (q : QSort) (f : Zpk) {rate : ℝ} {isNull : Bool} {maxB : ℤ} (h1 : 1 ≤ f.numPoles)
    (h : isNull = true ∨ maxB < (((f.numPoles + 1) / 2 : ℕ) : ℤ)) :
    discretizeToBiquads q f rate isNull maxB = .error .fail := by
  unfold discretizeToBiquads zpkBilinearTransform
  by_cases h0 : rate > 0
  · rw [if_neg (not_not.2 h0)]
    apply toBiquads_error
    · dsimp only
      split_ifs <;> omega
    · dsimp only
      rcases h with h | h
      · exact Or.inl h
      · right
        split_ifs <;> omega
  · rw [if_pos h0]

end Verif.IirDesign
