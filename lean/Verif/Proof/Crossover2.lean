import Verif.Proof.Butterworth2

/-! # Doubling a cascade, gains of Butterworth designs -/

namespace Verif.PoleZero
open Verif.BiquadCascade Verif.FilterDesign Verif.LinearFilter.Spec Spec Finset
open scoped ComplexConjugate

/-! ### Appending to a cascade with at most one first-order stage -/

theorem findPair_eq_none' {ε : ℝ} {l1 l2 l3 : List (List ℝ)} (hl : l2.length ≤ 1)
    (h1 : ∀ p ∈ l1, isFirstOrder ε p = false) (h3 : ∀ p ∈ l3, isFirstOrder ε p = false) :
    findPair ε (l1 ++ l2 ++ l3) = none := by
  cases hf : findPair ε (l1 ++ l2 ++ l3) with
  | none => rfl
  | some ij =>
    obtain ⟨i, j⟩ := ij
    obtain ⟨hij, p, p', hp, hp', e1, e2⟩ := findPair_some hf
    have key : ∀ k q, (l1 ++ l2 ++ l3)[k]? = some q → isFirstOrder ε q = true →
        l1.length ≤ k ∧ k < l1.length + l2.length := by
      intro k q hk hq
      refine ⟨?_, ?_⟩
      · by_contra hlt
        push Not at hlt
        rw [List.append_assoc, List.getElem?_append_left hlt] at hk
        rw [h1 q (List.mem_of_getElem? hk)] at hq
        exact absurd hq (by simp)
      · by_contra hge
        push Not at hge
        rw [List.getElem?_append_right (by simpa using hge)] at hk
        rw [h3 q (List.mem_of_getElem? hk)] at hq
        exact absurd hq (by simp)
    have a1 := key i p hp e1
    have a2 := key j p' hp' e2
    omega

theorem append_plain {ε : ℝ} {acc tail : List (Stage ℝ)} {acc2 : List (Stage ℝ)} {s : Stage ℝ}
    (hl : tail.length ≤ 1)
    (h : ∀ t ∈ acc, Second ε t.b ∧ Second ε t.a) (h2 : ∀ t ∈ acc2, Second ε t.b ∧ Second ε t.a)
    (ht : ∀ t ∈ tail, isZeroOrder ε t.b = false) (hs : Second ε s.b ∧ Second ε s.a) :
    appendBiquad ε (acc ++ tail ++ acc2) s = some (acc ++ tail ++ (acc2 ++ [s])) := by
  unfold appendBiquad simplify
  rw [List.append_assoc (acc ++ tail)]
  have h2' : ∀ t ∈ acc2 ++ [s], Second ε t.b ∧ Second ε t.a := by
    intro t ht'
    rcases List.mem_append.1 ht' with h' | h'
    · exact h2 t h'
    · rw [List.mem_singleton.1 h']; exact hs
  obtain ⟨acc3, hacc3⟩ : ∃ x, x = acc2 ++ [s] := ⟨_, rfl⟩
  rw [← hacc3] at h2' ⊢
  have f1 : findPair ε ((acc ++ tail ++ acc3).map (·.b)) = none := by
    rw [List.map_append, List.map_append]
    apply findPair_eq_none'
    · simpa using hl
    · intro p hp
      obtain ⟨t, ht, rfl⟩ := List.mem_map.1 hp
      exact (h t ht).1.not_first
    · intro p hp
      obtain ⟨t, ht, rfl⟩ := List.mem_map.1 hp
      exact (h2' t ht).1.not_first
  have f2 : findPair ε ((acc ++ tail ++ acc3).map (·.a)) = none := by
    rw [List.map_append, List.map_append]
    apply findPair_eq_none'
    · simpa using hl
    · intro p hp
      obtain ⟨t, ht, rfl⟩ := List.mem_map.1 hp
      exact (h t ht).2.not_first
    · intro p hp
      obtain ⟨t, ht, rfl⟩ := List.mem_map.1 hp
      exact (h2' t ht).2.not_first
  rw [mergeFirstOrder_none f1, mergeFirstOrder_none f2]
  simp only [Option.bind_eq_bind, Option.bind_some]
  rw [zipWith_stage]
  have f3 : findZeroOrder ε (acc ++ tail ++ acc3) = none := by
    cases hf : findZeroOrder ε (acc ++ tail ++ acc3) with
    | none => rfl
    | some ij =>
      obtain ⟨sa, sb, _, hb, _, hz⟩ := findZeroOrder_some (ia := ij.1) (ib := ij.2) hf
      rcases List.mem_append.1 (List.mem_of_getElem? hb) with hm | hm
      · rcases List.mem_append.1 hm with hm | hm
        · rw [(h sb hm).1.not_zero] at hz; simp at hz
        · rw [ht sb hm] at hz; simp at hz
      · rw [(h2' sb hm).1.not_zero] at hz; simp at hz
  have : ∀ n, mergeZeroOrder ε n (acc ++ tail ++ acc3) = acc ++ tail ++ acc3 := by
    intro n
    cases n with
    | zero => rfl
    | succ n => rw [mergeZeroOrder, f3]; simp
  rw [this]
  rfl

theorem doubleLoop_init {ε : ℝ} {init tail : List (Stage ℝ)} (hl : tail.length ≤ 1)
    (h : ∀ t ∈ init, Second ε t.b ∧ Second ε t.a) (ht : ∀ t ∈ tail, isZeroOrder ε t.b = false) (n : ℕ) :
    ∀ m i, i + m = init.length → doubleLoop ε (m + n) i (init ++ tail ++ init.take i)
      = doubleLoop ε n init.length (init ++ tail ++ init)
  | 0, i, hi => by
    rw [add_zero] at hi
    rw [zero_add, hi, List.take_length]
  | m + 1, i, hi => by
    have hlt : i < init.length := by omega
    rw [show m + 1 + n = (m + n) + 1 by omega, doubleLoop, List.append_assoc, List.getElem?_append_left hlt,
      List.getElem?_eq_getElem hlt]
    simp only []
    rw [← List.append_assoc, append_plain hl h (fun t ht' => h t (List.mem_of_mem_take ht')) ht
      (h _ (List.getElem_mem hlt))]
    simp only []
    rw [List.take_concat_get' _ _ hlt]
    exact doubleLoop_init hl h ht n m (i + 1) (by omega)

/-- Doubling squares the transfer function. -/
theorem double_spec {ε δ : ℝ} (h0 : 0 ≤ ε) (hδ : ε ≤ δ) (hεδ : ε ≤ δ * δ) {init tail : List (Stage ℝ)}
    (hl : tail.length ≤ 1) (h : ∀ t ∈ init, Second ε t.b ∧ Second ε t.a) (hv : ∀ t ∈ init, t.Valid)
    (ht : ∀ t ∈ tail, isZeroOrder ε t.b = false) (hg : ∀ t ∈ tail, GoodStage ε δ t) (hne : init ++ tail ≠ []) :
    ∃ cs', doubleLoop ε (init ++ tail).length 0 (init ++ tail) = some cs' ∧
      (cs' ≠ [] ∧ (tail = [] → cs'.length = 2 * init.length ∧ ∀ t ∈ cs', t ∈ init)) ∧ (∀ t ∈ cs', GoodStage ε δ t) ∧
      ∀ z : ℂ, z ≠ 0 → evalCascade Complex.ofRealHom cs' z = evalCascade Complex.ofRealHom (init ++ tail) z ^ 2 := by
  have hvt : ∀ t ∈ init ++ tail, t.Valid := by
    intro t ht'
    rcases List.mem_append.1 ht' with h' | h'
    · exact hv t h'
    · exact (hg t h').valid
  have hgi : ∀ t ∈ init, GoodStage ε δ t := by
    intro t ht'
    obtain ⟨v1, v2, v3⟩ := hv t ht'
    refine ⟨⟨v1, Or.inl (h t ht').1⟩, ⟨v2, Or.inl (h t ht').2⟩, v3, ?_, ?_⟩
    · intro hz; rw [(h t ht').1.not_zero] at hz; simp at hz
    · intro hz; rw [(h t ht').2.not_zero] at hz; simp at hz
  have e := doubleLoop_init hl h ht tail.length init.length 0 (by simp)
  rw [List.take_zero, List.append_nil, ← List.length_append] at e
  rw [e]
  match tail, hl, hg, hvt, hne with
  | [], _, _, hvt, hne =>
    rw [List.append_nil] at *
    refine ⟨init ++ init, rfl, ⟨by simpa using hne, fun _ => ⟨by simp; omega, by simp⟩⟩, by simpa using hgi, fun z hz => ?_⟩
    rw [evalCascade_numDen _ (by simpa using hv) z hz, evalCascade_numDen _ hv z hz]
    simp only [numAt, denAt, List.map_append, List.prod_append]
    rw [div_pow, pow_two, pow_two]
  | [s], _, hg, hvt, _ =>
    have hall : ∀ t ∈ init ++ [s] ++ init, GoodStage ε δ t := by
      intro t ht'
      rcases List.mem_append.1 ht' with h' | h'
      · rcases List.mem_append.1 h' with h' | h'
        · exact hgi t h'
        · exact hg t h'
      · exact hgi t h'
    obtain ⟨cs', e1, n1, g1, c, hc, hw⟩ := append_spec h0 hδ hεδ (init ++ [s] ++ init) s hall (hg s (by simp))
    refine ⟨cs', ?_, ⟨n1, by simp⟩, g1, fun z hz => ?_⟩
    · show doubleLoop ε 1 init.length (init ++ [s] ++ init) = some cs'
      rw [doubleLoop, List.append_assoc, List.getElem?_append_right le_rfl, Nat.sub_self]
      simp only [List.singleton_append, List.getElem?_cons_zero]
      rw [List.append_assoc, List.singleton_append] at e1
      rw [e1]
      rfl
    · rw [evalCascade_numDen _ (fun t ht' => (g1 t ht').valid) z hz, evalCascade_numDen _ hvt z hz]
      obtain ⟨u1, u2⟩ := hw z⁻¹
      have hcc : (c : ℂ) ≠ 0 := by exact_mod_cast hc
      rw [← mul_div_mul_left _ _ hcc, ← u1, ← u2]
      simp only [numAt, denAt, List.map_append, List.prod_append, List.map_cons, List.map_nil, List.prod_cons,
        List.prod_nil, mul_one]
      rw [div_pow]
      congr 1 <;> ring

/-! ### Gains -/

theorem bw_bounds (N : ℕ) {x y : ℝ} (hx : 0 < x) (hy : 0 ≤ y) :
    x ^ N ≤ ‖bw N x y‖ ∧ ‖bw N x y‖ ≤ (x + y) ^ N := by
  have hN : ∀ c : ℝ, c ^ N = (if N % 2 = 1 then c else 1) * (c ^ 2) ^ (N / 2) := by
    intro c
    split_ifs with h
    · rw [← pow_mul, ← pow_succ']; congr 1; omega
    · rw [← pow_mul, one_mul]; congr 1; omega
  rw [bw_expand, norm_mul, norm_prod, hN, hN]
  have hpole : ∀ p : ℂ, p.re < 0 → ‖p‖ = 1 → x ≤ ‖(x : ℂ) - p * y‖ ∧ ‖(x : ℂ) - p * y‖ ≤ x + y := by
    intro p hp hn
    refine ⟨?_, ?_⟩
    · refine le_trans ?_ (Complex.re_le_norm _)
      simp
      nlinarith
    · refine (norm_sub_le _ _).trans ?_
      rw [norm_mul, hn, Complex.norm_real, Complex.norm_real, one_mul, Real.norm_of_nonneg hx.le,
        Real.norm_of_nonneg hy]
  have hfac : ∀ i ∈ range (N / 2), x ^ 2 ≤ ‖((x : ℂ) - butterworthPole N i * y) * (x - conj (butterworthPole N i) * y)‖ ∧
      ‖((x : ℂ) - butterworthPole N i * y) * (x - conj (butterworthPole N i) * y)‖ ≤ (x + y) ^ 2 := by
    intro i hi
    have hr : (butterworthPole N i).re < 0 := bw_re_neg (Finset.mem_range.1 hi)
    have hn : ‖butterworthPole N i‖ = 1 := by
      have := butter_norm N i
      rw [Complex.mul_conj, Complex.normSq_eq_norm_sq] at this
      have h2 : ‖butterworthPole N i‖ ^ 2 = 1 := by exact_mod_cast this
      exact (pow_eq_one_iff_of_nonneg (norm_nonneg _) two_ne_zero).1 h2
    obtain ⟨a1, a2⟩ := hpole _ hr hn
    obtain ⟨b1, b2⟩ := hpole (conj (butterworthPole N i)) (by simpa using hr) (by rw [RCLike.norm_conj, hn])
    rw [norm_mul, pow_two, pow_two]
    exact ⟨mul_le_mul a1 b1 hx.le (norm_nonneg _), mul_le_mul a2 b2 (norm_nonneg _) (by positivity)⟩
  have h1 : (if N % 2 = 1 then x else 1) ≤ ‖(if N % 2 = 1 then (x : ℂ) + y else 1)‖ ∧
      ‖(if N % 2 = 1 then (x : ℂ) + y else 1)‖ ≤ (if N % 2 = 1 then x + y else 1) := by
    split_ifs
    · rw [← Complex.ofReal_add, Complex.norm_real, Real.norm_of_nonneg (by positivity)]
      exact ⟨by linarith, le_rfl⟩
    · simp
  have p1 : (x ^ 2) ^ (N / 2) = ∏ _i ∈ range (N / 2), x ^ 2 := by rw [Finset.prod_const, Finset.card_range]
  have p2 : ((x + y) ^ 2) ^ (N / 2) = ∏ _i ∈ range (N / 2), (x + y) ^ 2 := by
    rw [Finset.prod_const, Finset.card_range]
  refine ⟨?_, ?_⟩
  · rw [p1]
    refine mul_le_mul h1.1 (Finset.prod_le_prod (fun _ _ => by positivity) fun i hi => (hfac i hi).1) ?_
      (norm_nonneg _)
    exact Finset.prod_nonneg fun _ _ => by positivity
  · rw [p2]
    refine mul_le_mul h1.2 (Finset.prod_le_prod (fun _ _ => norm_nonneg _) fun i hi => (hfac i hi).2) ?_ ?_
    · exact Finset.prod_nonneg fun _ _ => norm_nonneg _
    · split_ifs <;> positivity

theorem norm_eval (f : PZ) (s : ℂ) : ‖f.eval s‖ = ‖analogSystem f s‖ := by
  have neg : ∀ lone paired, rootProd (fun r => r - s) lone paired
      = (-1) ^ (lone.length + 2 * paired.length) * rootProd (fun r => s - r) lone paired := by
    intro lone paired
    rw [← rootProd_neg]
    congr 1; funext r; ring
  rw [eval_eq, analog_eq, neg, neg]
  simp only [norm_div, norm_mul, norm_pow, norm_neg, norm_one, one_pow, one_mul]

/-- Gain of the lowpass: `t^N / bw(1, t)`. -/
theorem lowpass_gain (N : ℕ) {rate corner : ℝ} (hr : 0 < rate) (h0 : 0 < corner) (h : corner < rate / 2) {t : ℝ}
    (ht : t = Real.tan (Real.pi * corner / rate)) (ht0 : 0 < t) :
    (lowpassPZ (butterworth N) rate corner).gain = t ^ N / ‖bw N 1 t‖ := by
  have hp := butterworth_prototype N
  have hK := computeK_pos hr (le_refl 0) (by linarith)
  have hKc : (computeK 0 rate : ℂ) ≠ 0 := by exact_mod_cast hK.ne'
  have hw : prewarp corner rate = computeK 0 rate * t := by
    rw [ht]; unfold prewarp computeK; rw [if_pos (by positivity)]
  have e1 : (lowpassPZ (butterworth N) rate corner).gain
      = 1 * ‖(lowpassAnalog (butterworth N) (prewarp corner rate)).eval (computeK 0 rate)‖ := rfl
  rw [e1, one_mul, norm_eval]
  have e2 := hom_eq_analog (lowpassAnalog (butterworth N) (prewarp corner rate))
    (by rw [lowpassAnalog_degree]; exact hp.degree) (computeK 0 rate : ℂ) 1 one_ne_zero
  rw [div_one] at e2
  rw [← e2, lowpassAnalog_hom hp.degree, butterworth_hom, hw, mul_one]
  push_cast
  have e3 : bw N (computeK 0 rate : ℂ) ((computeK 0 rate : ℂ) * t) = (computeK 0 rate : ℂ) ^ N * bw N 1 t := by
    rw [← bw_homogeneous, mul_one]
  rw [e3, mul_pow, mul_div_mul_left _ _ (pow_ne_zero N hKc), norm_div, norm_pow, Complex.norm_real,
    Real.norm_of_nonneg ht0.le]

/-- Gain of the highpass: `1 / bw(1, t)`. -/
theorem highpass_gain (N : ℕ) {rate corner : ℝ} (hr : 0 < rate) (h0 : 0 < corner) (h : corner < rate / 2) {t : ℝ}
    (ht : t = Real.tan (Real.pi * corner / rate)) :
    (highpassPZ (butterworth N) rate corner).gain = 1 / ‖bw N 1 t‖ := by
  have hp := butterworth_prototype N
  have hK := computeK_pos hr (le_refl 0) (by linarith)
  have hKc : (computeK 0 rate : ℂ) ≠ 0 := by exact_mod_cast hK.ne'
  have hw : prewarp corner rate = computeK 0 rate * t := by
    rw [ht]; unfold prewarp computeK; rw [if_pos (by positivity)]
  have e1 : (highpassPZ (butterworth N) rate corner).gain
      = 1 * ‖(highpassAnalog (butterworth N) (prewarp corner rate)).eval (computeK 0 rate)‖ := rfl
  rw [e1, one_mul, norm_eval]
  have e2 := hom_eq_analog (highpassAnalog (butterworth N) (prewarp corner rate))
    (by rw [highpassAnalog_degree hp.degree]) (computeK 0 rate : ℂ) 1 one_ne_zero
  rw [div_one] at e2
  rw [← e2, highpassAnalog_hom hp, butterworth_hom, hw, mul_one, bw_symm]
  push_cast
  have e3 : bw N (computeK 0 rate : ℂ) ((computeK 0 rate : ℂ) * t) = (computeK 0 rate : ℂ) ^ N * bw N 1 t := by
    rw [← bw_homogeneous, mul_one]
  rw [e3]
  have : (computeK 0 rate : ℂ) ^ N / ((computeK 0 rate : ℂ) ^ N * bw N 1 t) = 1 / bw N 1 t := by
    rw [div_mul_eq_div_div, div_self (pow_ne_zero N hKc)]
  rw [this, norm_div, norm_one]

theorem gain_lower (N : ℕ) {t : ℝ} (ht0 : 0 < t) :
    (t / (1 + t)) ^ N ≤ t ^ N / ‖bw N 1 t‖ ∧ (1 / (1 + t)) ^ N ≤ 1 / ‖bw N 1 t‖ := by
  have hb := bw_bounds N (x := 1) one_pos ht0.le
  rw [Complex.ofReal_one, one_pow] at hb
  have hpos : 0 < ‖bw N 1 (t : ℂ)‖ := by linarith [hb.1]
  rw [div_pow, div_pow, one_pow]
  exact ⟨div_le_div_of_nonneg_left (by positivity) hpos hb.2, div_le_div_of_nonneg_left zero_le_one hpos hb.2⟩

end Verif.PoleZero
