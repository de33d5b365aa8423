import Verif.Spec.AuditoryFilterbank
import Verif.Theorems.FilterDesign
import Verif.Theorems.BiquadAnalysis
import Verif.Theorems.Fir

/-! # Lemmas about the design of the auditory cascade filterbank -/

namespace Verif.AuditoryFilterbank
open Verif.BiquadCascade Verif.FilterDesign Verif.BiquadAnalysis

/-! ### Pole frequencies -/

theorem bandwidth_eq (hz : ℝ) : bandwidth hz = Spec.erb hz := by
  unfold bandwidth earQ breakHz Spec.erb
  field_simp
  ring

theorem erb_gt {hz : ℝ} (h : 0 < hz) : 24.7 < Spec.erb hz := by
  unfold Spec.erb
  nlinarith

/-- From frequency `k` on: with enough iterations the loop collects exactly the poles above the minimum. -/
theorem poleLoop_spec (p : Params) (rate : ℝ) (hm : 0 < p.minPole) (hs : 0 < p.stepErbs) :
    ∀ (n k : ℕ), Spec.freq p rate k ≤ n * (p.stepErbs * 24.7) → ∃ N,
      poleLoop p (n + 1) (Spec.freq p rate k) =
        (List.range N).map (fun j => (Spec.freq p rate (k + j), Spec.erb (Spec.freq p rate (k + j)))) ∧
      (∀ j < N, p.minPole < Spec.freq p rate (k + j)) ∧ Spec.freq p rate (k + N) ≤ p.minPole
  | n, k, h => by
    by_cases hk : p.minPole < Spec.freq p rate k
    · cases n with
      | zero => simp at h; linarith
      | succ n =>
        have hstep : p.stepErbs * 24.7 ≤ p.stepErbs * Spec.erb (Spec.freq p rate k) :=
          mul_le_mul_of_nonneg_left (erb_gt (by linarith)).le hs.le
        obtain ⟨N, h1, h2, h3⟩ := poleLoop_spec p rate hm hs n (k + 1) (by
          show Spec.freq p rate k - p.stepErbs * Spec.erb (Spec.freq p rate k) ≤ _
          push_cast at h
          linarith)
        refine ⟨N + 1, ?_, ?_, ?_⟩
        · rw [poleLoop, if_pos hk, bandwidth_eq]
          have : Spec.freq p rate k - p.stepErbs * Spec.erb (Spec.freq p rate k) = Spec.freq p rate (k + 1) := rfl
          rw [this, h1, List.range_succ_eq_map, List.map_cons, List.map_map]
          simp only [add_zero, List.cons.injEq, true_and]
          apply List.map_congr_left
          intro j _
          simp only [Function.comp]
          rw [show k + 1 + j = k + (j + 1) by ring]
        · intro j hj
          cases j with
          | zero => exact hk
          | succ j => rw [show k + (j + 1) = k + 1 + j by ring]; exact h2 j (by omega)
        · rw [show k + (N + 1) = k + 1 + N by ring]; exact h3
    · refine ⟨0, ?_, by simp, not_lt.1 hk⟩
      rw [poleLoop, if_neg hk]
      rfl

theorem centers_spec {p : Params} (rate : ℝ) (hm : 0 < p.minPole) (hs : 0 < p.stepErbs) : ∃ N,
    centers p rate = (List.range N).map (fun j => (Spec.freq p rate j, Spec.erb (Spec.freq p rate j))) ∧
      Spec.IsCount p rate N := by
  have hpos : 0 < p.stepErbs * 24.7 := by positivity
  obtain ⟨N, h1, h2, h3⟩ := poleLoop_spec p rate hm hs ⌈firstPole p rate / (p.stepErbs * 24.7)⌉₊ 0 (by
    have := Nat.le_ceil (firstPole p rate / (p.stepErbs * 24.7))
    rw [div_le_iff₀ hpos] at this
    exact this)
  simp only [zero_add] at h1 h2 h3
  exact ⟨N, h1, h2, h3⟩

theorem IsCount.unique {p : Params} {rate : ℝ} {M N : ℕ} (h1 : Spec.IsCount p rate M) (h2 : Spec.IsCount p rate N) :
    M = N := by
  rcases lt_trichotomy M N with h | h | h
  · exact absurd (h2.1 M h) (not_lt.2 h1.2)
  · exact h
  · exact absurd (h1.1 N h) (not_lt.2 h2.2)

/-! ### One resonator -/

theorem quad_bounds {z u : ℝ} (hz : 0 < z) (hz2 : z < 1 / 2) :
    (z / 3) ^ 2 * ((1 - u ^ 2) ^ 2 + (2 * z * u) ^ 2) ≤ (1 - u ^ 2 / 2) ^ 2 + (z * u) ^ 2 ∧
      (1 - u ^ 2 / 2) ^ 2 + (z * u) ^ 2 ≤ (5 / (4 * z)) ^ 2 * ((1 - u ^ 2) ^ 2 + (2 * z * u) ^ 2) := by
  have hz4 : z ^ 2 < 1 / 4 := by nlinarith
  have hz0 : 0 < z ^ 2 := by positivity
  have hu : 0 ≤ u ^ 2 := sq_nonneg u
  constructor
  · rw [show (z / 3) ^ 2 * ((1 - u ^ 2) ^ 2 + (2 * z * u) ^ 2) = z ^ 2 / 9 * ((1 - u ^ 2) ^ 2 + 4 * z ^ 2 * u ^ 2) by ring,
      show (z * u) ^ 2 = z ^ 2 * u ^ 2 by ring]
    generalize z ^ 2 = w at *
    generalize u ^ 2 = U at *
    have h1 : w / 9 * ((1 - U) ^ 2 + 4 * w * U) ≤ w / 9 * (1 + U) ^ 2 := by
      apply mul_le_mul_of_nonneg_left _ (by positivity)
      nlinarith
    have h2 : 0 ≤ (1 - 4 * w) * (1 - U / 2) ^ 2 := mul_nonneg (by linarith) (sq_nonneg _)
    have h3 : 0 ≤ 4 * w * (35 / 36 - 29 / 36 * U + 2 / 9 * U ^ 2) := by
      apply mul_nonneg (by linarith)
      nlinarith [sq_nonneg (U - 29 / 16)]
    nlinarith
  · rw [show (5 / (4 * z)) ^ 2 * ((1 - u ^ 2) ^ 2 + (2 * z * u) ^ 2) =
      (25 * ((1 - u ^ 2) ^ 2 + 4 * z ^ 2 * u ^ 2)) / (16 * z ^ 2) by field_simp; ring,
      show (z * u) ^ 2 = z ^ 2 * u ^ 2 by ring, le_div_iff₀ (by positivity)]
    generalize z ^ 2 = w at *
    generalize u ^ 2 = U at *
    have h2 : 0 ≤ (1 - 4 * w) * (25 * (1 - U) ^ 2) := mul_nonneg (by linarith) (by positivity)
    have h3 : 0 ≤ 4 * w * (21 - 22 * U + 24 * U ^ 2) := by
      apply mul_nonneg (by linarith)
      nlinarith [sq_nonneg (U - 11 / 24)]
    have h4 : 0 ≤ w * U * (1 - 4 * w) := by
      apply mul_nonneg (by positivity) (by linarith)
    nlinarith

/-- What `DesignDiscretizedResonator` gives. -/
structure Res (zeta rate pole : ℝ) (r : Stage ℝ) : Prop where
  lenB : r.b.length = 3
  lenA : r.a.length = 3
  a0 : r.a.getD 0 0 = 1
  stable : Stable r
  discretizes : ∃ K, Matches K pole rate ∧
    Discretizes r K fun s => 1 / 2 * Spec.resonator zeta (2 * Real.pi * pole) s
  b2 : 1 / 5 ≤ r.b.getD 2 0
  a2 : 1 / 3 ≤ r.a.getD 2 0
  gain : ∀ ω, 0 < ω → ω < Real.pi → zeta / 3 ≤ ‖response r ω‖ ∧ ‖response r ω‖ ≤ 5 / (4 * zeta)

theorem norm_quad (a b : ℝ) : ‖(a : ℂ) + (b : ℂ) * Complex.I‖ ^ 2 = a ^ 2 + b ^ 2 := by
  rw [← Complex.normSq_eq_norm_sq, Complex.normSq_apply]
  simp
  ring

theorem resonator_spec {p : Params} {rate pole : ℝ} (hz : 0 < p.zeta) (hz2 : p.zeta < 1 / 2) (h0 : 0 < pole)
    (h1 : pole < rate / 2) : ∃ r, resonator p rate pole = some r ∧ Res p.zeta rate pole r := by
  have hpi := Real.pi_pos
  have hr : 0 < rate := by linarith
  obtain ⟨w, hw⟩ : ∃ w, w = 2 * Real.pi * pole := ⟨_, rfl⟩
  have hw0 : 0 < w := by rw [hw]; positivity
  have hwc : (w : ℂ) ≠ 0 := by exact_mod_cast hw0.ne'
  have h2 : (√2 : ℝ) * √2 = 2 := Real.mul_self_sqrt (by norm_num)
  have h2' : (√2 : ℝ) ^ 2 = 2 := by rw [pow_two, h2]
  have hs2 : (√2 : ℝ) ≠ 0 := by positivity
  have hnum : laplace (pole * √2) (p.zeta / √2) = [1 / (2 * w ^ 2), p.zeta / w, 1] := by
    unfold laplace
    rw [show 2 * Real.pi * (pole * √2) = w * √2 by rw [hw]; ring]
    congr 2
    · rw [show w * √2 * (w * √2) = w ^ 2 * (√2 * √2) by ring, h2, mul_comm]
    · field_simp
      rw [h2']
  have hden : laplace pole p.zeta = [1 / w ^ 2, 2 * p.zeta / w, 1] := by
    unfold laplace
    rw [← hw, pow_two]
  have hd : 1 / w ^ 2 ≠ 0 := by positivity
  have hp : ∀ s : ℂ, ((1 / w ^ 2 : ℝ) : ℂ) * s ^ 2 + ((2 * p.zeta / w : ℝ) : ℂ) * s + ((1 : ℝ) : ℂ) = 0 → s.re < 0 :=
    fun s hs => quad_hurwitz' (by positivity) (by positivity) (by norm_num) s hs
  have hK := computeK_pos hr h0.le h1
  obtain ⟨c, K, e1, e2, e3, e4, e5, e6, e7, -, e9⟩ := C28_bilinear_transform (n0 := 1 / (2 * w ^ 2)) (n1 := p.zeta / w)
    (n2 := 1) hr h0.le h1 hd hp
  have hc : c = FilterDesign.normalize ⟨bilinearMap [1 / (2 * w ^ 2), p.zeta / w, 1] (computeK pole rate),
      bilinearMap [1 / w ^ 2, 2 * p.zeta / w, 1] (computeK pole rate)⟩ := by
    unfold bilinearTransform at e1
    rw [if_pos ⟨rfl, rfl, hr, h0.le, h1⟩] at e1
    exact (Option.some.inj e1).symm
  refine ⟨c, by unfold resonator; rw [hnum, hden, e1], e2, e3, e4, e5, ⟨K, e6, e7.1, fun z hz' => ?_⟩, ?_, ?_, ?_⟩
  · rw [e7.2 z hz']
    unfold analog Spec.resonator
    rw [← hw]
    have hx : ((√2 : ℝ) : ℂ) ^ 2 = 2 := by exact_mod_cast h2'
    have hxne : ((√2 : ℝ) : ℂ) ≠ 0 := by exact_mod_cast hs2
    generalize (K * (z - 1) / (z + 1) : ℂ) = s
    have hnumer : ((1 / (2 * w ^ 2) : ℝ) : ℂ) * s ^ 2 + ((p.zeta / w : ℝ) : ℂ) * s + ((1 : ℝ) : ℂ) =
        1 / 2 * (s ^ 2 + 2 * ((p.zeta / √2 : ℝ) : ℂ) * ((√2 * w : ℝ) : ℂ) * s + ((√2 * w : ℝ) : ℂ) ^ 2) / w ^ 2 := by
      push_cast
      rw [mul_pow, hx]
      field_simp
    have hdenom : ((1 / w ^ 2 : ℝ) : ℂ) * s ^ 2 + ((2 * p.zeta / w : ℝ) : ℂ) * s + ((1 : ℝ) : ℂ) =
        (s ^ 2 + 2 * p.zeta * w * s + w ^ 2) / w ^ 2 := by
      push_cast
      field_simp
    rw [hnumer, hdenom, div_div_div_cancel_right₀ (pow_ne_zero 2 hwc), mul_div_assoc]
  · rw [hc]
    simp only [FilterDesign.normalize, bilinearMap, List.getD_cons_zero, List.getD_cons_succ, List.map_cons, List.map_nil]
    obtain ⟨v, hv⟩ : ∃ v, v = computeK pole rate / w := ⟨_, rfl⟩
    have hv0 : 0 < v := by rw [hv]; positivity
    rw [show 1 / (2 * w ^ 2) * computeK pole rate * computeK pole rate = v ^ 2 / 2 by rw [hv]; field_simp,
      show p.zeta / w * computeK pole rate = p.zeta * v by rw [hv]; ring,
      show 1 / w ^ 2 * computeK pole rate * computeK pole rate = v ^ 2 by rw [hv]; field_simp,
      show 2 * p.zeta / w * computeK pole rate = 2 * p.zeta * v by rw [hv]; ring]
    rw [le_div_iff₀ (by positivity)]
    nlinarith [sq_nonneg (v - 7 / 6), mul_pos hz hv0]
  · rw [hc]
    simp only [FilterDesign.normalize, bilinearMap, List.getD_cons_zero, List.getD_cons_succ, List.map_cons, List.map_nil]
    obtain ⟨v, hv⟩ : ∃ v, v = computeK pole rate / w := ⟨_, rfl⟩
    have hv0 : 0 < v := by rw [hv]; positivity
    rw [show 1 / w ^ 2 * computeK pole rate * computeK pole rate = v ^ 2 by rw [hv]; field_simp,
      show 2 * p.zeta / w * computeK pole rate = 2 * p.zeta * v by rw [hv]; ring]
    rw [le_div_iff₀ (by positivity)]
    nlinarith [sq_nonneg (v - 1), mul_pos hz hv0]
  · intro ω hω0 hω1
    have hcos : Real.cos (ω / 2) ≠ 0 := (Real.cos_pos_of_mem_Ioo ⟨by linarith, by linarith⟩).ne'
    rw [e9 ω hcos]
    obtain ⟨u, hu⟩ : ∃ u, u = K * Real.tan (ω / 2) / w := ⟨_, rfl⟩
    have hu' : K * Real.tan (ω / 2) = u * w := by rw [hu]; field_simp
    rw [hu']
    unfold analog
    have hI : (((u * w : ℝ) : ℂ) * Complex.I) ^ 2 = -((u * w : ℝ) : ℂ) ^ 2 := by
      rw [mul_pow, Complex.I_sq]; ring
    have en : ((1 / (2 * w ^ 2) : ℝ) : ℂ) * (((u * w : ℝ) : ℂ) * Complex.I) ^ 2 +
        ((p.zeta / w : ℝ) : ℂ) * (((u * w : ℝ) : ℂ) * Complex.I) + ((1 : ℝ) : ℂ) =
        ((1 - u ^ 2 / 2 : ℝ) : ℂ) + ((p.zeta * u : ℝ) : ℂ) * Complex.I := by
      rw [hI]
      push_cast
      field_simp
      ring
    have ed : ((1 / w ^ 2 : ℝ) : ℂ) * (((u * w : ℝ) : ℂ) * Complex.I) ^ 2 +
        ((2 * p.zeta / w : ℝ) : ℂ) * (((u * w : ℝ) : ℂ) * Complex.I) + ((1 : ℝ) : ℂ) =
        ((1 - u ^ 2 : ℝ) : ℂ) + ((2 * p.zeta * u : ℝ) : ℂ) * Complex.I := by
      rw [hI]
      push_cast
      field_simp
      ring
    rw [en, ed, norm_div]
    obtain ⟨b1, b2⟩ := quad_bounds (u := u) hz hz2
    rw [← norm_quad, ← norm_quad, ← mul_pow] at b1 b2
    have hpos : 0 < ‖((1 - u ^ 2 : ℝ) : ℂ) + ((2 * p.zeta * u : ℝ) : ℂ) * Complex.I‖ := by
      rw [norm_pos_iff]
      intro h
      have := norm_quad (1 - u ^ 2) (2 * p.zeta * u)
      rw [h, norm_zero] at this
      have h3 : (1 - u ^ 2) = 0 := by nlinarith [sq_nonneg (1 - u ^ 2), sq_nonneg (2 * p.zeta * u)]
      have h4 : (2 * p.zeta * u) ^ 2 = 0 := by nlinarith [sq_nonneg (1 - u ^ 2), sq_nonneg (2 * p.zeta * u)]
      have h5 : u = 0 := by
        have := pow_eq_zero_iff (n := 2) (by norm_num) |>.1 h4
        rcases mul_eq_zero.1 this with h | h
        · linarith
        · exact h
      rw [h5] at h3
      norm_num at h3
    constructor
    · rw [le_div_iff₀ hpos]
      exact abs_le_of_sq_le_sq' b1 (norm_nonneg _) |>.2
    · rw [div_le_iff₀ hpos]
      exact abs_le_of_sq_le_sq' b2 (by positivity) |>.2

/-! ### Simplification that does nothing -/

theorem findIdx?_none_of {α : Type} {q : α → Bool} {l : List α} (h : ∀ a ∈ l, q a = false) : l.findIdx? q = none := by
  rw [List.findIdx?_eq_none_iff]
  exact h

theorem mergeFirstOrder_id {ε : ℝ} {l : List (List ℝ)} (h : ∀ p ∈ l, ε < |p.getD 2 0|) :
    ∀ n, mergeFirstOrder ε n l = some l
  | 0 => rfl
  | n + 1 => by
    have : findPair ε l = none := by
      unfold findPair
      rw [findIdx?_none_of]
      intro p hp
      unfold isFirstOrder
      simp only [decide_eq_false_iff_not, not_and]
      intro h1
      exact absurd h1 (not_le.2 (h p hp))
    unfold mergeFirstOrder
    rw [this]

theorem mergeZeroOrder_id {ε : ℝ} {l : List (Stage ℝ)} (h : ∀ s ∈ l, ε < |s.a.getD 2 0|) :
    ∀ n, mergeZeroOrder ε n l = l
  | 0 => rfl
  | n + 1 => by
    have : findZeroOrder ε l = none := by
      unfold findZeroOrder
      rw [findIdx?_none_of]
      intro s hs
      unfold isZeroOrder
      simp only [decide_eq_false_iff_not, not_and]
      intro _ h1
      exact absurd h1 (not_le.2 (h s hs))
    unfold mergeZeroOrder
    rw [this]
    simp

theorem simplify_id {ε : ℝ} {l : List (Stage ℝ)} (h : ∀ s ∈ l, ε < |s.b.getD 2 0| ∧ ε < |s.a.getD 2 0|) :
    simplify ε l = some l := by
  unfold simplify
  rw [mergeFirstOrder_id (by
      intro p hp; obtain ⟨s, hs, rfl⟩ := List.mem_map.1 hp; exact (h s hs).1),
    mergeFirstOrder_id (by
      intro p hp; obtain ⟨s, hs, rfl⟩ := List.mem_map.1 hp; exact (h s hs).2)]
  simp only [Option.bind_eq_bind, Option.bind_some, Option.pure_def]
  rw [mergeZeroOrder_id]
  · congr 1
    rw [List.zipWith_map]
    induction l with
    | nil => rfl
    | cons s l ih => simp only [List.zipWith_cons_cons, List.cons.injEq, true_and]; exact ih fun t ht => h t (by simp [ht])
  · rw [List.zipWith_map]
    intro s hs
    obtain ⟨t, ht, rfl⟩ : ∃ t ∈ l, s = ⟨t.b, t.a⟩ := by
      clear h
      induction l with
      | nil => simp at hs
      | cons t l ih =>
        simp only [List.zipWith_cons_cons, List.mem_cons] at hs
        rcases hs with hs | hs
        · exact ⟨t, by simp, hs⟩
        · obtain ⟨u, hu, e⟩ := ih hs
          exact ⟨u, by simp [hu], e⟩
    exact (h t ht).2

/-! ### Rates -/

/-- Parameters with which `Init` does not abort: the checks, and the first pole is below the Nyquist frequency (the checks
allow a first pole at the Nyquist frequency, see `C78_nyquist_violation`). -/
structure Usable (p : Params) (allow : Bool) (rate : ℝ) : Prop where
  ok : p.Ok allow rate
  below : p.fraction < 1 ∨ p.highest < rate / 2

theorem Usable.first {p : Params} {allow : Bool} {rate : ℝ} (h : Usable p allow rate) :
    Spec.freq p rate 0 < rate / 2 := by
  have hr := h.ok.1
  show min p.highest (p.fraction * rate / 2) < rate / 2
  rcases h.below with h | h
  · exact (min_le_right _ _).trans_lt (by nlinarith)
  · exact (min_le_left _ _).trans_lt h

theorem freq_lt {p : Params} {rate : ℝ} {k : ℕ} (hs : 0 < p.stepErbs) (h : 0 < Spec.freq p rate k) :
    Spec.freq p rate (k + 1) < Spec.freq p rate k := by
  show Spec.freq p rate k - p.stepErbs * Spec.erb (Spec.freq p rate k) < _
  have := erb_gt h
  nlinarith

theorem rateOf_pos {p : Params} {allow : Bool} {rate : ℝ} (h : 0 < rate) : ∀ k, 0 < Spec.rateOf p allow rate k
  | 0 => h
  | k + 1 => by
    have := rateOf_pos (p := p) (allow := allow) h k
    unfold Spec.rateOf
    split_ifs <;> linarith

theorem rateOf_anti {p : Params} {allow : Bool} {rate : ℝ} (h : 0 < rate) {j k : ℕ} (hjk : j ≤ k) :
    Spec.rateOf p allow rate k ≤ Spec.rateOf p allow rate j := by
  induction k, hjk using Nat.le_induction with
  | base => exact le_refl _
  | succ k _ ih =>
    refine le_trans ?_ ih
    have := rateOf_pos (p := p) (allow := allow) h k
    rw [Spec.rateOf]
    split_ifs <;> linarith

theorem Usable.pole_lt {p : Params} {allow : Bool} {rate : ℝ} (h : Usable p allow rate) :
    ∀ k, (∀ j ≤ k, p.minPole < Spec.freq p rate j) → Spec.freq p rate k < Spec.rateOf p allow rate k / 2
  | 0, _ => h.first
  | k + 1, hk => by
    have ih := h.pole_lt k fun j hj => hk j (by omega)
    obtain ⟨h1, -, -, -, h5, -, -, -, h9, -, h11⟩ := h.ok
    have hp := rateOf_pos (p := p) (allow := allow) h1 k
    have hf : 0 < Spec.freq p rate (k + 1) := h9.trans (hk (k + 1) le_rfl)
    have hf' : 0 < Spec.freq p rate k := h9.trans (hk k (by omega))
    have hlt := freq_lt h5 hf'
    rw [Spec.rateOf]
    split_ifs with hc
    · obtain ⟨c1, c2, -⟩ := hc
      have h6 := (h11 c1).1
      rw [lt_div_iff₀ hf] at c2
      nlinarith
    · linarith

/-- The rate passed from stage to stage. -/
noncomputable def prevRate (p : Params) (allow : Bool) (rate : ℝ) : ℕ → ℝ
  | 0 => rate
  | k + 1 => Spec.rateOf p allow rate k

theorem decimateFirst_rate (p : Params) (allow : Bool) (rate : ℝ) (k : ℕ) :
    (if decimateFirst p allow k (prevRate p allow rate k) (Spec.freq p rate k) then prevRate p allow rate k / 2
      else prevRate p allow rate k) = Spec.rateOf p allow rate k := by
  cases k with
  | zero => simp [decimateFirst, prevRate, Spec.rateOf]
  | succ k =>
    unfold Spec.rateOf prevRate decimateFirst
    congr 1
    simp only [decide_eq_true_eq, eq_iff_iff]
    constructor
    · rintro ⟨-, h1, h2, h3⟩; exact ⟨h3, h1, h2⟩
    · rintro ⟨h3, h1, h2⟩; exact ⟨by omega, h1, h2, h3⟩

end Verif.AuditoryFilterbank
