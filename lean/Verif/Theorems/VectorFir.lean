import Verif.Model.VectorUtil
import Verif.Proof.Stream
import Mathlib.Data.List.GetD
import Mathlib.Tactic.Linarith
import Mathlib.Tactic.FieldSimp
import Mathlib.Tactic.NormNum
import Mathlib.Analysis.SpecialFunctions.Trigonometric.Sinc

/-!
# C65, C66: FIR filtering and FIR design of signal_vector_util.h
-/

namespace Verif.VectorUtil
open Verif.Stream Verif.LinearFilter.Spec Finset

section Filter
variable {K : Type} [CommRing K]

theorem firShift_spec (x : K) : ∀ (s hs : List K), s.length = hs.length →
    (firShift x s hs).length = s.length ∧
    ∀ j, (firShift x s hs).getD j 0 = x * hs.getD j 0 + s.getD (j + 1) 0
  | [], [], _ => by simp [firShift]
  | [_], [h0], _ => by
    refine ⟨rfl, fun j => ?_⟩
    cases j with
    | zero => simp [firShift]
    | succ j => simp [firShift]
  | _ :: t0 :: ts, h0 :: hs, hl => by
    obtain ⟨i1, i2⟩ := firShift_spec x (t0 :: ts) hs (by simpa using hl)
    refine ⟨by simp [firShift, i1], fun j => ?_⟩
    cases j with
    | zero => simp [firShift]
    | succ j =>
      rw [firShift, List.getD_cons_succ, i2 j]
      simp
  | [_], [], hl => by simp at hl
  | [_], _ :: _ :: _, hl => by simp at hl
  | _ :: _ :: _, [], hl => by simp at hl
  | [], _ :: _, hl => by simp at hl

/-- What the state stands for after the reversed history `r`. -/
def FirInv (h : List K) (f : FirFilter K) (r : List K) : Prop :=
  f.h = h ∧ f.state.length + 1 = h.length ∧
    ∀ j, f.state.getD j 0 = ∑ k ∈ range h.length, h.getD (j + 1 + k) 0 * r.getD k 0

theorem firInv_step (h : List K) (f : FirFilter K) (r : List K) (x : K) (hi : FirInv h f r) :
    FirInv h (f.step x).1 (x :: r) ∧
      (f.step x).2 = ∑ k ∈ range h.length, h.getD k 0 * (x :: r).getD k 0 := by
  obtain ⟨h1, h2, h3⟩ := hi
  obtain ⟨fh, fs⟩ := f
  dsimp only at h1 h2 h3
  subst h1
  cases fh with
  | nil => simp at h2
  | cons h0 hs =>
    have hlen : fs.length = hs.length := by simpa using h2
    have hsum : ∀ j, ∑ k ∈ range (h0 :: hs).length, (h0 :: hs).getD (j + k) 0 * (x :: r).getD k 0
        = (h0 :: hs).getD j 0 * x + fs.getD j 0 := by
      intro j
      rw [h3 j, List.length_cons, sum_range_succ', sum_range_succ]
      have : (h0 :: hs).getD (j + 1 + hs.length) 0 = 0 := by
        rw [List.getD_eq_default]; simp
      rw [this, zero_mul, add_zero]
      simp only [List.getD_cons_succ, List.getD_cons_zero, add_zero]
      rw [add_comm]
      congr 1
      apply sum_congr rfl
      intro k _
      rw [show j + (k + 1) = j + 1 + k by omega]
    cases fs with
    | nil =>
      have : hs = [] := List.length_eq_zero_iff.1 (by simpa using hlen.symm)
      subst this
      refine ⟨⟨rfl, by simp [FirFilter.step], ?_⟩, ?_⟩
      · intro j
        simp [FirFilter.step]
      · have := hsum 0
        simp [FirFilter.step] at this ⊢
        ring
    | cons s0 ss =>
      obtain ⟨g1, g2⟩ := firShift_spec x (s0 :: ss) hs hlen
      refine ⟨⟨rfl, by simp [FirFilter.step, g1]; simpa using hlen, ?_⟩, ?_⟩
      · intro j
        simp only [FirFilter.step]
        rw [g2 j]
        have := hsum (j + 1)
        rw [this]
        simp only [List.getD_cons_succ]
        ring
      · have := hsum 0
        simp only [zero_add, List.getD_cons_zero] at this
        rw [this]
        simp only [FirFilter.step]
        ring

theorem firInv_make (h : List K) (hne : h ≠ []) :
    FirInv h ⟨h, List.replicate (h.length - 1) 0⟩ [] := by
  refine ⟨rfl, ?_, ?_⟩
  · have := List.length_pos_iff.2 hne
    simp; omega
  · intro j
    have : (List.replicate (h.length - 1) (0 : K)).getD j 0 = 0 := by
      by_cases hj : j < h.length - 1
      · rw [List.getD_eq_getElem _ _ (by simpa using hj), List.getElem_replicate]
      · rw [List.getD_eq_default]; simp; omega
    simp only [this, List.getD_nil, mul_zero, sum_const_zero]

/-- **C65.** An `FIRFilter` can be made of exactly the non-empty impulse responses. However the signal is
cut into chunks, the concatenated results are the convolution of the signal with the impulse response,
`result[i] = Σ_k h[k] signal[i - k]`, and every chunk keeps its size. -/
theorem C65_filter (h : List K) :
    (h = [] → FirFilter.make h = .error .check) ∧
    (h ≠ [] → ∃ f, FirFilter.make h = .ok f ∧ ∀ chunks : List (List K),
      IsConv h chunks.flatten (runBlocks FirFilter.filter f chunks).2.flatten ∧
      (runBlocks FirFilter.filter f chunks).2.map List.length = chunks.map List.length) := by
  constructor
  · rintro rfl; rfl
  · intro hne
    refine ⟨⟨h, List.replicate (h.length - 1) 0⟩, by simp [FirFilter.make, hne], fun chunks => ?_⟩
    have hb := runBlocks_runSamples (FirFilter.step (K := K)) chunks ⟨h, List.replicate (h.length - 1) 0⟩
    refine ⟨?_, hb.2.2⟩
    have e : (runBlocks FirFilter.filter (⟨h, List.replicate (h.length - 1) 0⟩ : FirFilter K) chunks).2.flatten
        = (runSamples FirFilter.step ⟨h, List.replicate (h.length - 1) 0⟩ chunks.flatten).2 := hb.2.1
    rw [e]
    have hh := (runSamples_hist (step := FirFilter.step (K := K)) (Inv := FirInv h)
      (F := fun r => ∑ k ∈ range h.length, h.getD k 0 * r.getD k 0)
      (fun s r x hi => firInv_step h s r x hi) chunks.flatten ⟨h, List.replicate (h.length - 1) 0⟩ []
      (firInv_make h hne)).2
    refine ⟨by simp, fun n hn => ?_⟩
    rw [List.getD_eq_getElem?_getD, hh n hn, Option.getD_some]
    apply sum_congr rfl
    intro k _
    rw [List.append_nil, past_eq_reverse _ n k hn]

example : ∃ f, FirFilter.make [1, 2, (3 : ℤ)] = .ok f ∧
    (runBlocks FirFilter.filter f [[1], [], [0, 0, 0]]).2 = [[1], [], [2, 3, 0]] :=
  ⟨_, rfl, by decide +kernel⟩

end Filter

/-! ### Design -/

/-- The tap `i` of a windowed ideal lowpass filter with centre `radius` and relative bandwidth `factor`,
as documented in signal_vector_util.h:884-888. -/
noncomputable def idealTap (factor : ℝ) (radius i : ℤ) : ℝ :=
  factor * Real.sinc (Real.pi * factor * (i - radius))

theorem idealTap_center (factor : ℝ) (r : ℤ) : idealTap factor r r = factor := by
  simp [idealTap]

theorem idealTap_symm (factor : ℝ) (r i : ℤ) : idealTap factor r (r + i) = idealTap factor r (r - i) := by
  unfold idealTap
  push_cast
  rw [add_sub_cancel_left, sub_sub_cancel_left, mul_neg, Real.sinc_neg]

theorem idealTap_add (factor : ℝ) (r : ℤ) (i : ℕ) (hi : i ≠ 0) :
    idealTap factor r (r + i) = Real.sin (Real.pi * factor * i) / (Real.pi * i) := by
  unfold idealTap
  push_cast
  rw [add_sub_cancel_left]
  have hp := Real.pi_ne_zero
  have hi' : (i : ℝ) ≠ 0 := by exact_mod_cast hi
  by_cases hf : factor = 0
  · simp [hf]
  · rw [Real.sinc_of_ne_zero (by positivity)]
    field_simp

theorem design_fill (factor : ℝ) (n radius : ℕ) (hr : n = 2 * radius + 1) (m : ℕ) (hm : m ≤ radius)
    (j : ℕ) : ((List.range m).foldl (fun (f : List ℝ) i =>
        (f.set (radius + (i + 1)) (Real.sin (Real.pi * factor * (i + 1 : ℕ)) / (Real.pi * (i + 1 : ℕ)))).set
          (radius - (i + 1)) (Real.sin (Real.pi * factor * (i + 1 : ℕ)) / (Real.pi * (i + 1 : ℕ))))
      ((List.replicate n 0).set radius factor))[j]? =
      if j < n then some (if (j : ℤ) - radius ≤ m ∧ (radius : ℤ) - j ≤ m then idealTap factor radius j else 0)
      else none := by
  induction m with
  | zero =>
    simp only [List.range_zero, List.foldl_nil, List.getElem?_set, List.length_replicate, CharP.cast_eq_zero]
    by_cases hj : radius = j
    · subst hj
      rw [if_pos rfl, if_pos (by omega), if_pos (by omega), if_pos (by omega), idealTap_center]
    · rw [if_neg hj, List.getElem?_replicate]
      split_ifs with h1 h2
      · omega
      · rfl
      · rfl
  | succ m ih =>
    rw [List.range_succ, List.foldl_append, List.foldl_cons, List.foldl_nil, List.getElem?_set,
      List.getElem?_set, ih (by omega)]
    have hlen : ∀ (l : List ℕ) (f : List ℝ) (v : ℕ → ℝ), (l.foldl (fun (f : List ℝ) i =>
        (f.set (radius + (i + 1)) (v i)).set (radius - (i + 1)) (v i)) f).length = f.length := by
      intro l
      induction l with
      | nil => intro f v; rfl
      | cons a l ih => intro f v; rw [List.foldl_cons, ih]; simp
    rw [List.length_set, hlen _ _ fun i => Real.sin (Real.pi * factor * (i + 1 : ℕ)) / (Real.pi * (i + 1 : ℕ))]
    simp only [List.length_set, List.length_replicate]
    have hv := idealTap_add factor radius (m + 1) (by omega)
    by_cases h1 : radius - (m + 1) = j
    · rw [if_pos h1, if_pos (by omega), if_pos (by omega), if_pos (by omega), ← hv, idealTap_symm]
      congr 2
      omega
    · rw [if_neg h1]
      by_cases h2 : radius + (m + 1) = j
      · rw [if_pos h2, if_pos (by omega), if_pos (by omega), if_pos (by omega), ← hv]
        congr 2
        omega
      · rw [if_neg h2]
        by_cases h3 : j < n
        · rw [if_pos h3, if_pos h3]
          congr 1
          by_cases h4 : (j : ℤ) - radius ≤ m ∧ (radius : ℤ) - j ≤ m
          · rw [if_pos h4, if_pos (by omega)]
          · rw [if_neg h4, if_neg (by omega)]
        · rw [if_neg h3, if_neg h3]

/-- **C66.** `DesignFirLowpassFilter` accepts exactly `0 ≤ edge ≤ rate / 2` with an odd window, and for a
positive sample rate returns the documented filter
`window[i] · factor · sinc(π · factor · (i - radius))`, `factor = 2 edge / rate`. -/
theorem C66_lowpass (edge rate : ℝ) (window : List ℝ) :
    (¬ (0 ≤ edge ∧ edge ≤ rate / 2 ∧ window.length % 2 = 1) →
      designLowpass edge rate window = .error .check) ∧
    (0 ≤ edge → edge ≤ rate / 2 → window.length % 2 = 1 → 0 < rate →
      ∃ f, designLowpass edge rate window = .ok f ∧ f.length = window.length ∧
        ∀ i, i < window.length → f.getD i 0 =
          window.getD i 0 * idealTap (2 * edge / rate) ((window.length - 1 : ℤ) / 2) i) := by
  constructor
  · intro h
    unfold designLowpass
    by_cases h1 : edge ≥ 0
    · rw [if_neg (not_not.2 h1)]
      by_cases h2 : edge ≤ rate / 2
      · rw [if_neg (not_not.2 h2), if_pos (by tauto)]
      · rw [if_pos h2]
    · rw [if_pos h1]
  · intro h1 h2 h3 h4
    unfold designLowpass
    rw [if_neg (not_not.2 h1), if_neg (not_not.2 h2), if_neg (not_not.2 h3), if_neg h4.ne']
    dsimp only
    obtain ⟨r, hr⟩ : ∃ r, r = (window.length - 1) / 2 := ⟨_, rfl⟩
    have hn : window.length = 2 * r + 1 := by omega
    have hz : ((window.length - 1 : ℤ) / 2) = r := by omega
    rw [← hr, hz]
    have key := design_fill (2 * edge / rate) window.length r hn r le_rfl
    refine ⟨_, rfl, ?_, ?_⟩
    · rw [List.length_zipWith]
      have : ∀ l : List ℝ, (∀ j, l[j]? = if j < window.length then some (if (j : ℤ) - r ≤ r ∧ (r : ℤ) - j ≤ r
          then idealTap (2 * edge / rate) r j else 0) else none) → l.length = window.length := by
        intro l hl
        apply le_antisymm
        · by_contra hlt
          have h5 := hl window.length
          rw [if_neg (by omega), List.getElem?_eq_none_iff] at h5
          omega
        · by_contra hlt
          have h5 := hl l.length
          rw [if_pos (by omega), List.getElem?_eq_none (le_refl _)] at h5
          simp at h5
      rw [this _ key, min_self]
    · intro i hi
      rw [List.getD_eq_getElem?_getD, List.getElem?_zipWith, key i, if_pos hi, if_pos (by omega),
        List.getElem?_eq_getElem hi, List.getD_eq_getElem _ _ hi]
      simp only [Option.getD_some]
      ring

/-- **C66.** The lowpass filter has linear phase (its taps are symmetric) for a symmetric window. -/
theorem C66_symmetric (edge rate : ℝ) (window f : List ℝ) (hr : 0 < rate)
    (h : designLowpass edge rate window = .ok f) (hw : window.reverse = window) : f.reverse = f := by
  by_cases hc : 0 ≤ edge ∧ edge ≤ rate / 2 ∧ window.length % 2 = 1
  swap
  · rw [(C66_lowpass edge rate window).1 hc] at h; cases h
  · obtain ⟨f', h1, h2, h3⟩ := (C66_lowpass edge rate window).2 hc.1 hc.2.1 hc.2.2 hr
    rw [h] at h1
    obtain rfl := Except.ok.inj h1
    apply List.ext_getElem (by simp)
    intro i hi hi'
    rw [List.getElem_reverse]
    have a1 := h3 (f.length - 1 - i) (by omega)
    have a2 := h3 i (by omega)
    rw [List.getD_eq_getElem _ _ (by omega)] at a1 a2
    rw [a1, a2]
    have hw' : window.getD (f.length - 1 - i) 0 = window.getD i 0 := by
      conv_rhs => rw [← hw]
      rw [List.getD_eq_getElem _ _ (by omega), List.getD_eq_getElem _ _ (by simp; omega),
        List.getElem_reverse]
      congr 1
      omega
    rw [hw']
    congr 1
    have e := idealTap_symm (2 * edge / rate) ((window.length - 1 : ℤ) / 2) ((i : ℤ) - (window.length - 1 : ℤ) / 2)
    rw [add_sub_cancel] at e
    rw [e]
    congr 1
    have := hc.2.2
    omega

/-- **C66.** The highpass filter is complementary to the lowpass filter: together they are an impulse of
the height of the window at its centre. It is accepted in the same cases. -/
theorem C66_highpass (edge rate : ℝ) (window : List ℝ) (lo : List ℝ)
    (h : designLowpass edge rate window = .ok lo) :
    ∃ hi, designHighpass edge rate window = .ok hi ∧ hi.length = lo.length ∧
      ∀ i, i < lo.length → lo.getD i 0 + hi.getD i 0 =
        if i = (window.length - 1) / 2 then window.getD i 0 else 0 := by
  unfold designHighpass
  rw [h]
  dsimp only
  refine ⟨_, rfl, by simp, fun i hi => ?_⟩
  rw [List.getD_eq_getElem?_getD (l := List.modify _ _ _), List.getElem?_modify, List.getElem?_map,
    List.getElem?_eq_getElem hi, List.getD_eq_getElem _ _ hi]
  by_cases hc : i = (window.length - 1) / 2
  · rw [if_pos hc]
    simp [hc]
  · rw [if_neg hc]
    simp [Ne.symm hc]

/-- **C66.** The highpass design fails exactly when the lowpass design fails, with the same failure. -/
theorem C66_highpass_error (edge rate : ℝ) (window : List ℝ) (e : Err) :
    designHighpass edge rate window = .error e ↔ designLowpass edge rate window = .error e := by
  unfold designHighpass
  cases designLowpass edge rate window with
  | error e' => simp
  | ok f => simp

/-- **C66.** `DesignFirBandpassFilter` accepts exactly `0 ≤ low ≤ high ≤ rate / 2` with an odd window; the
result is the difference of the two lowpass filters. -/
theorem C66_bandpass (low high rate : ℝ) (window : List ℝ) (hr : 0 < rate) :
    (¬ (0 ≤ low ∧ low ≤ high ∧ high ≤ rate / 2 ∧ window.length % 2 = 1) →
      designBandpass low high rate window = .error .check) ∧
    (0 ≤ low → low ≤ high → high ≤ rate / 2 → window.length % 2 = 1 →
      ∃ f, designBandpass low high rate window = .ok f ∧ f.length = window.length ∧
        ∀ i, i < window.length → f.getD i 0 = window.getD i 0 *
          (idealTap (2 * high / rate) ((window.length - 1 : ℤ) / 2) i -
            idealTap (2 * low / rate) ((window.length - 1 : ℤ) / 2) i)) := by
  constructor
  · intro h
    unfold designBandpass
    by_cases h1 : low ≤ high
    · rw [if_neg (not_not.2 h1)]
      by_cases hlo : 0 ≤ low ∧ low ≤ rate / 2 ∧ window.length % 2 = 1
      · obtain ⟨f, hf, -⟩ := (C66_lowpass low rate window).2 hlo.1 hlo.2.1 hlo.2.2 hr
        rw [hf, (C66_lowpass high rate window).1 (by tauto)]
      · rw [(C66_lowpass low rate window).1 hlo]
    · rw [if_pos h1]
  · intro h1 h2 h3 h4
    obtain ⟨f1, a1, a2, a3⟩ := (C66_lowpass low rate window).2 h1 (h2.trans h3) h4 hr
    obtain ⟨f2, b1, b2, b3⟩ := (C66_lowpass high rate window).2 (h1.trans h2) h3 h4 hr
    unfold designBandpass
    rw [if_neg (not_not.2 h2), a1, b1]
    dsimp only
    refine ⟨_, rfl, by simp [a2, b2], fun i hi => ?_⟩
    have c1 := a3 i hi
    have c2 := b3 i hi
    rw [List.getD_eq_getElem _ _ (by omega)] at c1 c2
    rw [List.getD_eq_getElem?_getD, List.getElem?_zipWith, List.getElem?_eq_getElem (by omega),
      List.getElem?_eq_getElem (by omega)]
    simp only [Option.getD_some]
    rw [c1, c2]
    ring

/-- A Nyquist-wide lowpass filter is the identity: only the centre tap is left. -/
example : ∃ f, designLowpass 24000 48000 [1 / 2, 1, 1 / 2] = .ok f ∧ f = [0, 1, 0] := by
  obtain ⟨f, h1, h2, h3⟩ := (C66_lowpass 24000 48000 [1 / 2, 1, 1 / 2]).2 (by norm_num) (by norm_num)
    (by simp) (by norm_num)
  refine ⟨f, h1, ?_⟩
  apply List.ext_getElem (by simpa using h2)
  intro i hi hi'
  have := h3 i (by omega)
  rw [List.getD_eq_getElem _ _ hi] at this
  rw [this]
  have hi3 : i < 3 := by simpa using hi'
  rcases i with _ | _ | _ | i
  · norm_num [idealTap, Real.sinc_of_ne_zero, Real.pi_ne_zero]
  · norm_num [idealTap]
  · norm_num [idealTap, Real.sinc_of_ne_zero, Real.pi_ne_zero]
  · omega

/-- **C66 (violation).** The checks accept a zero sample rate with a zero band edge; the taps are then
`0 / 0`. -/
theorem C66_zero_rate_violation (window : List ℝ) (h : window.length % 2 = 1) :
    designLowpass 0 0 window = .error .nan := by
  simp [designLowpass, h]

end Verif.VectorUtil
