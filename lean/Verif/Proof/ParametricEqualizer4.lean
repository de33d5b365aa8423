import Verif.Proof.ParametricEqualizer3
import Verif.Proof.Dct

/-! # The fit of the gains -/

namespace Verif.ParametricEqualizer
open Verif.BiquadCascade Verif.FilterDesign Verif.BiquadAnalysis Verif.AuditoryFilterbank Spec

/-! ### Regularised least squares -/

section
variable {m n : ℕ} (A : Matrix (Fin m) (Fin n) ℝ) (t : Fin m → ℝ)

/-- Expansion of the cost around a point that satisfies the normal equations. -/
theorem cost_expand {w : Fin n → ℝ}
    (h : ∀ k, ∑ i, A i k * ((∑ j, A i j * w j) - t i) + 1 / 10 ^ 4 * w k = 0) (v : Fin n → ℝ) :
    cost A t v = cost A t w + ∑ i, (∑ k, A i k * (v k - w k)) ^ 2 + 1 / 10 ^ 4 * ∑ k, (v k - w k) ^ 2 := by
  have e1 : ∀ i, (∑ k, A i k * v k) - t i = ((∑ k, A i k * w k) - t i) + ∑ k, A i k * (v k - w k) := by
    intro i
    have : ∑ k, A i k * (v k - w k) = ∑ k, A i k * v k - ∑ k, A i k * w k := by
      rw [← Finset.sum_sub_distrib]
      exact Finset.sum_congr rfl fun k _ => by ring
    rw [this]
    ring
  have e2 : ∑ i, ((∑ k, A i k * w k) - t i) * (∑ k, A i k * (v k - w k)) =
      -(1 / 10 ^ 4 * ∑ k, w k * (v k - w k)) := by
    have : ∀ i, ((∑ k, A i k * w k) - t i) * (∑ k, A i k * (v k - w k)) =
        ∑ k, (v k - w k) * (A i k * ((∑ j, A i j * w j) - t i)) := by
      intro i
      rw [Finset.mul_sum]
      exact Finset.sum_congr rfl fun k _ => by ring
    rw [Finset.sum_congr rfl fun i _ => this i, Finset.sum_comm, Finset.mul_sum, ← Finset.sum_neg_distrib]
    refine Finset.sum_congr rfl fun k _ => ?_
    rw [← Finset.mul_sum, eq_neg_of_add_eq_zero_left (h k)]
    ring
  unfold cost
  have e3 : ∑ i, ((∑ k, A i k * v k) - t i) ^ 2 = ∑ i, ((∑ k, A i k * w k) - t i) ^ 2 +
      2 * ∑ i, ((∑ k, A i k * w k) - t i) * (∑ k, A i k * (v k - w k)) + ∑ i, (∑ k, A i k * (v k - w k)) ^ 2 := by
    rw [Finset.mul_sum, ← Finset.sum_add_distrib, ← Finset.sum_add_distrib]
    refine Finset.sum_congr rfl fun i _ => ?_
    rw [e1 i]
    ring
  have e4 : ∑ k, v k ^ 2 = ∑ k, w k ^ 2 + 2 * ∑ k, w k * (v k - w k) + ∑ k, (v k - w k) ^ 2 := by
    rw [Finset.mul_sum, ← Finset.sum_add_distrib, ← Finset.sum_add_distrib]
    exact Finset.sum_congr rfl fun k _ => by ring
  rw [e3, e2, e4]
  ring

theorem gram_mulVec (v : Fin n → ℝ) (k : Fin n) :
    ((A.transpose * A + (1 / 10 ^ 4 : ℝ) • (1 : Matrix (Fin n) (Fin n) ℝ)).mulVec v) k =
      ∑ i, A i k * (∑ j, A i j * v j) + 1 / 10 ^ 4 * v k := by
  rw [Matrix.add_mulVec, Matrix.smul_mulVec, Matrix.one_mulVec, ← Matrix.mulVec_mulVec]
  rfl

theorem gram_isUnit : IsUnit (A.transpose * A + (1 / 10 ^ 4 : ℝ) • (1 : Matrix (Fin n) (Fin n) ℝ)) := by
  rw [← Matrix.mulVec_injective_iff_isUnit]
  intro u v huv
  have h : ∀ k, ∑ i, A i k * (∑ j, A i j * (u j - v j)) + 1 / 10 ^ 4 * (u k - v k) = 0 := by
    intro k
    have := congrFun huv k
    rw [gram_mulVec, gram_mulVec] at this
    have e : ∀ i, ∑ j, A i j * (u j - v j) = ∑ j, A i j * u j - ∑ j, A i j * v j := by
      intro i
      rw [← Finset.sum_sub_distrib]
      exact Finset.sum_congr rfl fun j _ => by ring
    rw [Finset.sum_congr rfl fun i _ => by rw [e i, mul_sub], Finset.sum_sub_distrib]
    linarith
  have h0 := cost_expand A (fun _ => 0) (w := fun k => u k - v k) (by
    intro k
    have := h k
    simpa using this) (fun _ => 0)
  have hc : cost A (fun _ => 0) (fun _ : Fin n => (0 : ℝ)) = 0 := by unfold cost; simp
  rw [hc] at h0
  have p1 : 0 ≤ cost A (fun _ => 0) (fun k => u k - v k) := by
    unfold cost
    have := Finset.sum_nonneg fun i (_ : i ∈ Finset.univ) => sq_nonneg ((∑ k, A i k * (u k - v k)) - 0)
    have := Finset.sum_nonneg fun k (_ : k ∈ Finset.univ) => sq_nonneg (u k - v k)
    positivity
  have p2 : 0 ≤ ∑ i, (∑ k, A i k * (0 - (u k - v k))) ^ 2 := Finset.sum_nonneg fun i _ => sq_nonneg _
  have p3 : ∀ k ∈ Finset.univ, 0 ≤ (0 - (u k - v k)) ^ 2 := fun k _ => sq_nonneg _
  have p4 : ∑ k, (0 - (u k - v k)) ^ 2 = 0 := by
    have := Finset.sum_nonneg p3
    nlinarith
  funext k
  have := (Finset.sum_eq_zero_iff_of_nonneg p3).1 p4 k (Finset.mem_univ k)
  have := pow_eq_zero_iff (n := 2) (by norm_num) |>.1 this
  linarith

theorem solve_normal (k : Fin n) :
    ∑ i, A i k * ((∑ j, A i j * solve A t j) - t i) + 1 / 10 ^ 4 * solve A t k = 0 := by
  have hu := gram_isUnit A
  have h : (A.transpose * A + (1 / 10 ^ 4 : ℝ) • (1 : Matrix (Fin n) (Fin n) ℝ)).mulVec (solve A t) =
      A.transpose.mulVec t := by
    unfold solve
    rw [Matrix.mulVec_mulVec, Matrix.mul_nonsing_inv _ ((Matrix.isUnit_iff_isUnit_det _).1 hu), Matrix.one_mulVec]
  have := congrFun h k
  rw [gram_mulVec] at this
  have e : A.transpose.mulVec t k = ∑ i, A i k * t i := rfl
  rw [e] at this
  rw [Finset.sum_congr rfl fun i _ => mul_sub _ _ _, Finset.sum_sub_distrib]
  linarith

theorem solve_min (v : Fin n → ℝ) : cost A t v = cost A t (solve A t) +
    ∑ i, (∑ k, A i k * (v k - solve A t k)) ^ 2 + 1 / 10 ^ 4 * ∑ k, (v k - solve A t k) ^ 2 :=
  cost_expand A t (solve_normal A t) v

theorem solve_le (v : Fin n → ℝ) : cost A t (solve A t) ≤ cost A t v := by
  rw [solve_min A t v]
  have p2 : 0 ≤ ∑ i, (∑ k, A i k * (v k - solve A t k)) ^ 2 := Finset.sum_nonneg fun i _ => sq_nonneg _
  have p3 : 0 ≤ ∑ k, (v k - solve A t k) ^ 2 := Finset.sum_nonneg fun k _ => sq_nonneg _
  linarith

theorem solve_unique {w : Fin n → ℝ} (h : ∀ v, cost A t w ≤ cost A t v) : w = solve A t := by
  have h1 := h (solve A t)
  rw [solve_min A t w] at h1
  have p2 : 0 ≤ ∑ i, (∑ k, A i k * (w k - solve A t k)) ^ 2 := Finset.sum_nonneg fun i _ => sq_nonneg _
  have p3 : ∀ k ∈ Finset.univ, 0 ≤ (w k - solve A t k) ^ 2 := fun k _ => sq_nonneg _
  have p4 : ∑ k, (w k - solve A t k) ^ 2 = 0 := by
    have := Finset.sum_nonneg p3
    nlinarith
  funext k
  have := (Finset.sum_eq_zero_iff_of_nonneg p3).1 p4 k (Finset.mem_univ k)
  have := pow_eq_zero_iff (n := 2) (by norm_num) |>.1 this
  linarith

end

/-! ### Setting the gains -/

theorem numEnabled_eq (p : Params) : p.numEnabled = p.enabled.count true := by
  unfold Params.numEnabled
  have : ∀ (l : List Bool) (n : ℕ), l.foldl (fun n on => n + if on = true then 1 else 0) n = n + l.count true := by
    intro l
    induction l with
    | nil => intro n; simp
    | cons b l ih =>
      intro n
      rw [List.foldl_cons, ih, List.count_cons]
      cases b <;> simp <;> omega
  rw [this, Nat.zero_add]

theorem setGains_check {n : ℕ} {g : Fin n → ℝ} {p : Params} (h : n ≠ p.total + 1) :
    setGainsFromArray g p = .error .check := by
  unfold setGainsFromArray
  rw [if_neg h]

/-- The parameters with other gains. -/
noncomputable def withGains {n : ℕ} (p : Params) (g : Fin (n + 1) → ℝ) : Params :=
  { p with
    stages := List.zipWith (fun s x => { s with gain := x }) p.stages (List.ofFn g)
    gain := g (Fin.last n) }

theorem setGains_ok {n : ℕ} {g : Fin (n + 1) → ℝ} {p : Params} (h : n = p.total) :
    setGainsFromArray g p = .ok (withGains p g) := by
  unfold setGainsFromArray withGains
  rw [if_pos (by rw [h])]
  have : (List.ofFn g).getD (n + 1 - 1) 0 = g (Fin.last n) := by
    rw [List.getD_eq_getElem _ _ (by simp), List.getElem_ofFn]
    rfl
  rw [this]

theorem withGains_length {n : ℕ} {g : Fin (n + 1) → ℝ} {p : Params} (h : n = p.total) :
    (withGains p g).stages.length = n := by
  unfold withGains
  rw [List.length_zipWith, List.length_ofFn]
  unfold Params.total at h
  omega

theorem withGains_get {n : ℕ} {g : Fin (n + 1) → ℝ} {p : Params} (k : Fin n) :
    (withGains p g).stages[k.val]? = p.stages[k.val]?.map fun s => { s with gain := g k.castSucc } := by
  unfold withGains
  rw [List.getElem?_zipWith, List.getElem?_ofFn, dif_pos (by omega)]
  cases p.stages[k.val]? <;> rfl

theorem withGains_withGains {n : ℕ} (g g' : Fin (n + 1) → ℝ) {p : Params} (h : n = p.total) :
    withGains (withGains p g) g' = withGains p g' := by
  have : (withGains (withGains p g) g').stages = (withGains p g').stages := by
    apply List.ext_getElem?
    intro i
    by_cases hi : i < n
    · rw [withGains_get ⟨i, hi⟩, withGains_get ⟨i, hi⟩, withGains_get ⟨i, hi⟩]
      cases p.stages[(⟨i, hi⟩ : Fin n).val]? <;> rfl
    · rw [List.getElem?_eq_none, List.getElem?_eq_none]
      · rw [withGains_length h]; omega
      · rw [withGains_length (withGains_length h).symm]; omega
  unfold withGains at this ⊢
  dsimp only at this ⊢
  rw [this]

theorem withGains_setGain {n : ℕ} (g : Fin (n + 1) → ℝ) (p : Params) (x : ℝ) :
    withGains (p.setGain x) g = withGains p g := rfl

theorem enabledBands_all {p : Params} (h : p.stages.length = p.enabled.length) (he : ∀ b ∈ p.enabled, b = true) :
    enabledBands p = p.stages := by
  unfold enabledBands
  obtain ⟨g, ss, os⟩ := p
  dsimp only at *
  induction ss generalizing os with
  | nil => simp
  | cons s ss ih =>
    match os with
    | [] => simp at h
    | o :: os =>
      rw [List.zip_cons_cons, List.filterMap_cons]
      have : o = true := he o (by simp)
      subst this
      simp only [if_true]
      rw [ih os (by simpa using h) fun b hb => he b (by simp [hb])]

theorem all_enabled {p : Params} (h : p.stages.length = p.enabled.length) (hn : p.numEnabled = p.total) :
    ∀ b ∈ p.enabled, b = true := by
  rw [numEnabled_eq] at hn
  unfold Params.total at hn
  rw [h, List.count_eq_length] at hn
  intro b hb
  exact (hn b hb).symm

theorem forall₂_of_get {α β : Type} {R : α → β → Prop} : ∀ {l : List α} {r : List β}, l.length = r.length →
    (∀ (i : ℕ) (a : α) (b : β), l[i]? = some a → r[i]? = some b → R a b) → List.Forall₂ R l r
  | [], [], _, _ => .nil
  | [], _ :: _, h, _ => by simp at h
  | _ :: _, [], h, _ => by simp at h
  | a :: l, b :: r, h, hR =>
    .cons (hR 0 a b rfl rfl) (forall₂_of_get (by simpa using h) fun i x y hx hy => hR (i + 1) x y (by simpa using hx) (by simpa using hy))

/-- The cascade with the gains `g` (and overall gain 0) is the list of the designs. -/
theorem coefficients_with {n : ℕ} {rate : ℝ} {p : Params} {g : Fin (n + 1) → ℝ} {ds : List (Stage ℝ)} (hr : 0 < rate)
    (hl : p.stages.length = p.enabled.length) (he : ∀ b ∈ p.enabled, b = true) (hn : 0 < n)
    (hd : DesignsWith rate p g ds) : getCoefficients ((withGains p g).setGain 0) rate = .ok ds := by
  obtain ⟨h1, h2, h3⟩ := hd
  have hwl : (withGains p g).stages.length = n := withGains_length (by unfold Params.total; exact h2.symm)
  have hds : ds ≠ [] := by
    intro h; rw [h, List.length_nil] at h1; omega
  rw [coefficients_eq (ds := ds) hr]
  · show Except.ok (adjustGain (factor 0) (shown ds)) = _
    rw [factor_zero, adjustGain_one]
    unfold shown
    rw [if_neg hds]
  · show (withGains p g).stages ≠ []
    intro h; rw [h, List.length_nil] at hwl; omega
  · show (withGains p g).stages.length = p.enabled.length
    rw [hwl, ← hl, h2]
  · show Designs rate (enabledBands (withGains p g)) ds
    rw [enabledBands_all (p := withGains p g) (by rw [hwl]; show n = p.enabled.length; rw [← hl, h2]) he]
    apply forall₂_of_get (by rw [hwl, h1])
    intro i s c hs hc
    have hi : i < n := by rw [← hwl]; exact (List.getElem?_eq_some_iff.1 hs).1
    rw [withGains_get ⟨i, hi⟩] at hs
    obtain ⟨s0, e0, rfl⟩ := Option.map_eq_some_iff.1 hs
    exact h3 ⟨i, hi⟩ s0 c e0 hc

theorem columns_with {n : ℕ} {rate : ℝ} {p : Params} {g : Fin (n + 1) → ℝ} {ds : List (Stage ℝ)}
    (hd : DesignsWith rate p g ds) (hg : ∀ s ∈ p.stages, HasGain s ∧ BandOk rate s) (fs : List ℝ) :
    columns ds rate fs n = .ok ((List.range n).map fun k => fs.map fun f =>
      decibels ‖response (ds.getD k ⟨[], []⟩) (radians f rate)‖) := by
  obtain ⟨h1, h2, h3⟩ := hd
  unfold columns
  apply Mfcc.mapM_ok
  intro k hk
  rw [List.mem_range] at hk
  unfold column
  apply Mfcc.mapM_ok
  intro f _
  unfold stageDb
  have hk1 : k < ds.length := by omega
  have hk2 : k < p.stages.length := by omega
  rw [List.getElem?_eq_getElem hk1, List.getD_eq_getElem _ _ hk1]
  dsimp only
  have hs := hg p.stages[k] (List.getElem_mem hk2)
  obtain ⟨d1, -⟩ := h3 ⟨k, hk⟩ p.stages[k] ds[k] (List.getElem?_eq_getElem hk2) (List.getElem?_eq_getElem hk1)
  obtain ⟨c, e1, e2⟩ := design_known (rate := rate) (s := { p.stages[k] with gain := g (⟨k, hk⟩ : Fin n).castSucc }) hs.2
  have : ds[k] = c := Option.some.inj (d1.symm.trans e1)
  have hne : response ds[k] (2 * Real.pi * f / rate) ≠ 0 := by
    rw [this]
    exact e2.nonzero hs.1 _
  rw [if_neg (by rw [norm_eq_zero]; exact hne)]
  rfl

theorem magnitude_levels {n : ℕ} {rate : ℝ} {g : Fin (n + 1) → ℝ} {ds : List (Stage ℝ)} (fs : List ℝ) :
    magnitudeMatrix ((List.range n).map fun k => fs.map fun f =>
      decibels ‖response (ds.getD k ⟨[], []⟩) (radians f rate)‖) g fs.length = levels rate fs ds g := by
  funext i k
  unfold magnitudeMatrix levels
  by_cases hk : k.val < n
  · rw [if_pos hk, if_pos hk, List.getD_eq_getElem (List.map _ (List.range n)) _ (by simpa using hk), List.getElem_map, List.getElem_range,
      List.getD_eq_getElem _ _ (by simp), List.getElem_map, List.getD_eq_getElem fs _ i.2]
  · rw [if_neg hk, if_neg hk]

/-- One iteration. -/
theorem matchLoop_step {n : ℕ} {fs target : List ℝ} {rate thr : ℝ} {p : Params} {g g' : Fin (n + 1) → ℝ} (hr : 0 < rate)
    (hl : p.stages.length = p.enabled.length) (he : ∀ b ∈ p.enabled, b = true) (hn : 0 < n) (hnt : n = p.total)
    (hg : ∀ s ∈ p.stages, HasGain s ∧ BandOk rate s) (hf : Fits rate fs target p g g') (left : ℕ) :
    ((∀ k, |g' k - g k| < thr) →
      matchLoop fs target rate thr (left + 1) g (withGains p g) = .ok (withGains p g')) ∧
    ((∃ k, thr ≤ |g' k - g k|) →
      matchLoop fs target rate thr (left + 1) g (withGains p g) =
        matchLoop fs target rate thr left g' (withGains p g')) := by
  obtain ⟨ds, hd, w, hw, hmin⟩ := hf
  have hw' := solve_unique _ _ hmin
  have hg' : (fun k => solve (levels rate fs ds g) (fun i => target.getD i.val 0) k * g k) = g' := by
    funext k
    rw [hw k, hw']
  subst hg'
  constructor
  · intro h
    rw [matchLoop, coefficients_with hr hl he hn hd]
    dsimp only
    rw [columns_with hd hg]
    dsimp only
    rw [magnitude_levels, setGains_ok (by
      show n = (withGains p g).stages.length; rw [withGains_length hnt])]
    dsimp only
    rw [if_pos h, withGains_setGain, withGains_withGains _ _ hnt]
  · intro h
    rw [matchLoop, coefficients_with hr hl he hn hd]
    dsimp only
    rw [columns_with hd hg]
    dsimp only
    rw [magnitude_levels, setGains_ok (by
      show n = (withGains p g).stages.length; rw [withGains_length hnt])]
    dsimp only
    rw [if_neg (by push Not; exact h), withGains_setGain, withGains_withGains _ _ hnt]

/-- All iterations. -/
theorem matchLoop_run {n : ℕ} {fs target : List ℝ} {rate thr : ℝ} {p : Params} {gs : ℕ → Fin (n + 1) → ℝ} {N M : ℕ}
    (hr : 0 < rate) (hl : p.stages.length = p.enabled.length) (he : ∀ b ∈ p.enabled, b = true) (hn : 0 < n)
    (hnt : n = p.total) (hg : ∀ s ∈ p.stages, HasGain s ∧ BandOk rate s)
    (hf : ∀ i < N, Fits rate fs target p (gs i) (gs (i + 1))) (hNM : N ≤ M)
    (hgo : ∀ i, i + 1 < N → ∃ k, thr ≤ |gs (i + 1) k - gs i k|)
    (hend : N = M ∨ ∃ i, i + 1 = N ∧ ∀ k, |gs (i + 1) k - gs i k| < thr) :
    ∀ d i, i + d = N → matchLoop fs target rate thr (M - i) (gs i) (withGains p (gs i)) = .ok (withGains p (gs N)) ∨
      (∃ j, j + 1 = N ∧ i = N ∧ ∀ k, |gs (j + 1) k - gs j k| < thr)
  | 0, i, h => by
    rw [Nat.add_zero] at h
    subst h
    rcases hend with h | ⟨j, hj, hk⟩
    · left
      rw [h, Nat.sub_self]
      rfl
    · right
      exact ⟨j, hj, rfl, hk⟩
  | d + 1, i, h => by
    left
    have hi : i < N := by omega
    have hM : M - i = (M - (i + 1)) + 1 := by omega
    obtain ⟨s1, s2⟩ := matchLoop_step (thr := thr) hr hl he hn hnt hg (hf i hi) (M - (i + 1))
    rw [hM]
    by_cases hc : ∀ k, |gs (i + 1) k - gs i k| < thr
    · rw [s1 hc]
      have : i + 1 = N := by
        by_contra hne
        obtain ⟨k, hk⟩ := hgo i (by omega)
        exact absurd (hc k) (not_lt.2 hk)
      rw [this]
    · push Not at hc
      rw [s2 hc]
      rcases matchLoop_run hr hl he hn hnt hg hf hNM hgo hend d (i + 1) (by omega) with h | ⟨j, h1, h2, h3⟩
      · exact h
      · obtain ⟨k, hk⟩ := hc
        have : j = i := by omega
        subst this
        exact absurd (h3 k) (not_lt.2 hk)

end Verif.ParametricEqualizer
