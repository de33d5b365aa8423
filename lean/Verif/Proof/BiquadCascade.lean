import Verif.Model.BiquadCascade
import Verif.Proof.Series
import Mathlib.Algebra.Polynomial.Eval.Defs
import Mathlib.Algebra.Polynomial.Eval.Degree
import Mathlib.RingTheory.PowerSeries.Inverse
import Mathlib.Algebra.BigOperators.Group.List.Basic
import Mathlib.Tactic.FieldSimp

namespace Verif.BiquadCascade
open Verif.LinearFilter.Spec Verif.Series PowerSeries Finset

section Ring
variable {R : Type} [CommRing R]

theorem ps_eq_sum (p : List R) : ps p = ∑ k ∈ range p.length, C (p.getD k 0) * X ^ k := by
  ext n
  rw [map_sum]
  simp only [coeff_C_mul, coeff_X_pow, coeff_ps]
  rw [Finset.sum_congr rfl (fun k _ => by rw [mul_ite, mul_one, mul_zero])]
  rw [Finset.sum_ite_eq]
  split
  · rfl
  · rename_i h
    rw [mem_range] at h
    rw [List.getD_eq_getElem?_getD, List.getElem?_eq_none (by omega)]; rfl

/-- The polynomial with the given coefficient list. -/
noncomputable def toPoly (p : List R) : Polynomial R :=
  ∑ k ∈ range p.length, Polynomial.C (p.getD k 0) * Polynomial.X ^ k

theorem coe_toPoly (p : List R) : ((toPoly p : Polynomial R) : R⟦X⟧) = ps p := by
  rw [ps_eq_sum, toPoly, ← Polynomial.coeToPowerSeries.ringHom_apply, map_sum]
  apply sum_congr rfl
  intro k _
  simp [Polynomial.coeToPowerSeries.ringHom_apply]

theorem eval_toPoly {A : Type} [CommRing A] (φ : R →+* A) (p : List R) (w : A) :
    (toPoly p).eval₂ φ w = evalZ φ p w := by
  rw [toPoly, Polynomial.eval₂_finset_sum]
  apply sum_congr rfl
  intro k _
  simp [Polynomial.eval₂_mul, Polynomial.eval₂_pow]

theorem evalZ_of_ps_mul {A : Type} [CommRing A] {x y r : List R} (h : ps r = ps x * ps y)
    (φ : R →+* A) (w : A) : evalZ φ r w = evalZ φ x w * evalZ φ y w := by
  rw [← eval_toPoly, ← eval_toPoly, ← eval_toPoly, ← Polynomial.eval₂_mul]
  congr 1
  apply Polynomial.coe_injective
  rw [Polynomial.coe_mul, coe_toPoly, coe_toPoly, coe_toPoly, h]

theorem evalZ_of_ps {A : Type} [CommRing A] {x r : List R} (h : ps r = ps x)
    (φ : R →+* A) (w : A) : evalZ φ r w = evalZ φ x w := by
  rw [← eval_toPoly, ← eval_toPoly]
  congr 1
  apply Polynomial.coe_injective
  rw [coe_toPoly, coe_toPoly, h]

theorem ps_set_add (r : List R) (k : ℕ) (v : R) (h : k < r.length) :
    ps (r.set k (r.getD k 0 + v)) = ps r + C v * X ^ k := by
  ext n
  rw [map_add, coeff_C_mul, coeff_X_pow, coeff_ps, coeff_ps, List.getD_eq_getElem?_getD,
    List.getElem?_set]
  by_cases c : k = n
  · subst c
    rw [if_pos rfl, if_pos h]; simp
  · rw [if_neg c, if_neg (Ne.symm c)]; simp

theorem inner_fold (y : List R) (f : ℕ → R) (i : ℕ) : ∀ (m : ℕ) (r : List R), i + m ≤ r.length →
    ((List.range m).foldl (fun r j => r.set (i + j) (r.getD (i + j) 0 + f j)) r).length = r.length ∧
    ps ((List.range m).foldl (fun r j => r.set (i + j) (r.getD (i + j) 0 + f j)) r)
      = ps r + ∑ j ∈ range m, C (f j) * X ^ (i + j) := by
  intro m
  induction m with
  | zero => intro r _; simp
  | succ m ih =>
    intro r hr
    obtain ⟨h1, h2⟩ := ih r (by omega)
    rw [List.range_succ, List.foldl_append]
    simp only [List.foldl_cons, List.foldl_nil]
    refine ⟨by rw [List.length_set, h1], ?_⟩
    rw [ps_set_add _ _ _ (by rw [h1]; omega), h2, sum_range_succ, add_assoc]

theorem convolve_fold (x y : List R) : ∀ (m : ℕ), m ≤ x.length → ∀ (r : List R),
    x.length + y.length - 1 ≤ r.length →
    let out := (List.range m).foldl (fun r i =>
      (List.range y.length).foldl (fun r j =>
        r.set (i + j) (r.getD (i + j) 0 + x.getD i 0 * y.getD j 0)) r) r
    out.length = r.length ∧
    ps out = ps r + (∑ i ∈ range m, C (x.getD i 0) * X ^ i) * ps y := by
  intro m
  induction m with
  | zero => intro _ r _; simp
  | succ m ih =>
    intro hm r hr
    obtain ⟨h1, h2⟩ := ih (by omega) r hr
    simp only at h1 h2 ⊢
    rw [List.range_succ, List.foldl_append]
    simp only [List.foldl_cons, List.foldl_nil]
    obtain ⟨h3, h4⟩ := inner_fold y (fun j => x.getD m 0 * y.getD j 0) m y.length
      ((List.range m).foldl (fun r i =>
      (List.range y.length).foldl (fun r j =>
        r.set (i + j) (r.getD (i + j) 0 + x.getD i 0 * y.getD j 0)) r) r) (by rw [h1]; omega)
    refine ⟨by rw [h3, h1], ?_⟩
    rw [h4, h2, sum_range_succ, add_mul, add_assoc]
    congr 2
    rw [ps_eq_sum y, mul_sum]
    apply sum_congr rfl
    intro j _
    rw [map_mul, pow_add]; ring

theorem ps_take (r : List R) (n : ℕ) (h : ∀ k, n ≤ k → r.getD k 0 = 0) : ps (r.take n) = ps r := by
  ext k
  rw [coeff_ps, coeff_ps, List.getD_eq_getElem?_getD, List.getElem?_take]
  split
  · rfl
  · rw [h k (by omega)]; rfl

end Ring

section Field
variable {K : Type} [Field K] [LinearOrder K] [IsStrictOrderedRing K]

omit [IsStrictOrderedRing K] in
theorem convolveRaw_spec (x y : List K) :
    (convolveRaw x y).length = x.length + y.length - 1 ∧ ps (convolveRaw x y) = ps x * ps y := by
  obtain ⟨h1, h2⟩ := convolve_fold x y x.length (Nat.le_refl _)
    (List.replicate (x.length + y.length - 1) 0) (by simp)
  unfold convolveRaw
  refine ⟨by rw [h1]; simp, ?_⟩
  rw [h2, ← ps_eq_sum]
  have : ps (List.replicate (x.length + y.length - 1) (0 : K)) = 0 := by
    ext n
    rw [coeff_ps, List.getD_eq_getElem?_getD, List.getElem?_replicate]
    split <;> simp
  rw [this, zero_add]

theorem trimOrder_none (r : List K) : ∀ n, trimOrder r n = none ↔ ∀ k, k < n → r.getD k 0 = 0
  | 0 => by simp [trimOrder]
  | n + 1 => by
    rw [trimOrder]
    split
    · rename_i h
      rw [abs_eq_zero] at h
      rw [trimOrder_none r n]
      constructor
      · intro hk k hlt
        by_cases c : k = n
        · rw [c, h]
        · exact hk k (by omega)
      · intro hk k hlt; exact hk k (by omega)
    · rename_i h
      rw [abs_eq_zero] at h
      simp only [reduceCtorEq, false_iff, not_forall]
      exact ⟨n, by omega, h⟩

theorem trimOrder_some (r : List K) : ∀ n m, trimOrder r n = some m →
    0 < m ∧ m ≤ n ∧ r.getD (m - 1) 0 ≠ 0 ∧ ∀ k, m ≤ k → k < n → r.getD k 0 = 0
  | 0, m => by simp [trimOrder]
  | n + 1, m => by
    intro h
    rw [trimOrder] at h
    split at h
    · rename_i h0
      rw [abs_eq_zero] at h0
      obtain ⟨h1, h2, h3, h4⟩ := trimOrder_some r n m h
      refine ⟨h1, by omega, h3, ?_⟩
      intro k hk hlt
      by_cases c : k = n
      · rw [c, h0]
      · exact h4 k hk (by omega)
    · rename_i h0
      rw [abs_eq_zero] at h0
      injection h with h
      subst h
      exact ⟨by omega, by omega, by simpa using h0, fun k hk hlt => by omega⟩

theorem ps_eq_zero (r : List K) : ps r = 0 ↔ ∀ k, r.getD k 0 = 0 := by
  constructor
  · intro h k
    rw [← coeff_ps, h, map_zero]
  · intro h; ext n; rw [coeff_ps, h, map_zero]

/-- `Convolve` multiplies; it runs into undefined behaviour exactly when the product is zero. -/
theorem convolve_some (x y : List K) (hx : ps x ≠ 0) (hy : ps y ≠ 0) :
    ∃ r, convolve x y = some r ∧ ps r = ps x * ps y ∧ r.length ≤ x.length + y.length - 1 := by
  obtain ⟨h1, h2⟩ := convolveRaw_spec x y
  unfold convolve
  cases ht : trimOrder (convolveRaw x y) (convolveRaw x y).length with
  | none =>
    exfalso
    rw [trimOrder_none] at ht
    apply mul_ne_zero hx hy
    rw [← h2, ps_eq_zero]
    intro k
    by_cases c : k < (convolveRaw x y).length
    · exact ht k c
    · rw [List.getD_eq_getElem?_getD, List.getElem?_eq_none (by omega)]; rfl
  | some m =>
    obtain ⟨h3, h4, h5, h6⟩ := trimOrder_some _ _ _ ht
    refine ⟨(convolveRaw x y).take m, by simp [ht], ?_, by simp; omega⟩
    rw [ps_take, h2]
    intro k hk
    by_cases c : k < (convolveRaw x y).length
    · exact h6 k hk c
    · rw [List.getD_eq_getElem?_getD, List.getElem?_eq_none (by omega)]; rfl

theorem convolve_none (x y : List K) (h : ps x * ps y = 0) : convolve x y = none := by
  obtain ⟨h1, h2⟩ := convolveRaw_spec x y
  unfold convolve
  simp only
  rw [(trimOrder_none _ _).2, Option.map_none]
  intro k _
  rw [← coeff_ps, h2, h, map_zero]

theorem ps_one : ps ([1] : List K) = 1 := by rw [ps_cons, ps_nil]; simp

theorem multiplyOut_spec : ∀ (polys : List (List K)) (acc : List K), ps acc ≠ 0 →
    (∀ p ∈ polys, ps p ≠ 0) →
    ∃ r, polys.foldlM (fun acc p => convolve p acc) acc = some r ∧ ps r ≠ 0 ∧
      ps r = (polys.map ps).prod * ps acc
  | [], acc, h, _ => ⟨acc, rfl, h, by simp⟩
  | p :: polys, acc, h, hp => by
    obtain ⟨r, e, hr, _⟩ := convolve_some p acc (hp p (by simp)) h
    have hr0 : ps r ≠ 0 := by rw [hr]; exact mul_ne_zero (hp p (by simp)) h
    obtain ⟨r', e', h', hr'⟩ := multiplyOut_spec polys r hr0 (fun q hq => hp q (by simp [hq]))
    refine ⟨r', by rw [List.foldlM_cons, e]; exact e', h', ?_⟩
    rw [hr', hr, List.map_cons, List.prod_cons]; ring

theorem multiplyOut_none : ∀ (polys : List (List K)) (acc : List K),
    (∃ p ∈ polys, ps p = 0) → polys.foldlM (fun acc p => convolve p acc) acc = none
  | [], _, h => by simp at h
  | p :: polys, acc, h => by
    rw [List.foldlM_cons]
    by_cases c : ps p = 0
    · rw [convolve_none p acc (by rw [c, zero_mul])]; rfl
    · have h' : ∃ q ∈ polys, ps q = 0 := by
        obtain ⟨q, hq, h0⟩ := h
        rcases List.mem_cons.mp hq with rfl | hq
        · exact absurd h0 c
        · exact ⟨q, hq, h0⟩
      cases convolve p acc with
      | none => rfl
      | some r => exact multiplyOut_none polys r h'

theorem evalZ_prod {A : Type} [CommRing A] (φ : K →+* A) (w : A) : ∀ (polys : List (List K)) (r : List K),
    ps r = (polys.map ps).prod → evalZ φ r w = (polys.map (fun p => evalZ φ p w)).prod := by
  have key : ∀ (polys : List (List K)), (polys.map (fun p => evalZ φ p w)).prod
      = ((polys.map toPoly).prod).eval₂ φ w := by
    intro polys
    induction polys with
    | nil => simp
    | cons p polys ih =>
      rw [List.map_cons, List.prod_cons, ih, List.map_cons, List.prod_cons, Polynomial.eval₂_mul,
        eval_toPoly]
  intro polys r h
  rw [key, ← eval_toPoly]
  congr 1
  apply Polynomial.coe_injective
  rw [coe_toPoly, h]
  have : ∀ (polys : List (List K)), (((polys.map toPoly).prod : Polynomial K) : K⟦X⟧)
      = (polys.map ps).prod := by
    intro polys
    induction polys with
    | nil => simp
    | cons p polys ih => simp [Polynomial.coe_mul, ih, coe_toPoly]
  rw [this]

/-! ### Simplify -/

theorem prod_set_mul {M : Type} [CommMonoid M] : ∀ (l : List M) (i : ℕ) (v p : M), l[i]? = some p →
    p * (l.set i v).prod = v * l.prod
  | [], i, v, p, h => by simp at h
  | x :: l, 0, v, p, h => by
    simp at h; subst h
    rw [List.set_cons_zero, List.prod_cons, List.prod_cons]
    exact mul_left_comm _ _ _
  | x :: l, i + 1, v, p, h => by
    have ih := prod_set_mul l i v p (by simpa using h)
    rw [List.set_cons_succ, List.prod_cons, List.prod_cons, mul_left_comm, ih, mul_left_comm]

theorem prod_eraseIdx_mul {M : Type} [CommMonoid M] : ∀ (l : List M) (i : ℕ) (p : M), l[i]? = some p →
    l.prod = p * (l.eraseIdx i).prod
  | [], i, p, h => by simp at h
  | x :: l, 0, p, h => by
    simp at h; subst h
    rw [List.eraseIdx_cons_zero, List.prod_cons]
  | x :: l, i + 1, p, h => by
    have ih := prod_eraseIdx_mul l i p (by simpa using h)
    rw [List.eraseIdx_cons_succ, List.prod_cons, List.prod_cons, ih, mul_left_comm]

/-- Coefficients that the thresholds classify exactly. -/
structure Separated (ε δ : K) (p : List K) : Prop where
  len : p.length = 3
  sep : ε < |p.getD 2 0| ∨ (p.getD 2 0 = 0 ∧ (p.getD 1 0 = 0 ∨ δ < |p.getD 1 0|))

theorem ps_three (p : List K) (h : p.length = 3) :
    ps p = C (p.getD 0 0) + X * (C (p.getD 1 0) + X * C (p.getD 2 0)) := by
  obtain ⟨a, b, c, rfl⟩ := List.length_eq_three.mp h
  simp [ps_cons, ps_nil]

omit [Field K] [IsStrictOrderedRing K] in
theorem findIdx?_some_get {α : Type} (l : List α) (f : α → Bool) (i : ℕ) (h : l.findIdx? f = some i) :
    ∃ x, l[i]? = some x ∧ f x = true := by
  rw [List.findIdx?_eq_some_iff_getElem] at h
  obtain ⟨hl, hx, _⟩ := h
  exact ⟨l[i], List.getElem?_eq_getElem hl, hx⟩

theorem findPair_some {ε : K} {polys : List (List K)} {i j : ℕ} (h : findPair ε polys = some (i, j)) :
    i < j ∧ ∃ p q, polys[i]? = some p ∧ polys[j]? = some q ∧ isFirstOrder ε p ∧ isFirstOrder ε q := by
  unfold findPair at h
  split at h
  · simp at h
  · rename_i i' h1
    split at h
    · simp at h
    · rename_i j' h2
      simp only [Option.some.injEq, Prod.mk.injEq] at h
      obtain ⟨rfl, rfl⟩ := h
      obtain ⟨p, hp, fp⟩ := findIdx?_some_get _ _ _ h1
      obtain ⟨q, hq, fq⟩ := findIdx?_some_get _ _ _ h2
      rw [List.getElem?_drop] at hq
      exact ⟨by omega, p, q, hp, hq, fp, fq⟩

theorem merge_pair {ε δ : K} (h0 : 0 ≤ ε) (hδ : 0 ≤ δ) (hεδ : ε ≤ δ * δ) {p q : List K}
    (hp : Separated ε δ p) (hq : Separated ε δ q) (fp : isFirstOrder ε p) (fq : isFirstOrder ε q) :
    ∃ c, convolve p q = some c ∧ ps (resize3 c) = ps p * ps q ∧ Separated ε δ (resize3 c) ∧
      ε < |(resize3 c).getD 2 0| ∧ (resize3 c).getD 0 0 = p.getD 0 0 * q.getD 0 0 := by
  simp only [isFirstOrder, decide_eq_true_eq] at fp fq
  have aux : ∀ {p : List K}, Separated ε δ p → |p.getD 2 0| ≤ ε ∧ ε < |p.getD 1 0| →
      p.getD 2 0 = 0 ∧ δ < |p.getD 1 0| := by
    intro p hp fp
    rcases hp.sep with h | ⟨h1, h2⟩
    · exact absurd h (not_lt.mpr fp.1)
    · rcases h2 with h2 | h2
      · rw [h2, abs_zero] at fp; exact absurd fp.2 (not_lt.mpr h0)
      · exact ⟨h1, h2⟩
  obtain ⟨p2, p1⟩ := aux hp fp
  obtain ⟨q2, q1⟩ := aux hq fq
  have hpz : ps p ≠ 0 := by
    intro h
    have := (ps_eq_zero p).1 h 1
    rw [this, abs_zero] at fp; exact absurd fp.2 (not_lt.mpr h0)
  have hqz : ps q ≠ 0 := by
    intro h
    have := (ps_eq_zero q).1 h 1
    rw [this, abs_zero] at fq; exact absurd fq.2 (not_lt.mpr h0)
  obtain ⟨c, e, hc, _⟩ := convolve_some p q hpz hqz
  have hps : ps p * ps q = C (p.getD 0 0 * q.getD 0 0) + X * (C (p.getD 0 0 * q.getD 1 0 + p.getD 1 0 * q.getD 0 0)
      + X * C (p.getD 1 0 * q.getD 1 0)) := by
    rw [ps_three p hp.len, ps_three q hq.len, p2, q2]
    simp only [map_mul, map_add, map_zero]
    ring
  have hps' : ps p * ps q = ps [p.getD 0 0 * q.getD 0 0,
      p.getD 0 0 * q.getD 1 0 + p.getD 1 0 * q.getD 0 0, p.getD 1 0 * q.getD 1 0] := by
    rw [hps, ps_three _ rfl]; rfl
  have hcoef : ∀ n, c.getD n 0 = [p.getD 0 0 * q.getD 0 0,
      p.getD 0 0 * q.getD 1 0 + p.getD 1 0 * q.getD 0 0, p.getD 1 0 * q.getD 1 0].getD n 0 := by
    intro n
    rw [← coeff_ps, hc, hps', coeff_ps]
  have hres : resize3 c = [p.getD 0 0 * q.getD 0 0,
      p.getD 0 0 * q.getD 1 0 + p.getD 1 0 * q.getD 0 0, p.getD 1 0 * q.getD 1 0] := by
    unfold resize3
    rw [hcoef 0, hcoef 1, hcoef 2]
    rfl
  have hbig : ε < |p.getD 1 0 * q.getD 1 0| := by
    rw [abs_mul]
    calc ε ≤ δ * δ := hεδ
      _ < |p.getD 1 0| * |q.getD 1 0| := mul_lt_mul'' p1 q1 hδ hδ
  refine ⟨c, e, by rw [hres, hps'], ⟨rfl, Or.inl ?_⟩, ?_, ?_⟩
  · rw [hres]; exact hbig
  · rw [hres]; exact hbig
  · rw [hres]; rfl

theorem mergeFirstOrder_spec {ε δ : K} (h0 : 0 ≤ ε) (hδ : 0 ≤ δ) (hεδ : ε ≤ δ * δ)
    (Q : List K → Prop) (hQ1 : Q [1, 0, 0])
    (hQm : ∀ p q c : List K, Q p → Q q → c.length = 3 → ε < |c.getD 2 0| →
      c.getD 0 0 = p.getD 0 0 * q.getD 0 0 → Q c) :
    ∀ (n : ℕ) (polys : List (List K)), (∀ p ∈ polys, Separated ε δ p ∧ Q p) →
    ∃ out, mergeFirstOrder ε n polys = some out ∧ out.length = polys.length ∧
      (∀ p ∈ out, Separated ε δ p ∧ Q p) ∧ (out.map ps).prod = (polys.map ps).prod
  | 0, polys, h => ⟨polys, rfl, rfl, h, rfl⟩
  | n + 1, polys, h => by
    rw [mergeFirstOrder]
    split
    · exact ⟨polys, rfl, rfl, h, rfl⟩
    · rename_i i j hf
      obtain ⟨hij, p, q, hp, hq, fp, fq⟩ := findPair_some hf
      have hpm := h p (List.mem_of_getElem? hp)
      have hqm := h q (List.mem_of_getElem? hq)
      obtain ⟨c, e, hc, hs, hb, hc0⟩ := merge_pair h0 hδ hεδ hpm.1 hqm.1 fp fq
      have hgp : polys.getD i [] = p := by rw [List.getD_eq_getElem?_getD, hp]; rfl
      have hgq : polys.getD j [] = q := by rw [List.getD_eq_getElem?_getD, hq]; rfl
      have hmem : ∀ r ∈ (polys.set i (resize3 c)).set j [1, 0, 0], Separated ε δ r ∧ Q r := by
        intro r hr
        rcases List.mem_or_eq_of_mem_set hr with hr | rfl
        · rcases List.mem_or_eq_of_mem_set hr with hr | rfl
          · exact h r hr
          · exact ⟨hs, hQm p q _ hpm.2 hqm.2 hs.len hb hc0⟩
        · exact ⟨⟨rfl, Or.inr ⟨rfl, Or.inl rfl⟩⟩, hQ1⟩
      obtain ⟨out, e2, l2, g2, pr2⟩ := mergeFirstOrder_spec h0 hδ hεδ Q hQ1 hQm n _ hmem
      refine ⟨out, ?_, by rw [l2]; simp, g2, ?_⟩
      · simp only [hgp, hgq, e, Option.bind_eq_bind, Option.bind_some]
        exact e2
      · rw [pr2]
        have hpz : ps p ≠ 0 := by
          intro hz
          have := (ps_eq_zero p).1 hz 1
          simp only [isFirstOrder, decide_eq_true_eq] at fp
          rw [this, abs_zero] at fp; exact absurd fp.2 (not_lt.mpr h0)
        have hqz : ps q ≠ 0 := by
          intro hz
          have := (ps_eq_zero q).1 hz 1
          simp only [isFirstOrder, decide_eq_true_eq] at fq
          rw [this, abs_zero] at fq; exact absurd fq.2 (not_lt.mpr h0)
        have m1 := prod_set_mul (polys.map ps) i (ps (resize3 c)) (ps p) (by rw [List.getElem?_map, hp]; rfl)
        have m2 := prod_set_mul ((polys.set i (resize3 c)).map ps) j (ps [1, 0, 0]) (ps q) (by
          rw [List.getElem?_map, List.getElem?_set, if_neg (by omega), hq]; rfl)
        rw [← List.map_set] at m1 m2
        have hone : ps ([1, 0, 0] : List K) = 1 := by simp [ps_cons, ps_nil]
        rw [hone, one_mul] at m2
        apply mul_left_cancel₀ (mul_ne_zero hpz hqz)
        rw [mul_assoc, m2, m1, hc]

/-- The loops over first-order pairs end because no pair is left, not because of the bound. -/
theorem mergeFirstOrder_done {ε : K} (h0 : 0 ≤ ε) (h1 : ε < 1) : ∀ (n : ℕ) (polys out : List (List K)),
    polys.countP (isFirstOrder ε) ≤ n → mergeFirstOrder ε n polys = some out →
    findPair ε out = none
  | 0, polys, out, hc, h => by
    rw [mergeFirstOrder] at h
    injection h with h
    subst h
    unfold findPair
    have : polys.findIdx? (isFirstOrder ε) = none := by
      rw [List.findIdx?_eq_none_iff]
      intro x hx
      have := List.countP_eq_zero.mp (Nat.le_zero.mp hc) x hx
      simpa using this
    rw [this]
  | n + 1, polys, out, hc, h => by
    rw [mergeFirstOrder] at h
    split at h
    · rename_i hf
      injection h with h
      rw [← h]; exact hf
    · rename_i i j hf
      obtain ⟨hij, p, q, hp, hq, fp, fq⟩ := findPair_some hf
      simp only [Option.bind_eq_bind] at h
      cases hcv : convolve (polys.getD i []) (polys.getD j []) with
      | none => rw [hcv] at h; simp at h
      | some c =>
        rw [hcv, Option.bind_some] at h
        refine mergeFirstOrder_done h0 h1 n _ out ?_ h
        have hi : i < polys.length := by
          rw [List.getElem?_eq_some_iff] at hp; exact hp.1
        have hj : j < polys.length := by
          rw [List.getElem?_eq_some_iff] at hq; exact hq.1
        have fi : isFirstOrder ε polys[i] = true := by
          rw [List.getElem?_eq_getElem hi] at hp; injection hp with hp; rw [hp]; exact fp
        have fj : isFirstOrder ε polys[j] = true := by
          rw [List.getElem?_eq_getElem hj] at hq; injection hq with hq; rw [hq]; exact fq
        have f1 : isFirstOrder ε ([1, 0, 0] : List K) = false := by
          simp [isFirstOrder, h0]
        rw [List.countP_set (by simpa using hj), List.countP_set hi, List.getElem_set_ne (by omega), f1]
        rw [fi, fj]
        have : 0 < List.countP (isFirstOrder ε) polys :=
          List.countP_pos_iff.mpr ⟨_, List.getElem_mem hi, fi⟩
        simp only [if_true]
        split <;> simp <;> omega

/-- Conditions on a stage under which the zero-order loop is exact. -/
structure GoodStage (ε δ : K) (s : Stage K) : Prop where
  b : Separated ε δ s.b
  a : Separated ε δ s.a
  a0 : s.a.getD 0 0 ≠ 0
  gb : isZeroOrder ε s.b → 1 ≤ |s.b.getD 0 0|
  ga : isZeroOrder ε s.a → |s.a.getD 0 0| ≤ 1

theorem zero_order_ps {ε δ : K} (hεδ : ε ≤ δ) {p : List K} (hp : Separated ε δ p)
    (hz : isZeroOrder ε p) : ps p = C (p.getD 0 0) := by
  simp only [isZeroOrder, decide_eq_true_eq] at hz
  rw [ps_three p hp.len]
  rcases hp.sep with h | ⟨h2, h1 | h1⟩
  · exact absurd h (not_lt.mpr hz.2)
  · rw [h2, h1]; simp
  · exact absurd h1 (not_lt.mpr (hz.1.trans hεδ))

theorem scaled_good {ε δ : K} {s : Stage K} (hs : GoodStage ε δ s) (g : K) (hg : 1 ≤ |g|) :
    GoodStage ε δ { s with b := s.b.map (· * g) } := by
  have hget : ∀ k, (s.b.map (· * g)).getD k 0 = s.b.getD k 0 * g := by
    intro k
    rw [List.getD_eq_getElem?_getD, List.getD_eq_getElem?_getD, List.getElem?_map]
    cases s.b[k]? <;> simp
  have hle : ∀ x : K, |x| ≤ |x * g| := by
    intro x
    rw [abs_mul]
    exact le_mul_of_one_le_right (abs_nonneg x) hg
  refine ⟨⟨by simpa using hs.b.len, ?_⟩, hs.a, hs.a0, ?_, hs.ga⟩
  · simp only [hget]
    rcases hs.b.sep with h | ⟨h2, h1 | h1⟩
    · exact Or.inl (h.trans_le (hle _))
    · exact Or.inr ⟨by rw [h2, zero_mul], Or.inl (by rw [h1, zero_mul])⟩
    · exact Or.inr ⟨by rw [h2, zero_mul], Or.inr (h1.trans_le (hle _))⟩
  · simp only [hget]
    intro hz
    simp only [isZeroOrder, decide_eq_true_eq, hget] at hz
    refine (hs.gb ?_).trans (hle _)
    simp only [isZeroOrder, decide_eq_true_eq]
    exact ⟨(hle _).trans hz.1, (hle _).trans hz.2⟩

theorem ps_map_mul (p : List K) (g : K) : ps (p.map (· * g)) = C g * ps p := by
  ext n
  rw [coeff_C_mul, coeff_ps, coeff_ps, List.getD_eq_getElem?_getD, List.getD_eq_getElem?_getD,
    List.getElem?_map]
  cases p[n]? <;> simp [mul_comm]

/-- Products of numerators and denominators. -/
noncomputable def numProd (cs : List (Stage K)) : K⟦X⟧ := (cs.map (fun s => ps s.b)).prod
noncomputable def denProd (cs : List (Stage K)) : K⟦X⟧ := (cs.map (fun s => ps s.a)).prod

theorem adjustGain_spec (g : K) (cs : List (Stage K)) (hne : cs ≠ []) :
    numProd (adjustGain g cs) = C g * numProd cs ∧ denProd (adjustGain g cs) = denProd cs := by
  cases cs with
  | nil => exact absurd rfl hne
  | cons s rest =>
    simp only [numProd, denProd, adjustGain, List.map_cons, List.prod_cons, ps_map_mul]
    exact ⟨by ring, trivial⟩

theorem findZeroOrder_some {ε : K} {cs : List (Stage K)} {ia ib : ℕ}
    (h : findZeroOrder ε cs = some (ia, ib)) :
    ∃ sa sb, cs[ia]? = some sa ∧ cs[ib]? = some sb ∧ isZeroOrder ε sa.a ∧ isZeroOrder ε sb.b := by
  unfold findZeroOrder at h
  split at h
  · simp at h
  · rename_i i' h1
    split at h
    · simp at h
    · rename_i j' h2
      simp only [Option.some.injEq, Prod.mk.injEq] at h
      obtain ⟨rfl, rfl⟩ := h
      obtain ⟨p, hp, fp⟩ := findIdx?_some_get _ _ _ h1
      obtain ⟨q, hq, fq⟩ := findIdx?_some_get _ _ _ h2
      exact ⟨p, q, hp, hq, fp, fq⟩

theorem dropZeroOrder_length (cs : List (Stage K)) (ia ib : ℕ) (h : ia < cs.length) :
    (dropZeroOrder cs ia ib).length = cs.length - 1 := by
  have hadj : ∀ (g : K) (l : List (Stage K)), (adjustGain g l).length = l.length := by
    intro g l; cases l <;> simp [adjustGain]
  unfold dropZeroOrder
  simp only
  split <;> split <;> simp [hadj, List.length_eraseIdx, h]

theorem dropZeroOrder_spec {ε δ : K} (hεδ : ε ≤ δ) {cs : List (Stage K)} (hcs : ∀ s ∈ cs, GoodStage ε δ s)
    (hlen : 1 < cs.length) {ia ib : ℕ} (h : findZeroOrder ε cs = some (ia, ib)) :
    (∀ s ∈ dropZeroOrder cs ia ib, GoodStage ε δ s) ∧ dropZeroOrder cs ia ib ≠ [] ∧
    ∃ c : K, c ≠ 0 ∧ numProd cs = C c * numProd (dropZeroOrder cs ia ib) ∧
      denProd cs = C c * denProd (dropZeroOrder cs ia ib) := by
  obtain ⟨sa, sb, hsa, hsb, za, zb⟩ := findZeroOrder_some h
  have hia : ia < cs.length := by rw [List.getElem?_eq_some_iff] at hsa; exact hsa.1
  have gsa := hcs sa (List.mem_of_getElem? hsa)
  have gsb := hcs sb (List.mem_of_getElem? hsb)
  have hga : cs.getD ia ⟨[], []⟩ = sa := by rw [List.getD_eq_getElem?_getD, hsa]; rfl
  have hgb : cs.getD ib ⟨[], []⟩ = sb := by rw [List.getD_eq_getElem?_getD, hsb]; rfl
  have pa := zero_order_ps hεδ gsa.a za
  have pb := zero_order_ps hεδ gsb.b zb
  have hgain : 1 ≤ |sb.b.getD 0 0 / sa.a.getD 0 0| := by
    rw [abs_div]
    have h1 := gsb.gb zb
    have h2 := gsa.ga za
    have h3 : 0 < |sa.a.getD 0 0| := abs_pos.mpr gsa.a0
    rw [le_div_iff₀ h3, one_mul]
    exact h2.trans h1
  have hne : dropZeroOrder cs ia ib ≠ [] := by
    intro he
    have := dropZeroOrder_length cs ia ib hia
    rw [he] at this
    simp at this
    omega
  -- the list before the gain is applied
  let cs1 := if ia ≠ ib then cs.set ib { sb with b := sa.b } else cs
  let cs2 := cs1.eraseIdx ia
  have hdef : dropZeroOrder cs ia ib = if sb.b.getD 0 0 / sa.a.getD 0 0 ≠ 1
      then adjustGain (sb.b.getD 0 0 / sa.a.getD 0 0) cs2 else cs2 := by
    unfold dropZeroOrder
    simp only [hga, hgb]
    rfl
  have hcs1 : ∀ s ∈ cs1, GoodStage ε δ s := by
    intro s hs
    simp only [cs1] at hs
    split at hs
    · rcases List.mem_or_eq_of_mem_set hs with hs | rfl
      · exact hcs s hs
      · exact ⟨gsa.b, gsb.a, gsb.a0, gsa.gb, gsb.ga⟩
    · exact hcs s hs
  have hcs2 : ∀ s ∈ cs2, GoodStage ε δ s := fun s hs => hcs1 s (List.mem_of_mem_eraseIdx hs)
  have hcs2ne : cs2 ≠ [] := by
    intro he
    have hl : cs2.length = cs1.length - 1 := by
      simp only [cs2, List.length_eraseIdx]
      have : cs1.length = cs.length := by simp only [cs1]; split <;> simp
      rw [if_pos (by omega)]
    have hl1 : cs1.length = cs.length := by simp only [cs1]; split <;> simp
    rw [he] at hl; simp at hl; omega
  -- products
  have hnum : numProd cs = C (sb.b.getD 0 0) * numProd cs2 := by
    unfold numProd
    by_cases hc : ia = ib
    · have : cs1 = cs := by simp [cs1, hc]
      simp only [cs2, this]
      rw [← pb]
      have e := prod_eraseIdx_mul (cs.map (fun s => ps s.b)) ia (ps sb.b)
        (by rw [List.getElem?_map, hc, hsb]; rfl)
      rw [e, List.eraseIdx_map]
    · have h1 : cs1 = cs.set ib { sb with b := sa.b } := by simp [cs1, hc]
      have e1 := prod_set_mul (cs.map (fun s => ps s.b)) ib (ps sa.b) (ps sb.b)
        (by rw [List.getElem?_map, hsb]; rfl)
      have e2 := prod_eraseIdx_mul (cs1.map (fun s => ps s.b)) ia (ps sa.b)
        (by rw [List.getElem?_map, h1, List.getElem?_set, if_neg (Ne.symm hc), hsa]; rfl)
      have e3 : (cs1.map (fun s => ps s.b)) = (cs.map (fun s => ps s.b)).set ib (ps sa.b) := by
        rw [h1, List.map_set]
      rw [e3] at e2
      rw [e2, ← e3, List.eraseIdx_map, pb] at e1
      by_cases hz : ps sa.b = 0
      · have : (cs.map (fun s => ps s.b)).prod = 0 := by
          rw [prod_eraseIdx_mul _ ia (ps sa.b) (by rw [List.getElem?_map, hsa]; rfl), hz, zero_mul]
        rw [this]
        have h4 : ((cs2).map (fun s => ps s.b)).prod = 0 := by
          apply List.prod_eq_zero
          rw [List.mem_map]
          refine ⟨{ sb with b := sa.b }, ?_, hz⟩
          simp only [cs2, h1]
          rw [List.mem_eraseIdx_iff_getElem?]
          refine ⟨ib, Ne.symm hc, ?_⟩
          rw [List.getElem?_set, if_pos rfl]
          have : ib < cs.length := by rw [List.getElem?_eq_some_iff] at hsb; exact hsb.1
          simp [this]
        rw [h4, mul_zero]
      · apply mul_left_cancel₀ hz
        rw [← e1]
        simp only [cs2]; ring
  have hden : denProd cs = C (sa.a.getD 0 0) * denProd cs2 := by
    unfold denProd
    have h1 : cs1.map (fun s => ps s.a) = cs.map (fun s => ps s.a) := by
      simp only [cs1]
      split
      · rw [List.map_set]
        apply List.ext_getElem?
        intro k
        rw [List.getElem?_set]
        split
        · rename_i hk
          subst hk
          rw [List.getElem?_map, hsb]
          have : ib < cs.length := by rw [List.getElem?_eq_some_iff] at hsb; exact hsb.1
          simp [this]
        · rfl
      · rfl
    simp only [cs2]
    rw [← List.eraseIdx_map, h1, ← pa]
    exact prod_eraseIdx_mul _ ia _ (by rw [List.getElem?_map, hsa]; rfl)
  refine ⟨?_, hne, sa.a.getD 0 0, gsa.a0, ?_, ?_⟩
  · intro s hs
    rw [hdef] at hs
    split at hs
    · cases hc2 : cs2 with
      | nil => exact absurd hc2 hcs2ne
      | cons t rest =>
        rw [hc2] at hs hcs2
        rw [adjustGain, List.mem_cons] at hs
        rcases hs with rfl | hs
        · exact scaled_good (hcs2 t (by simp)) _ hgain
        · exact hcs2 s (by simp [hs])
    · exact hcs2 s hs
  · rw [hdef]
    split
    · rw [(adjustGain_spec _ cs2 hcs2ne).1, ← mul_assoc, ← map_mul, mul_div_cancel₀ _ gsa.a0, hnum]
    · rename_i hg
      have hg : sb.b.getD 0 0 / sa.a.getD 0 0 = 1 := by simpa using hg
      rw [div_eq_one_iff_eq gsa.a0] at hg
      rw [hnum, hg]
  · rw [hdef]
    split
    · rw [(adjustGain_spec _ cs2 hcs2ne).2, hden]
    · rw [hden]

theorem mergeZeroOrder_spec {ε δ : K} (hεδ : ε ≤ δ) : ∀ (n : ℕ) (cs : List (Stage K)),
    (∀ s ∈ cs, GoodStage ε δ s) → cs ≠ [] →
    (∀ s ∈ mergeZeroOrder ε n cs, GoodStage ε δ s) ∧ mergeZeroOrder ε n cs ≠ [] ∧
    ∃ c : K, c ≠ 0 ∧ numProd cs = C c * numProd (mergeZeroOrder ε n cs) ∧
      denProd cs = C c * denProd (mergeZeroOrder ε n cs)
  | 0, cs, h, hne => ⟨h, hne, 1, one_ne_zero, by simp [mergeZeroOrder], by simp [mergeZeroOrder]⟩
  | n + 1, cs, h, hne => by
    rw [mergeZeroOrder]
    split
    · rename_i hl
      split
      · exact ⟨h, hne, 1, one_ne_zero, by simp, by simp⟩
      · rename_i ia ib hf
        obtain ⟨g1, n1, c1, hc1, e1, e2⟩ := dropZeroOrder_spec hεδ h hl hf
        obtain ⟨g2, n2, c2, hc2, e3, e4⟩ := mergeZeroOrder_spec hεδ n _ g1 n1
        exact ⟨g2, n2, c1 * c2, mul_ne_zero hc1 hc2, by rw [e1, e3, map_mul]; ring,
          by rw [e2, e4, map_mul]; ring⟩
    · exact ⟨h, hne, 1, one_ne_zero, by simp, by simp⟩

/-- The loop over zero-order polynomials ends because its condition fails. -/
theorem mergeZeroOrder_done {ε : K} : ∀ (n : ℕ) (cs : List (Stage K)), cs.length ≤ n →
    (mergeZeroOrder ε n cs).length ≤ 1 ∨ findZeroOrder ε (mergeZeroOrder ε n cs) = none
  | 0, cs, h => by left; rw [mergeZeroOrder]; omega
  | n + 1, cs, h => by
    rw [mergeZeroOrder]
    split
    · split
      · rename_i hf; exact Or.inr hf
      · rename_i ia ib hf
        obtain ⟨sa, _, hsa, _⟩ := findZeroOrder_some hf
        have hia : ia < cs.length := by rw [List.getElem?_eq_some_iff] at hsa; exact hsa.1
        exact mergeZeroOrder_done n _ (by rw [dropZeroOrder_length _ _ _ hia]; omega)
    · left; omega

end Field
end Verif.BiquadCascade
