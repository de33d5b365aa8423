import Verif.Model.NumberUtil
import Mathlib.Data.List.Lex
import Mathlib.Data.List.GetD
import Mathlib.Data.List.Pairwise
import Mathlib.Data.Finset.Powerset
import Mathlib.Data.Set.Finite.List
import Mathlib.Data.Finset.Sort

/-!
# C13: `CombinationsIterator` visits every `k`-combination of `{0, …, n-1}` once, in lexicographic order

Specification: a `k`-combination is written as its strictly increasing list of elements (`Valid`);
`<` on lists is the lexicographic order.
-/

namespace Verif.NumberUtil

/-- A `k`-element subset of `{0, …, n-1}` as a strictly increasing list. -/
def Valid (n k : ℕ) (c : List ℕ) : Prop :=
  c.length = k ∧ c.Pairwise (· < ·) ∧ ∀ x ∈ c, x < n

theorem getD_set_self (l : List ℕ) (i x : ℕ) (h : i < l.length) : (l.set i x).getD i 0 = x := by
  simp [List.getD, h]

theorem getD_set_ne (l : List ℕ) {i j : ℕ} (x : ℕ) (h : i ≠ j) :
    (l.set i x).getD j 0 = l.getD j 0 := by
  simp [List.getD, h]

theorem incLoop_spec (n k i : ℕ) (idx : List ℕ) (hi : i ≤ idx.length) :
    (incLoop n k i idx).1.length = idx.length ∧
    match (incLoop n k i idx).2 with
    | none => ∀ j < i, (n : ℤ) - k + j < (idx.getD j 0 : ℤ) + 1
    | some r => r < i ∧ (idx.getD r 0 : ℤ) + 1 ≤ n - k + r ∧
        (∀ j, r < j → j < i → (n : ℤ) - k + j < (idx.getD j 0 : ℤ) + 1) ∧
        (incLoop n k i idx).1.take (r + 1) = idx.take r ++ [idx.getD r 0 + 1] := by
  induction i generalizing idx with
  | zero => simp [incLoop]
  | succ i ih =>
    simp only [incLoop]
    rw [getD_set_self _ _ _ (by omega)]
    by_cases h : ((idx.getD i 0 + 1 : ℕ) : ℤ) ≤ n - k + i
    · rw [if_pos h]
      refine ⟨by simp, by omega, by push_cast at h; exact h, by intro j h1 h2; omega, ?_⟩
      dsimp only
      rw [List.take_set, List.take_succ_eq_append_getElem (by omega), List.set_append_right _ _ (by simp)]
      simp [show i ≤ idx.length by omega, List.getD, show i < idx.length by omega]
    · rw [if_neg h]
      obtain ⟨h1, h2⟩ := ih (idx.set i (idx.getD i 0 + 1)) (by simp; omega)
      refine ⟨by rw [h1]; simp, ?_⟩
      push_cast at h
      revert h2
      cases (incLoop n k i (idx.set i (idx.getD i 0 + 1))).2 with
      | none =>
        intro h2 j hj
        by_cases hji : j = i
        · subst hji; omega
        · have := h2 j (by omega)
          rwa [getD_set_ne _ _ (by omega)] at this
      | some r =>
        dsimp only
        rintro ⟨a, b, c, d⟩
        refine ⟨by omega, ?_, ?_, ?_⟩
        · rwa [getD_set_ne _ _ (by omega)] at b
        · intro j hj1 hj2
          by_cases hji : j = i
          · subst hji; omega
          · have := c j hj1 (by omega)
            rwa [getD_set_ne _ _ (by omega)] at this
        · rw [d, getD_set_ne _ _ (by omega), List.take_set, List.set_eq_of_length_le (by simp; omega)]

theorem rollLoop_spec (m i : ℕ) (idx : List ℕ) (hi : 1 ≤ i) (hm : i + m = idx.length) :
    rollLoop m i idx = idx.take i ++ List.range' (idx.getD (i - 1) 0 + 1) m := by
  induction m generalizing i idx with
  | zero => simp [rollLoop, List.take_of_length_le (show idx.length ≤ i by omega)]
  | succ m ih =>
    rw [rollLoop, ih (i + 1) _ (by omega) (by simp; omega)]
    rw [show i + 1 - 1 = i by omega, getD_set_self _ _ _ (by omega), List.take_set,
      List.take_succ_eq_append_getElem (by omega), List.set_append_right _ _ (by simp)]
    rw [List.range'_succ]
    simp [show i ≤ idx.length by omega]

/-! ## Order lemmas -/

/-- Pointwise `≤` implies lexicographic `≤`. -/
theorem lex_of_pointwise {a b : List ℕ} (h : List.Forall₂ (· ≤ ·) a b) : a ≤ b := by
  induction h with
  | nil => exact le_refl _
  | cons h _ ih =>
    rcases Nat.lt_or_eq_of_le h with h | h
    · exact le_of_lt (List.Lex.rel h)
    · subst h
      rcases lt_or_eq_of_le ih with h | h
      · exact le_of_lt (List.Lex.cons h)
      · rw [h]

theorem pointwise_of_getD {a b : List ℕ} (hl : a.length = b.length)
    (h : ∀ j < a.length, a.getD j 0 ≤ b.getD j 0) : List.Forall₂ (· ≤ ·) a b := by
  rw [List.forall₂_iff_get]
  refine ⟨hl, ?_⟩
  intro i h1 h2
  have := h i h1
  rw [List.getD_eq_getElem _ _ h1, List.getD_eq_getElem _ _ h2] at this
  simpa using this

/-- `a < b` for lists of equal length: there is a first difference. -/
theorem lex_first_diff {a b : List ℕ} (hl : a.length = b.length) (h : a < b) :
    ∃ p, p < a.length ∧ a.take p = b.take p ∧ a.getD p 0 < b.getD p 0 := by
  induction a generalizing b with
  | nil => cases b with
    | nil => exact absurd h (lt_irrefl _)
    | cons y b => simp at hl
  | cons x a ih =>
    cases b with
    | nil => simp at hl
    | cons y b =>
      cases h with
      | rel h => exact ⟨0, by simp, by simp, by simpa using h⟩
      | cons h =>
        obtain ⟨p, h1, h2, h3⟩ := ih (by simpa using hl) h
        exact ⟨p + 1, by simpa using h1, by simp [h2], by simpa using h3⟩

theorem lex_of_diff {a b : List ℕ} {p : ℕ} (ha : p < a.length) (hb : p < b.length)
    (ht : a.take p = b.take p) (h : a.getD p 0 < b.getD p 0) : a < b := by
  induction p generalizing a b with
  | zero =>
    cases a with
    | nil => simp at ha
    | cons x a => cases b with
      | nil => simp at hb
      | cons y b => exact List.Lex.rel (by simpa using h)
  | succ p ih =>
    cases a with
    | nil => simp at ha
    | cons x a => cases b with
      | nil => simp at hb
      | cons y b =>
        simp only [List.take_succ_cons, List.cons.injEq] at ht
        obtain ⟨rfl, ht⟩ := ht
        exact List.Lex.cons (ih (by simpa using ha) (by simpa using hb) ht (by simpa using h))

/-! ## Valid combinations -/

theorem Valid.step {n k : ℕ} {c : List ℕ} (h : Valid n k c) {i j : ℕ} (hij : i ≤ j) (hj : j < k) :
    c.getD i 0 + (j - i) ≤ c.getD j 0 := by
  obtain ⟨h1, h2, _⟩ := h
  obtain ⟨d, rfl⟩ := Nat.exists_eq_add_of_le hij
  induction d with
  | zero => simp
  | succ d ih =>
    have := ih (by omega) (by omega)
    have h3 : c.getD (i + d) 0 < c.getD (i + (d + 1)) 0 := by
      rw [List.getD_eq_getElem _ _ (by omega), List.getD_eq_getElem _ _ (by omega)]
      exact List.pairwise_iff_getElem.mp h2 _ _ (by omega) (by omega) (by omega)
    omega

theorem Valid.lt {n k : ℕ} {c : List ℕ} (h : Valid n k c) {j : ℕ} (hj : j < k) : c.getD j 0 < n := by
  rw [List.getD_eq_getElem _ _ (by rw [h.1]; exact hj)]
  exact h.2.2 _ (List.getElem_mem _)

/-- Element `j` is at most `n - k + j`. -/
theorem Valid.upper {n k : ℕ} {c : List ℕ} (h : Valid n k c) {j : ℕ} (hj : j < k) :
    (c.getD j 0 : ℤ) ≤ n - k + j := by
  have h1 := h.step (show j ≤ k - 1 by omega) (by omega)
  have h2 := h.lt (show k - 1 < k by omega)
  omega

theorem Valid.le {n k : ℕ} {c : List ℕ} (h : Valid n k c) : k ≤ n := by
  by_contra hc
  have := h.upper (show 0 < k by omega)
  omega

theorem valid_finite (n k : ℕ) : {c | Valid n k c}.Finite := by
  apply Set.Finite.subset (List.finite_length_eq (Fin n) k |>.image (List.map Fin.val))
  rintro c ⟨h1, _, h3⟩
  refine ⟨c.pmap (fun x hx => ⟨x, hx⟩) h3, by simpa using h1, ?_⟩
  simp [List.map_pmap]

/-! ## `Next` is the lexicographic successor -/

/-- What `Next` does to a valid combination. -/
theorem next_spec {n k : ℕ} {s : Comb} (hn : s.n = n) (hk : s.k = k) (hd : s.done = false)
    (hv : Valid n k s.indices) :
    (s.next.n = n ∧ s.next.k = k) ∧
    ((s.next.done = true ∧ ∀ d, Valid n k d → d ≤ s.indices) ∨
     (s.next.done = false ∧ Valid n k s.next.indices ∧ s.indices < s.next.indices ∧
      ∀ d, Valid n k d → s.indices < d → s.next.indices ≤ d)) := by
  subst hn hk
  obtain ⟨n, k, c, dn⟩ := s
  simp only at hd hv
  subst hd
  obtain ⟨hl, hs⟩ := incLoop_spec n k k c (by rw [hv.1])
  unfold Comb.next
  simp only [Bool.false_eq_true, if_false]
  cases hr : incLoop n k k c with
  | mk idx o =>
    rw [hr] at hl hs
    cases o with
    | none =>
      dsimp only at hs ⊢
      refine ⟨⟨rfl, rfl⟩, Or.inl ⟨rfl, ?_⟩⟩
      intro d hdv
      apply lex_of_pointwise
      apply pointwise_of_getD (by rw [hv.1, hdv.1])
      intro j hj
      rw [hdv.1] at hj
      have := hs j hj
      have := hdv.upper hj
      omega
    | some r =>
      dsimp only at hs hl ⊢
      obtain ⟨hrk, hle, hgt, htk⟩ := hs
      have hcl := hv.1
      have hlen : idx.length = k := by rw [hl, hcl]
      have hroll := rollLoop_spec (k - (r + 1)) (r + 1) idx (by omega) (by omega)
      have hgr : idx.getD r 0 = c.getD r 0 + 1 := by
        have : (idx.take (r + 1)).getD r 0 = idx.getD r 0 := by
          simp [List.getD, List.getElem?_take]
        rw [← this, htk, List.getD_append_right _ _ _ _ (by simp)]
        simp [hcl, show r ≤ k by omega]
      rw [show r + 1 - 1 = r by omega, htk, hgr, List.append_assoc, List.singleton_append,
        ← List.range'_succ, show k - (r + 1) + 1 = k - r by omega] at hroll
      rw [hroll]
      have htl : (c.take r).length = r := by simp [hcl]; omega
      have g1 : ∀ j < r, (c.take r ++ List.range' (c.getD r 0 + 1) (k - r)).getD j 0 = c.getD j 0 := by
        intro j hj
        rw [List.getD_append _ _ _ _ (by rw [htl]; exact hj)]
        simp [List.getD, List.getElem?_take, hj]
      have g2 : ∀ j, r ≤ j → j < k →
          (c.take r ++ List.range' (c.getD r 0 + 1) (k - r)).getD j 0 = c.getD r 0 + 1 + (j - r) := by
        intro j h1 h2
        rw [List.getD_append_right _ _ _ _ (by rw [htl]; exact h1), htl,
          List.getD_eq_getElem _ _ (by simp; omega)]
        simp
      have g3 : (c.take r ++ List.range' (c.getD r 0 + 1) (k - r)).length = k := by
        rw [List.length_append, htl, List.length_range']; omega
      have g4 : (c.take r ++ List.range' (c.getD r 0 + 1) (k - r)).take r = c.take r := by
        rw [List.take_append_of_le_length (by rw [htl]), List.take_of_length_le (by rw [htl])]
      generalize c.take r ++ List.range' (c.getD r 0 + 1) (k - r) = c' at g1 g2 g3 g4
      have hmono : ∀ i j, i < j → j < k → c'.getD i 0 < c'.getD j 0 := by
        intro i j hij hjk
        by_cases hjr : j < r
        · rw [g1 j hjr, g1 i (by omega)]
          have := hv.step hij.le hjk
          omega
        · by_cases hir : i < r
          · rw [g1 i hir, g2 j (by omega) hjk]
            have := hv.step hir.le hrk
            omega
          · rw [g2 i (by omega) (by omega), g2 j (by omega) hjk]; omega
      refine ⟨⟨rfl, rfl⟩, Or.inr ⟨rfl, ⟨g3, ?_, ?_⟩, ?_, ?_⟩⟩
      · rw [List.pairwise_iff_getElem]
        intro i j hi hj hij
        have := hmono i j hij (by omega)
        rwa [List.getD_eq_getElem _ _ hi, List.getD_eq_getElem _ _ hj] at this
      · intro x hx
        obtain ⟨j, hj, rfl⟩ := List.getElem_of_mem hx
        rw [← List.getD_eq_getElem _ 0 hj]
        by_cases hjr : j < r
        · rw [g1 j hjr]; exact hv.lt (by omega)
        · rw [g2 j (by omega) (by omega)]; omega
      · exact lex_of_diff (p := r) (by omega) (by omega) g4.symm (by rw [g2 r le_rfl hrk]; omega)
      · intro d hdv hcd
        obtain ⟨p, p1, p2, p3⟩ := lex_first_diff (by rw [hcl, hdv.1]) hcd
        have hdl := hdv.1
        by_cases hpr : r < p
        · have a := hgt p hpr (by omega)
          have b := hdv.upper (show p < k by omega)
          omega
        · by_cases hpr' : p < r
          · refine le_of_lt (lex_of_diff (p := p) (by omega) (by omega) ?_ (by rw [g1 p hpr']; exact p3))
            rw [← p2]
            have := congrArg (List.take p) g4
            rwa [List.take_take, List.take_take, min_eq_left (by omega)] at this
          · have hp : p = r := by omega
            subst hp
            apply lex_of_pointwise
            apply pointwise_of_getD (by omega)
            intro j hj
            by_cases hjr : j < p
            · rw [g1 j hjr]
              have e : (c.take p).getD j 0 = (d.take p).getD j 0 := by rw [p2]
              simp only [List.getD, List.getElem?_take, hjr, if_true] at e
              simp only [List.getD]
              omega
            · rw [g2 j (by omega) (by omega)]
              have := hdv.step (show p ≤ j by omega) (by omega)
              omega

theorem range_valid {n k : ℕ} (h : k ≤ n) : Valid n k (List.range k) :=
  ⟨by simp, List.pairwise_lt_range, fun x hx => by simp at hx; omega⟩

/-- Invariant of the iteration up to step `t`, as long as it is not done. -/
structure Visiting (n k t : ℕ) : Prop where
  params : (Comb.after n k t).n = n ∧ (Comb.after n k t).k = k
  valid : Valid n k (Comb.after n k t).indices
  incr : ∀ u < t, (Comb.after n k u).indices < (Comb.after n k t).indices
  covered : ∀ d, Valid n k d → d ≤ (Comb.after n k t).indices →
    ∃ u, u ≤ t ∧ (Comb.after n k u).indices = d

theorem visiting {n k t : ℕ} (h : (Comb.after n k t).done = false) : Visiting n k t := by
  induction t with
  | zero =>
    have hk : k ≤ n := by simpa [Comb.after, Comb.init] using h
    refine ⟨⟨rfl, rfl⟩, range_valid hk, by intro u hu; omega, ?_⟩
    intro d hd hle
    refine ⟨0, le_rfl, le_antisymm ?_ hle⟩
    apply lex_of_pointwise
    apply pointwise_of_getD (by simp [Comb.after, Comb.init, hd.1])
    intro j hj
    have hj' : j < k := by simpa [Comb.after, Comb.init] using hj
    have := hd.step (Nat.zero_le j) hj'
    have e : (Comb.after n k 0).indices.getD j 0 = j := by
      simp [Comb.after, Comb.init, List.getD, hj']
    omega
  | succ t ih =>
    have hd : (Comb.after n k t).done = false := by
      by_contra hc
      rw [Bool.not_eq_false] at hc
      have : (Comb.after n k (t + 1)) = Comb.after n k t := by
        simp only [Comb.after]; unfold Comb.next; rw [if_pos hc]
      rw [this, hc] at h; cases h
    obtain ⟨p, v, i, c⟩ := ih hd
    obtain ⟨p', hn⟩ := next_spec p.1 p.2 hd v
    rcases hn with ⟨h1, _⟩ | ⟨_, h2, h3, h4⟩
    · rw [Comb.after] at h; rw [h1] at h; cases h
    · refine ⟨p', h2, ?_, ?_⟩
      · intro u hu
        rcases Nat.lt_succ_iff_lt_or_eq.mp hu with hu | rfl
        · exact lt_trans (i u hu) h3
        · exact h3
      · intro d hdv hle
        by_cases hcd : d ≤ (Comb.after n k t).indices
        · obtain ⟨u, hu, e⟩ := c d hdv hcd
          exact ⟨u, by omega, e⟩
        · have := h4 d hdv (lt_of_not_ge hcd)
          exact ⟨t + 1, le_rfl, le_antisymm this hle⟩

/-- The combinations visited, in order, when the loop `for (it; !it.done(); it.Next())` runs `N` times. -/
def visited (n k N : ℕ) : List (List ℕ) := (List.range N).map fun t => (Comb.after n k t).indices

theorem comb_terminates (n k : ℕ) : ∃ t, (Comb.after n k t).done = true := by
  by_contra hc
  push Not at hc
  have hf : ∀ t, Visiting n k t := fun t => visiting (by simpa using hc t)
  have hinj : Function.Injective fun t => (Comb.after n k t).indices := by
    intro a b hab
    by_contra hne
    rcases Nat.lt_or_gt_of_ne hne with h | h
    · exact absurd hab (ne_of_lt ((hf b).incr a h))
    · exact absurd hab.symm (ne_of_lt ((hf a).incr b h))
  exact Set.infinite_of_injective_forall_mem hinj (fun t => (hf t).valid) (valid_finite n k)

/-- **C13**: for every `n`, `k`, the iteration ends after some number `N` of steps; the combinations
visited before the end are exactly the `k`-combinations of `{0, …, n-1}`, each exactly once, in
lexicographic order. -/
theorem C13_combinations (n k : ℕ) :
    ∃ N, (∀ t < N, (Comb.after n k t).done = false) ∧ (Comb.after n k N).done = true ∧
      (visited n k N).Pairwise (· < ·) ∧ ∀ c, c ∈ visited n k N ↔ Valid n k c := by
  classical
  let N := Nat.find (comb_terminates n k)
  have hN : (Comb.after n k N).done = true := Nat.find_spec (comb_terminates n k)
  have hlt : ∀ t < N, (Comb.after n k t).done = false := fun t ht => by
    simpa using Nat.find_min (comb_terminates n k) ht
  refine ⟨N, hlt, hN, ?_, ?_⟩
  · rw [visited, List.pairwise_map]
    have := List.pairwise_lt_range (n := N)
    refine List.Pairwise.imp_of_mem ?_ this
    intro a b _ hb hab
    exact (visiting (hlt b (by simpa using hb))).incr a hab
  · intro c
    simp only [visited, List.mem_map, List.mem_range]
    constructor
    · rintro ⟨t, ht, rfl⟩
      exact (visiting (hlt t ht)).valid
    · intro hc
      cases hNe : N with
      | zero =>
        rw [hNe] at hN
        have : n < k := by simpa [Comb.after, Comb.init] using hN
        have := hc.le
        omega
      | succ m =>
        have hm := visiting (hlt m (by omega))
        obtain ⟨_, h | h⟩ := next_spec hm.params.1 hm.params.2 (hlt m (by omega)) hm.valid
        · obtain ⟨u, hu, e⟩ := hm.covered c hc (h.2 c hc)
          exact ⟨u, by omega, e⟩
        · have : (Comb.after n k N).done = false := by rw [hNe]; exact h.1
          rw [this] at hN; cases hN

/-- The number of steps is the binomial coefficient. -/
theorem C13_combinations_count (n k N : ℕ) (h1 : ∀ t < N, (Comb.after n k t).done = false)
    (h2 : (Comb.after n k N).done = true) : N = n.choose k := by
  obtain ⟨M, m1, m2, m3, m4⟩ := C13_combinations n k
  have hNM : N = M := by
    rcases Nat.lt_trichotomy N M with h | h | h
    · rw [m1 N h] at h2; cases h2
    · exact h
    · rw [h1 M h] at m2; cases m2
  subst hNM
  have hnd : (visited n k N).Nodup := m3.imp (fun h => ne_of_lt h)
  have hlen : (visited n k N).length = N := by simp [visited]
  rw [← hlen, ← List.toFinset_card_of_nodup hnd, ← Finset.card_range n, ← Finset.card_powersetCard,
    Finset.card_range]
  apply Finset.card_bij (fun c _ => c.toFinset)
  · intro c hc
    rw [List.mem_toFinset, m4] at hc
    rw [Finset.mem_powersetCard]
    refine ⟨?_, ?_⟩
    · intro x hx; rw [List.mem_toFinset] at hx; simpa using hc.2.2 x hx
    · rw [List.toFinset_card_of_nodup (hc.2.1.imp (fun h => ne_of_lt h)), hc.1]
  · intro a ha b hb hab
    rw [List.mem_toFinset, m4] at ha hb
    have na : a.Nodup := ha.2.1.imp (fun h => ne_of_lt h)
    have nb : b.Nodup := hb.2.1.imp (fun h => ne_of_lt h)
    have hp : a.Perm b := (List.perm_ext_iff_of_nodup na nb).mpr (fun x => by
      rw [← List.mem_toFinset, hab, List.mem_toFinset])
    exact hp.eq_of_pairwise (fun x y _ _ h h' => absurd h (lt_asymm h')) ha.2.1 hb.2.1
  · intro S hS
    rw [Finset.mem_powersetCard] at hS
    refine ⟨S.sort (· ≤ ·), ?_, by simp⟩
    rw [List.mem_toFinset, m4]
    refine ⟨by simp [hS.2], Finset.sortedLT_sort S |>.pairwise, ?_⟩
    intro x hx
    have := hS.1 ((Finset.mem_sort _).mp hx)
    simpa using this

/-- The documented example: 2 of 4. -/
example : visited 4 2 6 = [[0, 1], [0, 2], [0, 3], [1, 2], [1, 3], [2, 3]] ∧
    (Comb.after 4 2 6).done = true ∧ Valid 4 2 [0, 3] := by
  refine ⟨by decide +kernel, by decide +kernel, rfl, by decide, by decide⟩

end Verif.NumberUtil
