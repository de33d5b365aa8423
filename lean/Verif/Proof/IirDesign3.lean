import Verif.Proof.IirDesign2
import Mathlib.Logic.Equiv.Basic
import Mathlib.Data.List.TakeWhile
import Mathlib.Data.List.GetD

/-!
# `ZpkSort` and `ZpkToBiquads`
-/

namespace Verif.IirDesign
open Verif.PortableComplex Spec
open scoped ComplexConjugate

/-! ### The partition loop -/

/-- What `ZpkSort` takes for real. -/
theorem clear_test {r : CD} (h : Clear r.val) :
    (|r.imag| ≤ tol * PortableComplex.abs r ↔ r.imag = 0) := by
  have h1 : PortableComplex.abs r = ‖r.val‖ := abs_eq r
  have h2 : tol = 100 / 2 ^ 52 := by unfold tol; ring
  rw [h1, h2]
  rcases h with h | h
  · have : r.imag = 0 := h
    rw [this, abs_zero]
    simp only [iff_true]
    positivity
  · constructor
    · intro h'
      exact absurd h' (not_le.2 h)
    · intro h'
      rw [h', abs_zero]
      positivity

theorem range_swap (a : ℕ → CD) {n i j : ℕ} (hi : i < n) (hj : j < n) :
    ((List.range n).map fun k => a (Equiv.swap i j k)).Perm ((List.range n).map a) := by
  have h : ((List.range n).map (Equiv.swap i j)).Perm (List.range n) := by
    rw [List.perm_ext_iff_of_nodup (List.nodup_range.map (Equiv.injective _)) List.nodup_range]
    intro k
    constructor
    · intro hk
      obtain ⟨m, hm, rfl⟩ := List.mem_map.1 hk
      have hm := List.mem_range.1 hm
      rw [List.mem_range, Equiv.swap_apply_def]
      split_ifs <;> assumption
    · intro hk
      have hk := List.mem_range.1 hk
      refine List.mem_map.2 ⟨Equiv.swap i j k, ?_, Equiv.swap_apply_self _ _ _⟩
      rw [List.mem_range, Equiv.swap_apply_def]
      split_ifs <;> assumption
  have := h.map a
  rwa [List.map_map] at this

theorem partition_spec (n : ℕ) (k : ℕ) : ∀ (roots : ℕ → CD) (i m : ℕ), i + k = n → m ≤ i →
    (∀ j < n, Clear (roots j).val) → (∀ j < m, (roots j).imag = 0) → (∀ j, m ≤ j → j < i → (roots j).imag ≠ 0) →
    ((List.range n).map (partitionLoop roots k i m).1).Perm ((List.range n).map roots) ∧
    (partitionLoop roots k i m).2 ≤ n ∧
    (∀ j < (partitionLoop roots k i m).2, ((partitionLoop roots k i m).1 j).imag = 0) ∧
    (∀ j, (partitionLoop roots k i m).2 ≤ j → j < n → ((partitionLoop roots k i m).1 j).imag ≠ 0) := by
  induction k with
  | zero =>
    intro roots i m hi hm _ h2 h3
    rw [partitionLoop]
    exact ⟨List.Perm.refl _, by show m ≤ n; omega, h2, fun j h h' => h3 j h (by omega)⟩
  | succ k ih =>
    intro roots i m hi hm h1 h2 h3
    rw [partitionLoop]
    have ht := clear_test (h1 i (by omega))
    by_cases hr : (roots i).imag = 0
    · dsimp only
      rw [if_pos (ht.2 hr)]
      by_cases him : i ≠ m
      · rw [if_pos him]
        have hroot : ({ roots i with imag := 0 } : CD) = roots i := by
          rw [← hr]
        rw [hroot]
        have he : Function.update (Function.update roots i (roots m)) m (roots i) = fun k => roots (Equiv.swap i m k) := by
          funext j
          rw [Equiv.swap_apply_def]
          by_cases e1 : j = m
          · subst e1
            rw [Function.update_self, if_neg him.symm, if_pos rfl]
          · rw [Function.update_of_ne e1]
            by_cases e2 : j = i
            · subst e2
              rw [Function.update_self, if_pos rfl]
            · rw [Function.update_of_ne e2, if_neg e2, if_neg e1]
        rw [he]
        have hin : i < n := by omega
        have hmn : m < n := by omega
        obtain ⟨a1, a2, a3, a4⟩ := ih (fun k => roots (Equiv.swap i m k)) (i + 1) (m + 1) (by omega) (by omega)
          (by
            intro j hj
            rw [Equiv.swap_apply_def]
            split_ifs
            · exact h1 m hmn
            · exact h1 i hin
            · exact h1 j hj)
          (by
            intro j hj
            rw [Equiv.swap_apply_def]
            split_ifs with e1 e2
            · omega
            · exact hr
            · exact h2 j (by omega))
          (by
            intro j hj hj'
            rw [Equiv.swap_apply_def]
            split_ifs with e1 e2
            · exact h3 m le_rfl (by omega)
            · omega
            · exact h3 j (by omega) (by omega))
        exact ⟨a1.trans (range_swap roots hin hmn), a2, a3, a4⟩
      · rw [if_neg him]
        push Not at him
        subst him
        refine ih roots (i + 1) (i + 1) (by omega) le_rfl h1 ?_ (by intro j h h'; omega)
        intro j hj
        rcases Nat.lt_succ_iff_lt_or_eq.1 hj with h | h
        · exact h2 j h
        · rw [h]; exact hr
    · dsimp only
      rw [if_neg (fun h => hr (ht.1 h))]
      refine ih roots (i + 1) m (by omega) (by omega) h1 h2 ?_
      intro j hj hj'
      rcases Nat.lt_succ_iff_lt_or_eq.1 hj' with h | h
      · exact h3 j hj h
      · rw [h]; exact hr

/-! ### The pairing loop -/

theorem order_zero {w z : CD} : orderComplex w z = 0 ↔ w.real = z.real ∧ |w.imag| = |z.imag| := by
  unfold orderComplex
  split_ifs with h1 h2 h3 h4
  · simp; intro h; exact absurd h h1.ne
  · simp; intro h; exact absurd h h2.ne'
  · simp; intro _ h; exact absurd h h3.ne
  · simp; intro _ h; exact absurd h h4.ne'
  · simp only [true_iff]
    exact ⟨le_antisymm (not_lt.1 h2) (not_lt.1 h1), le_antisymm (not_lt.1 h4) (not_lt.1 h3)⟩

theorem order_le {w z : CD} : orderComplex w z ≤ 0 ↔
    w.real < z.real ∨ (w.real = z.real ∧ |w.imag| ≤ |z.imag|) := by
  unfold orderComplex
  split_ifs with h1 h2 h3 h4
  · simp [h1]
  · simp only [Int.reduceLE, false_iff, not_or, not_and]
    exact ⟨h1, fun h => absurd h h2.ne'⟩
  · have : w.real = z.real := le_antisymm (not_lt.1 h2) (not_lt.1 h1)
    simp [this, h3.le]
  · simp only [Int.reduceLE, false_iff, not_or, not_and]
    exact ⟨h1, fun _ => not_le.2 h4⟩
  · have : w.real = z.real := le_antisymm (not_lt.1 h2) (not_lt.1 h1)
    simp [this, not_lt.1 h4]

theorem paired_append {l m : List CD} (h1 : Paired l) (h2 : Paired m) : Paired (l ++ m) := by
  induction h1 with
  | nil => exact h2
  | cons r l hr _ ih => exact Paired.cons r _ hr ih

theorem paired_pairs {r : CD} (hr : 0 < r.imag) (k : ℕ) : Paired (pairs r k) := by
  induction k with
  | zero => exact Paired.nil
  | succ k ih => exact Paired.cons r _ hr ih

theorem paired_conj {l : List CD} (h : Paired l) : (l.map PortableComplex.conj).Perm l := by
  induction h with
  | nil => exact List.Perm.refl _
  | cons r l _ _ ih =>
    have h1 : PortableComplex.conj (PortableComplex.conj r) = r := by
      cases r
      simp [PortableComplex.conj]
    rw [List.map_cons, List.map_cons, h1]
    exact ((ih.cons _).cons _).trans (List.Perm.swap _ _ _)

theorem pairs_perm (r : CD) (k : ℕ) :
    (pairs r k).Perm (List.replicate k (PortableComplex.conj r) ++ List.replicate k r) := by
  induction k with
  | zero => exact List.Perm.refl _
  | succ k ih =>
    rw [pairs, List.replicate_succ, List.replicate_succ, List.cons_append]
    refine List.Perm.cons _ ?_
    exact (ih.cons _).trans List.perm_middle.symm

/-- A list of copies of two values. -/
theorem two_valued {α : Type*} (p : α → Bool) (l : List α) (a b : α) (h : ∀ x ∈ l, x = if p x then a else b) :
    l.Perm (List.replicate (l.filter p).length a ++ List.replicate (l.length - (l.filter p).length) b) := by
  have h1 : (l.filter p) = List.replicate (l.filter p).length a := by
    rw [List.eq_replicate_iff]
    refine ⟨rfl, fun x hx => ?_⟩
    obtain ⟨hx, hp⟩ := List.mem_filter.1 hx
    have := h x hx
    rwa [if_pos hp] at this
  have h2 : (l.filter fun x => !p x) = List.replicate (l.filter fun x => !p x).length b := by
    rw [List.eq_replicate_iff]
    refine ⟨rfl, fun x hx => ?_⟩
    obtain ⟨hx, hp⟩ := List.mem_filter.1 hx
    have := h x hx
    rwa [if_neg (by simpa using hp)] at this
  have h3 := List.filter_append_perm p l
  have h4 : l.length = (l.filter p).length + (l.filter fun x => !p x).length := by
    rw [← List.length_append, h3.length_eq]
  have h5 : l.length - (l.filter p).length = (l.filter fun x => !p x).length := by omega
  rw [h5, ← h1, ← h2]
  exact h3.symm

/-- The key that `OrderComplex` compares. -/
def key (z : CD) : ℝ × ℝ := (z.real, |z.imag|)

theorem key_conj (z : CD) : key (PortableComplex.conj z) = key z := by
  simp [key, PortableComplex.conj]

theorem pairs_key (r : CD) (k : ℕ) : (pairs r k).map key = List.replicate (2 * k) (key r) := by
  induction k with
  | zero => rfl
  | succ k ih =>
    rw [pairs, List.map_cons, List.map_cons, ih, key_conj, show 2 * (k + 1) = 2 * k + 1 + 1 by ring,
      List.replicate_succ, List.replicate_succ]

theorem mem_takeWhile' {α : Type*} {p : α → Bool} {l : List α} {x : α} (h : x ∈ l.takeWhile p) : p x = true :=
  List.mem_takeWhile_imp h

theorem drop_takeWhile {α : Type*} (p : α → Bool) (l : List α) : l.drop (l.takeWhile p).length = l.dropWhile p := by
  induction l with
  | nil => rfl
  | cons x l ih =>
    by_cases h : p x = true
    · rw [List.takeWhile_cons_of_pos h, List.dropWhile_cons_of_pos h, List.length_cons, List.drop_succ_cons, ih]
    · rw [List.takeWhile_cons_of_neg h, List.dropWhile_cons_of_neg h]
      rfl

theorem pair_sound (fuel : ℕ) : ∀ (l l' : List CD), (∀ z ∈ l, z.imag ≠ 0) → pairLoop fuel l = some l' →
    l'.Perm l ∧ Paired l' ∧ l'.map key = l.map key := by
  induction fuel with
  | zero =>
    intro l l' _ h
    cases l with
    | nil =>
      rw [pairLoop] at h
      obtain rfl := Option.some.inj h
      exact ⟨List.Perm.refl _, Paired.nil, rfl⟩
    | cons r l => simp [pairLoop] at h
  | succ fuel ih =>
    intro l l' hne h
    cases l with
    | nil =>
      rw [pairLoop] at h
      obtain rfl := Option.some.inj h
      exact ⟨List.Perm.refl _, Paired.nil, rfl⟩
    | cons r l =>
      rw [pairLoop] at h
      obtain ⟨root, hroot⟩ : ∃ root : CD, root = { r with imag := |r.imag| } := ⟨_, rfl⟩
      rw [← hroot] at h
      obtain ⟨run, hrun⟩ : ∃ run, run = (r :: l).takeWhile fun z => decide (orderComplex root z = 0) := ⟨_, rfl⟩
      rw [← hrun] at h
      split_ifs at h with hbad
      · have hrest : (r :: l).drop run.length = (r :: l).dropWhile fun z => decide (orderComplex root z = 0) := by
          rw [hrun, drop_takeWhile]
        rw [hrest] at h
        have hdec : run ++ ((r :: l).dropWhile fun z => decide (orderComplex root z = 0)) = r :: l := by
          rw [hrun]
          exact List.takeWhile_append_dropWhile
        cases hq : pairLoop fuel ((r :: l).dropWhile fun z => decide (orderComplex root z = 0)) with
        | none => rw [hq] at h; simp at h
        | some rest =>
          rw [hq] at h
          obtain rfl := Option.some.inj h
          obtain ⟨i1, i2, i3⟩ := ih _ _ (fun z hz => hne z (by rw [← hdec]; exact List.mem_append_right _ hz)) hq
          have hpos : 0 < root.imag := by
            rw [hroot]
            exact abs_pos.2 (hne r List.mem_cons_self)
          have hval : ∀ z ∈ run, z = if decide (z.imag < 0) = true then PortableComplex.conj root else root := by
            intro z hz
            have h0 : z.imag ≠ 0 := hne z (by rw [← hdec]; exact List.mem_append_left _ hz)
            rw [hrun] at hz
            have hz := mem_takeWhile' hz
            rw [decide_eq_true_iff, order_zero, abs_of_pos hpos] at hz
            by_cases hs : z.imag < 0
            · rw [if_pos (decide_eq_true hs)]
              rw [abs_of_neg hs] at hz
              ext
              · exact hz.1.symm
              · show z.imag = -root.imag
                linarith [hz.2]
            · rw [if_neg (by simpa using hs)]
              rw [abs_of_nonneg (not_lt.1 hs)] at hz
              ext
              · exact hz.1.symm
              · exact hz.2.symm
          have hp := two_valued (fun z : CD => decide (z.imag < 0)) run _ _ hval
          push Not at hbad
          rw [hbad.2] at hp
          have hlen : run.length = 2 * (run.filter fun z => decide (z.imag < 0)).length := by
            have h9 := hbad.2
            have := List.length_filter_le (fun z : CD => decide (z.imag < 0)) run
            omega
          refine ⟨?_, paired_append (paired_pairs hpos _) i2, ?_⟩
          · have := ((pairs_perm root _).trans hp.symm).append i1
            rwa [hdec] at this
          · have hk : run.map key = List.replicate run.length (key root) := by
              rw [List.eq_replicate_iff]
              refine ⟨by simp, ?_⟩
              intro y hy
              obtain ⟨z, hz, rfl⟩ := List.mem_map.1 hy
              have hz := hval z hz
              split_ifs at hz
              · rw [hz, key_conj]
              · rw [hz]
            rw [List.map_append, pairs_key, ← hlen, ← hk, i3, ← List.map_append, hdec]

theorem takeWhile_filter {α : Type*} (p : α → Bool) (l : List α) (h : l.Pairwise fun w z => p z = true → p w = true) :
    l.takeWhile p = l.filter p ∧ l.dropWhile p = l.filter fun x => !p x := by
  induction l with
  | nil => exact ⟨rfl, rfl⟩
  | cons x l ih =>
    rw [List.pairwise_cons] at h
    obtain ⟨i1, i2⟩ := ih h.2
    by_cases hx : p x = true
    · rw [List.takeWhile_cons_of_pos hx, List.dropWhile_cons_of_pos hx, List.filter_cons_of_pos hx, i1, i2,
        List.filter_cons_of_neg (by simpa using hx)]
      exact ⟨rfl, rfl⟩
    · have hall : ∀ y ∈ l, ¬ p y = true := fun y hy hp => hx (h.1 y hy hp)
      rw [List.takeWhile_cons_of_neg hx, List.dropWhile_cons_of_neg hx, List.filter_cons_of_neg hx,
        List.filter_cons_of_pos (by simpa using hx), List.filter_eq_nil_iff.2 hall, List.filter_eq_self.2]
      · exact ⟨rfl, rfl⟩
      · intro y hy
        simpa using hall y hy

theorem pair_complete (fuel : ℕ) : ∀ l : List CD, l.length ≤ fuel → (∀ z ∈ l, z.imag ≠ 0) →
    l.Pairwise (fun w z => orderComplex w z ≤ 0) → (l.map PortableComplex.conj).Perm l →
    ∃ l', pairLoop fuel l = some l' := by
  induction fuel with
  | zero =>
    intro l hl _ _ _
    rw [List.length_eq_zero_iff.1 (Nat.le_zero.1 hl)]
    exact ⟨[], by rw [pairLoop]⟩
  | succ fuel ih =>
    intro l hl hne hs hc
    cases l with
    | nil => exact ⟨[], by rw [pairLoop]⟩
    | cons r l =>
      rw [pairLoop]
      obtain ⟨root, hroot⟩ : ∃ root : CD, root = { r with imag := |r.imag| } := ⟨_, rfl⟩
      rw [← hroot, drop_takeWhile]
      obtain ⟨p, hp⟩ : ∃ p : CD → Bool, p = fun z => decide (orderComplex root z = 0) := ⟨_, rfl⟩
      rw [← hp]
      have hpz : ∀ z, p z = true ↔ r.real = z.real ∧ |r.imag| = |z.imag| := by
        intro z
        rw [hp]
        simp only [decide_eq_true_iff]
        rw [order_zero, hroot, abs_abs]
      have hmono : (r :: l).Pairwise fun w z => p z = true → p w = true := by
        have h1 := List.pairwise_cons.1 hs
        refine List.Pairwise.imp_of_mem ?_ hs
        intro w z hw hz hwz hpz'
        have h2 : orderComplex r w ≤ 0 := by
          rcases List.mem_cons.1 hw with rfl | hw
          · rw [order_le]; exact Or.inr ⟨rfl, le_rfl⟩
          · exact h1.1 w hw
        rw [hpz] at hpz' ⊢
        rw [order_le] at h2 hwz
        rcases h2 with h2 | h2 <;> rcases hwz with h3 | h3
        · exfalso; linarith [hpz'.1]
        · exfalso; linarith [hpz'.1, h3.1]
        · exfalso; linarith [hpz'.1, h2.1]
        · exact ⟨h2.1, le_antisymm h2.2 (by linarith [h3.2, hpz'.2])⟩
      obtain ⟨t1, t2⟩ := takeWhile_filter p (r :: l) hmono
      rw [t1, t2]
      have hpc : ∀ z, p (PortableComplex.conj z) = p z := by
        intro z
        have := hpz (PortableComplex.conj z)
        have h2 := hpz z
        have h3 : |(PortableComplex.conj z).imag| = |z.imag| := by simp [PortableComplex.conj]
        rw [h3] at this
        rw [Bool.eq_iff_iff, this, h2]
        rfl
      have hpos : 0 < root.imag := by
        rw [hroot]
        exact abs_pos.2 (hne r List.mem_cons_self)
      -- the run is closed under conjugation
      have hrunc : (((r :: l).filter p).map PortableComplex.conj).Perm ((r :: l).filter p) := by
        have h1 : ((r :: l).filter p).map PortableComplex.conj = ((r :: l).map PortableComplex.conj).filter p := by
          rw [List.filter_map]
          congr 1
          apply List.filter_congr
          intro z _
          exact (hpc z).symm
        rw [h1]
        exact hc.filter p
      have hrestc : (((r :: l).filter fun x => !p x).map PortableComplex.conj).Perm ((r :: l).filter fun x => !p x) := by
        have h1 : ((r :: l).filter fun x => !p x).map PortableComplex.conj
            = ((r :: l).map PortableComplex.conj).filter fun x => !p x := by
          rw [List.filter_map]
          congr 1
          apply List.filter_congr
          intro z _
          simp only [Function.comp, hpc z]
        rw [h1]
        exact hc.filter _
      have hr0 : p r = true := (hpz r).2 ⟨rfl, rfl⟩
      have hcount : ((r :: l).filter p).length - (((r :: l).filter p).filter fun z => decide (z.imag < 0)).length
          = (((r :: l).filter p).filter fun z => decide (z.imag < 0)).length := by
        have h1 := List.filter_append_perm (fun z : CD => decide (z.imag < 0)) ((r :: l).filter p)
        have h2 : ((r :: l).filter p).length = (((r :: l).filter p).filter fun z => decide (z.imag < 0)).length
            + (((r :: l).filter p).filter fun z => !decide (z.imag < 0)).length := by
          rw [← List.length_append, h1.length_eq]
        have h3 : (((r :: l).filter p).filter fun z => decide (z.imag < 0)).length
            = (((r :: l).filter p).filter fun z => !decide (z.imag < 0)).length := by
          have h4 := (hrunc.filter fun z : CD => decide (z.imag < 0)).length_eq
          rw [List.filter_map, List.length_map] at h4
          rw [← h4]
          congr 1
          apply List.filter_congr
          intro z hz
          have h0 := hne z (List.mem_filter.1 hz).1
          show decide (-z.imag < 0) = !decide (z.imag < 0)
          rcases lt_or_gt_of_ne h0 with h | h
          · rw [decide_eq_true h, decide_eq_false (by linarith)]
            rfl
          · rw [decide_eq_false (not_lt.2 h.le), decide_eq_true (by linarith)]
            rfl
        omega
      have hnil : ((r :: l).filter p).length ≠ 0 := by
        rw [List.filter_cons_of_pos hr0, List.length_cons]
        omega
      rw [if_neg (by push Not; exact ⟨hnil, hcount⟩)]
      obtain ⟨rest, hrest⟩ := ih ((r :: l).filter fun x => !p x)
        (by
          rw [List.filter_cons_of_neg (by simpa using hr0)]
          have := List.length_filter_le (fun x => !p x) l
          rw [List.length_cons] at hl
          omega)
        (fun z hz => hne z (List.mem_filter.1 hz).1) (hs.filter _) hrestc
      rw [hrest]
      exact ⟨_, rfl⟩

/-! ### `RootsSort` -/

theorem map_getD (a : ℕ → CD) {l : List CD} {n : ℕ} (h : l.length = n) : (List.range n).map (writeList a l) = l := by
  apply List.ext_getElem
  · simp [h]
  · intro i h1 h2
    rw [List.getElem_map, List.getElem_range, writeList, List.getD_eq_getElem _ _ h2]

theorem entries_eq (a : ℕ → CD) (n : ℕ) : entries a n = ((List.range n).map a).map CD.val := by
  rw [List.map_map]
  rfl

theorem conj_val_map (l : List CD) : (l.map CD.val).map conj = (l.map PortableComplex.conj).map CD.val := by
  rw [List.map_map, List.map_map]
  rfl

theorem val_injective : Function.Injective CD.val := fun _ _ h => CD.val_inj h

theorem conj_perm_iff (l : List CD) :
    ((l.map CD.val).map conj).Perm (l.map CD.val) ↔ (l.map PortableComplex.conj).Perm l := by
  rw [conj_val_map, List.map_perm_map_iff val_injective]

theorem pairwise_key {l l' : List CD} (h : l'.map key = l.map key)
    (hs : l.Pairwise fun w z => orderComplex w z ≤ 0) :
    l'.Pairwise (fun w z => w.real < z.real ∨ (w.real = z.real ∧ |w.imag| ≤ |z.imag|)) := by
  have h1 : (l.map key).Pairwise fun a b => a.1 < b.1 ∨ (a.1 = b.1 ∧ a.2 ≤ b.2) := by
    rw [List.pairwise_map]
    exact hs.imp fun h => order_le.1 h
  rw [← h, List.pairwise_map] at h1
  exact h1

theorem rootsSort_spec (q : QSort) (a : ℕ → CD) (n : ℕ) (hclear : ∀ r ∈ entries a n, Clear r) :
    ((∃ b, rootsSort q a n = some b) ↔ ((entries a n).map conj).Perm (entries a n)) ∧
    ∀ b, rootsSort q a n = some b → (entries b n).Perm (entries a n) ∧ SortedRoots b n := by
  obtain ⟨s1, s2, s3, s4⟩ := partition_spec n n a 0 0 (by omega) le_rfl
    (fun j hj => hclear _ (mem_entries hj)) (by intro j h; omega) (by intro j _ h; omega)
  obtain ⟨p, hp⟩ : ∃ p, p = partitionLoop a n 0 0 := ⟨_, rfl⟩
  rw [← hp] at s1 s2 s3 s4
  obtain ⟨R, hR⟩ : ∃ R, R = q.run ((List.range p.2).map p.1) := ⟨_, rfl⟩
  obtain ⟨O, hO⟩ : ∃ O, O = q.run ((List.range (n - p.2)).map fun i => p.1 (p.2 + i)) := ⟨_, rfl⟩
  have hRp : R.Perm ((List.range p.2).map p.1) := by rw [hR]; exact q.perm _
  have hOp : O.Perm ((List.range (n - p.2)).map fun i => p.1 (p.2 + i)) := by rw [hO]; exact q.perm _
  have hRs : R.Pairwise fun w z => orderComplex w z ≤ 0 := by rw [hR]; exact q.sorted _
  have hOs : O.Pairwise fun w z => orderComplex w z ≤ 0 := by rw [hO]; exact q.sorted _
  have hRe : ∀ z ∈ R, z.imag = 0 := by
    intro z hz
    obtain ⟨i, hi, rfl⟩ := List.mem_map.1 ((hRp.mem_iff).1 hz)
    exact s3 i (List.mem_range.1 hi)
  have hOe : ∀ z ∈ O, z.imag ≠ 0 := by
    intro z hz
    obtain ⟨i, hi, rfl⟩ := List.mem_map.1 ((hOp.mem_iff).1 hz)
    have := List.mem_range.1 hi
    exact s4 _ (by omega) (by omega)
  have hsplit : (List.range n).map p.1 = ((List.range p.2).map p.1) ++ ((List.range (n - p.2)).map fun i => p.1 (p.2 + i)) := by
    have : n = p.2 + (n - p.2) := by omega
    conv_lhs => rw [this, List.range_add, List.map_append, List.map_map]
    rfl
  have hall : (R ++ O).Perm ((List.range n).map a) := by
    refine List.Perm.trans ?_ s1
    rw [hsplit]
    exact hRp.append hOp
  have hreal : R.map PortableComplex.conj = R := by
    conv_rhs => rw [← List.map_id R]
    apply List.map_congr_left
    intro z hz
    have := hRe z hz
    cases z
    simp_all [PortableComplex.conj]
  have hiff : (((List.range n).map a).map PortableComplex.conj).Perm ((List.range n).map a) ↔
      (O.map PortableComplex.conj).Perm O := by
    have h1 : (((List.range n).map a).map PortableComplex.conj).Perm ((List.range n).map a) ↔
        ((R ++ O).map PortableComplex.conj).Perm (R ++ O) :=
      ⟨fun h => ((hall.map _).trans h).trans hall.symm, fun h => ((hall.symm.map _).trans h).trans hall⟩
    rw [h1, List.map_append, hreal, List.perm_append_left_iff]
  have hrs : rootsSort q a n = match pairLoop O.length O with
      | none => none
      | some others => some (writeList p.1 (R ++ others)) := by
    rw [hR, hO, hp]
    rfl
  constructor
  · rw [entries_eq, conj_perm_iff, hiff, hrs]
    constructor
    · rintro ⟨b, hb⟩
      cases hq : pairLoop O.length O with
      | none => rw [hq] at hb; simp at hb
      | some l' =>
        obtain ⟨i1, i2, -⟩ := pair_sound _ _ _ hOe hq
        exact ((i1.symm.map _).trans (paired_conj i2)).trans i1
    · intro h
      obtain ⟨l', hl'⟩ := pair_complete _ O le_rfl hOe hOs h
      rw [hl']
      exact ⟨_, rfl⟩
  · intro b hb
    rw [hrs] at hb
    cases hq : pairLoop O.length O with
    | none => rw [hq] at hb; simp at hb
    | some l' =>
      rw [hq] at hb
      obtain rfl := Option.some.inj hb
      obtain ⟨i1, i2, i3⟩ := pair_sound _ _ _ hOe hq
      have hlen : (R ++ l').length = n := by
        rw [List.length_append, i1.length_eq, ← List.length_append, hall.length_eq]
        simp
      have hm := map_getD p.1 hlen
      refine ⟨?_, R, l', hm, hRe, ?_, i2, pairwise_key i3 hOs⟩
      · rw [entries_eq, hm, entries_eq]
        exact (((List.Perm.refl R).append i1).trans hall).map _
      · refine hRs.imp fun {w z} h => ?_
        rcases order_le.1 h with h | h
        · exact h.le
        · exact h.1.le

end Verif.IirDesign
