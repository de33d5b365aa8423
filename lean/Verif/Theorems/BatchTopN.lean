import Verif.Model.BatchTopN
import Mathlib.Data.List.Perm.Subperm
import Mathlib.Data.List.GetD
import Mathlib.Data.List.Nodup
import Mathlib.Data.Rat.Defs
import Mathlib.Algebra.Order.Ring.Rat
import Mathlib.Tactic.Linarith

/-!
# C14, C52: `BatchTopN` and `TopNPeaks`
-/

namespace Verif.BatchTopN

variable {α : Type*} {β : Type*} [LinearOrder β]

/-! ## Specification -/

/-- The comparator is a strict weak order: asymmetric, and "not better" is transitive. -/
structure StrictWeak (gt : α → α → Bool) : Prop where
  asymm : ∀ a b, gt a b = true → gt b a = false
  trans : ∀ a b c, gt a b = false → gt b c = false → gt a c = false

/-- `result` consists of the best `min n pushed.length` of the elements `pushed`, best first. -/
structure IsTop (gt : α → α → Bool) (n : ℕ) (pushed result : List α) : Prop where
  size : result.length = min n pushed.length
  sorted : result.Pairwise fun x y => gt y x = false
  top : ∃ rest, (result ++ rest).Perm pushed ∧ ∀ d ∈ rest, ∀ r ∈ result, gt d r = false

/-- The elements pushed since the last `Reset`. -/
def pushedSince : List (Op α) → List α
  | h => h.foldl (fun acc op => match op with
    | .push v => acc ++ [v]
    | .get => acc
    | .reset => []) []

theorem pushedSince_append (h : List (Op α)) (op : Op α) :
    pushedSince (h ++ [op]) = match op with
      | .push v => pushedSince h ++ [v]
      | .get => pushedSince h
      | .reset => [] := by
  unfold pushedSince
  rw [List.foldl_append]; cases op <;> rfl

/-! ## Invariant -/

/-- Buffered values. -/
def buf (s : State α) : List α := (s.indices.take s.cur).map s.elements

structure Inv (gt : α → α → Bool) (limit : ℕ) (s : State α) (pushed : List α) : Prop where
  lim : s.limit = limit
  perm : s.indices.Perm (List.range (2 * limit))
  cur : s.cur < 2 * limit
  rest : ∃ dropped, (buf s ++ dropped).Perm pushed ∧
    match s.threshold with
    | none => dropped = [] ∧ s.cur < limit ∧ (s.indices.take s.cur).Perm (List.range s.cur) ∧
        s.indices[s.cur]? = some s.cur ∧
        s.indices.drop s.cur = List.range' s.cur (2 * limit - s.cur)
    | some t => limit ≤ s.cur ∧ t ∈ s.indices.take s.cur ∧
        limit ≤ (buf s).countP (fun x => !gt (s.elements t) x) ∧
        ∀ d ∈ dropped, gt d (s.elements t) = false

theorem inv_reset {gt : α → α → Bool} {limit : ℕ} (hl : 1 ≤ limit) {s : State α} (h : s.limit = limit) :
    Inv gt limit s.reset [] := by
  refine ⟨h, by simp [State.reset, h], by simp [State.reset]; omega, [], by simp [buf, State.reset], ?_⟩
  simp only [State.reset, h]
  refine ⟨trivial, by omega, by simp, ?_, ?_⟩
  · rw [List.getElem?_range (by omega)]
  · simp [List.range_eq_range']

/-- In a sorted list of which at least `n` elements are not worse than `x`, the element at `n - 1` is
not worse than `x`. -/
theorem nth_ge {gt : α → α → Bool} (hg : StrictWeak gt) {l : List α} {x : α} {n : ℕ} (hn : 1 ≤ n)
    (hs : l.Pairwise fun x y => gt y x = false) (hc : n ≤ l.countP (fun y => !gt x y))
    (hl : n - 1 < l.length) : gt x l[n - 1] = false := by
  by_contra hcon
  rw [Bool.not_eq_false] at hcon
  have hlt : l.countP (fun y => !gt x y) < n := by
    have e : l = l.take (n - 1) ++ l.drop (n - 1) := (List.take_append_drop _ _).symm
    have h1 : (l.take (n - 1)).countP (fun y => !gt x y) ≤ n - 1 :=
      List.countP_le_length.trans (by simp)
    have h2 : (l.drop (n - 1)).countP (fun y => !gt x y) = 0 := by
      rw [List.countP_eq_zero]
      intro y hy
      have hy' : gt y l[n - 1] = false := by
        rw [List.drop_eq_getElem_cons hl, List.mem_cons] at hy
        rcases hy with rfl | hy
        · cases hh : gt l[n - 1] l[n - 1] with
          | false => rfl
          | true => have := hg.asymm _ _ hh; rw [hh] at this; cases this
        · rw [e, List.drop_eq_getElem_cons hl, List.pairwise_append] at hs
          exact (List.pairwise_cons.mp hs.2.1).1 y hy
      cases hxy : gt x y with
      | true => simp
      | false => have := hg.trans _ _ _ hxy hy'; rw [hcon] at this; cases this
    rw [e, List.countP_append, h2]
    omega
  omega

theorem minLoop_spec {gt : α → α → Bool} (hg : StrictWeak gt) (e : ℕ → α) (n i t : ℕ) (ht : t < i)
    (h : ∀ j < i, gt (e t) (e j) = false) :
    minLoop gt e n i t < i + n ∧ ∀ j < i + n, gt (e (minLoop gt e n i t)) (e j) = false := by
  induction n generalizing i t with
  | zero => exact ⟨ht, h⟩
  | succ n ih =>
    rw [minLoop, show i + (n + 1) = i + 1 + n by omega]
    apply ih
    · split <;> omega
    · intro j hj
      split
      · rename_i hgt
        by_cases hji : j = i
        · subst hji
          cases hh : gt (e j) (e j) with
          | false => rfl
          | true => have := hg.asymm _ _ hh; rw [hh] at this; cases this
        · exact hg.trans _ _ _ (hg.asymm _ _ hgt) (h j (by omega))
      · rename_i hgt
        by_cases hji : j = i
        · subst hji; simpa using hgt
        · exact h j (by omega)

/-- What the write in `PushImpl` does. -/
theorem buf_push {limit : ℕ} {s : State α} (v : α) (hp : s.indices.Perm (List.range (2 * limit)))
    (hc : s.cur < 2 * limit) :
    ∃ slot, s.indices[s.cur]? = some slot ∧ s.indices.getD s.cur 0 = slot ∧ slot < 2 * limit ∧
      (∀ i ∈ s.indices.take s.cur, Function.update s.elements slot v i = s.elements i) ∧
      (s.indices.take (s.cur + 1)).map (Function.update s.elements slot v) = buf s ++ [v] := by
  have hlen : s.indices.length = 2 * limit := by rw [hp.length_eq]; simp
  have hcl : s.cur < s.indices.length := by omega
  have hnd : s.indices.Nodup := hp.nodup_iff.mpr List.nodup_range
  have hne : ∀ i ∈ s.indices.take s.cur, i ≠ s.indices[s.cur] := by
    intro i hi he
    obtain ⟨j, hj, rfl⟩ := List.getElem_of_mem hi
    rw [List.getElem_take] at he
    have hj' : j < s.cur := by simp at hj; omega
    have := (List.Nodup.getElem_inj_iff hnd).mp he
    omega
  have hup : ∀ i ∈ s.indices.take s.cur,
      Function.update s.elements s.indices[s.cur] v i = s.elements i := by
    intro i hi; rw [Function.update_of_ne (hne i hi)]
  refine ⟨s.indices[s.cur], by simp [hcl], by simp [List.getD, hcl], ?_, hup, ?_⟩
  · have := hp.mem_iff.mp (List.getElem_mem hcl)
    simpa using this
  · rw [List.take_succ_eq_append_getElem hcl, List.map_append]
    congr 1
    · unfold buf; exact List.map_congr_left hup
    · simp

theorem inv_push {gt : α → α → Bool} (hg : StrictWeak gt) {limit : ℕ} (hl : 1 ≤ limit) {s : State α}
    {pushed : List α} (hi : Inv gt limit s pushed) {v : α} {perm : List ℕ}
    (h : accepts gt s v = true → s.cur + 1 ≥ 2 * s.limit →
        IsNthElement (indexComp gt (written s v)) (s.limit - 1) s.indices perm) :
    ∃ s', pushImpl gt perm s v = some s' ∧ Inv gt limit s' (pushed ++ [v]) := by
  obtain ⟨hlim, hperm, hcur, dropped, hpd, hth⟩ := hi
  obtain ⟨slot, hs1, hs2, hs3, hs4, hs5⟩ := buf_push v hperm hcur
  have hlen : s.indices.length = 2 * limit := by rw [hperm.length_eq]; simp
  unfold pushImpl
  by_cases ha : accepts gt s v = true
  · rw [if_pos ha, hs1]
    simp only
    rw [if_pos (by rw [hlim]; exact hs3)]
    have hpd' : ((buf s ++ [v]) ++ dropped).Perm (pushed ++ [v]) := by
      refine List.Perm.trans ?_ (hpd.append_right [v])
      rw [List.append_assoc, List.append_assoc]
      exact List.Perm.append_left _ List.perm_append_comm
    by_cases hfull : s.cur + 1 ≥ 2 * s.limit
    · -- prune
      rw [if_pos hfull]
      obtain ⟨hpp, hnth⟩ := h ha hfull
      have hw : written s v = Function.update s.elements slot v := by unfold written; rw [hs2]
      rw [hw] at hnth
      have hc1 : s.cur + 1 = 2 * limit := by omega
      have hplen : perm.length = 2 * limit := by rw [hpp.length_eq, hlen]
      have hn : s.limit - 1 < perm.length := by omega
      refine ⟨_, rfl, hlim, hpp.trans hperm, by simp only; omega, ?_⟩
      have hall : s.indices.take (s.cur + 1) = s.indices := by
        rw [hc1, ← hlen, List.take_length]
      rw [hall] at hs5
      refine ⟨(perm.drop s.limit).map (Function.update s.elements slot v) ++ dropped, ?_, ?_⟩
      · refine List.Perm.trans ?_ hpd'
        rw [← hs5, ← List.append_assoc]
        apply List.Perm.append_right
        unfold buf
        simp only
        rw [← List.map_append, List.take_append_drop]
        exact hpp.map _
      · simp only [List.getElem?_eq_getElem hn]
        refine ⟨by omega, ?_, ?_, ?_⟩
        · rw [List.mem_iff_getElem]
          exact ⟨s.limit - 1, by simp; omega, by simp⟩
        · unfold buf
          simp only
          rw [List.countP_eq_length.mpr]
          · simp; omega
          · intro x hx
            obtain ⟨i, hi, rfl⟩ := List.mem_map.mp hx
            obtain ⟨j, hj, rfl⟩ := List.getElem_of_mem hi
            rw [List.getElem_take]
            simp at hj
            by_cases hjl : j = s.limit - 1
            · subst hjl
              cases hh : gt (Function.update s.elements slot v perm[s.limit - 1])
                (Function.update s.elements slot v perm[s.limit - 1]) with
              | false => rfl
              | true => have := hg.asymm _ _ hh; rw [hh] at this; cases this
            · have := hnth j (s.limit - 1) hn (by omega) le_rfl (by omega) hjl
              unfold indexComp at this
              simp [this]
        · intro d hd
          rcases List.mem_append.mp hd with hd | hd
          · obtain ⟨i, hi, rfl⟩ := List.mem_map.mp hd
            obtain ⟨j, hj, rfl⟩ := List.getElem_of_mem hi
            rw [List.getElem_drop]
            simp at hj
            exact hnth (s.limit - 1) (s.limit + j) (by omega) le_rfl (by omega) hn (by omega)
          · -- previously dropped
            cases ht : s.threshold with
            | none =>
              rw [ht] at hth
              obtain ⟨hd0, hcl, _⟩ := hth
              rw [hd0] at hd; cases hd
            | some t =>
              rw [ht] at hth
              obtain ⟨_, ht1, ht2, ht3⟩ := hth
              have hdt := ht3 d hd
              -- the new threshold is at least the old one
              refine hg.trans _ _ _ hdt ?_
              -- count argument
              by_contra hcon
              rw [Bool.not_eq_false] at hcon
              have hcnt : limit + 1 ≤ ((perm.map (Function.update s.elements slot v)).countP
                  (fun x => !gt (s.elements t) x)) := by
                have : (perm.map (Function.update s.elements slot v)).Perm (buf s ++ [v]) := by
                  rw [← hs5]; exact hpp.map _
                rw [this.countP_eq, List.countP_append]
                have hv : gt v (s.elements t) = true := by unfold accepts at ha; rw [ht] at ha; exact ha
                have : [v].countP (fun x => !gt (s.elements t) x) = 1 := by
                  simp [hg.asymm _ _ hv]
                omega
              have hle : ((perm.map (Function.update s.elements slot v)).countP
                  (fun x => !gt (s.elements t) x)) ≤ limit - 1 := by
                rw [← List.take_append_drop (s.limit - 1) perm, List.map_append, List.countP_append]
                have h1 : ((perm.take (s.limit - 1)).map (Function.update s.elements slot v)).countP
                    (fun x => !gt (s.elements t) x) ≤ limit - 1 :=
                  List.countP_le_length.trans (by simp; omega)
                have h2 : ((perm.drop (s.limit - 1)).map (Function.update s.elements slot v)).countP
                    (fun x => !gt (s.elements t) x) = 0 := by
                  rw [List.countP_eq_zero]
                  intro y hy
                  obtain ⟨i, hi, rfl⟩ := List.mem_map.mp hy
                  obtain ⟨j, hj, rfl⟩ := List.getElem_of_mem hi
                  rw [List.getElem_drop]
                  simp at hj
                  have hj0 : gt (Function.update s.elements slot v perm[s.limit - 1 + j])
                      (Function.update s.elements slot v perm[s.limit - 1]) = false := by
                    by_cases hjz : j = 0
                    · subst hjz
                      simp only [Nat.add_zero]
                      cases hh : gt (Function.update s.elements slot v perm[s.limit - 1])
                        (Function.update s.elements slot v perm[s.limit - 1]) with
                      | false => rfl
                      | true => have := hg.asymm _ _ hh; rw [hh] at this; cases this
                    · exact hnth (s.limit - 1) (s.limit - 1 + j) (by omega) le_rfl (by omega) hn
                        (by omega)
                  cases hxy : gt (s.elements t)
                      (Function.update s.elements slot v perm[s.limit - 1 + j]) with
                  | true => simp
                  | false =>
                    have := hg.trans _ _ _ hxy hj0
                    rw [hcon] at this; cases this
                omega
              omega
    · rw [if_neg hfull]
      by_cases heq : s.cur + 1 = s.limit
      · -- first threshold
        rw [if_pos heq]
        refine ⟨_, rfl, hlim, hperm, by simp only; omega, dropped, ?_, ?_⟩
        · unfold buf; simp only; rw [hs5]; exact hpd'
        · have htn : s.threshold = none := by
            cases ht : s.threshold with
            | none => rfl
            | some t => rw [ht] at hth; have := hth.1; omega
          rw [htn] at hth
          obtain ⟨hd0, hcl, htk, hsl, hdr⟩ := hth
          have hslot : slot = s.cur := by rw [hs1] at hsl; exact Option.some.inj hsl
          have htk' : (s.indices.take (s.cur + 1)).Perm (List.range (s.cur + 1)) := by
            rw [List.take_succ_eq_append_getElem (by omega), List.range_succ]
            have : s.indices[s.cur]'(by omega) = s.cur := by
              rw [List.getElem?_eq_getElem (by omega)] at hsl; exact Option.some.inj hsl
            rw [this]
            exact htk.append_right _
          obtain ⟨m1, m2⟩ := minLoop_spec hg (Function.update s.elements slot v) (s.limit - 1) 1 0
            (by omega) (by
              intro j hj
              have : j = 0 := by omega
              subst this
              cases hh : gt (Function.update s.elements slot v 0) (Function.update s.elements slot v 0) with
              | false => rfl
              | true => have := hg.asymm _ _ hh; rw [hh] at this; cases this)
          rw [show 1 + (s.limit - 1) = s.cur + 1 by omega] at m1 m2
          simp only
          refine ⟨by omega, htk'.mem_iff.mpr (by simpa using m1), ?_, by rw [hd0]; simp⟩
          unfold buf
          simp only
          rw [List.countP_eq_length.mpr]
          · simp; omega
          · intro x hx
            obtain ⟨i, hi, rfl⟩ := List.mem_map.mp hx
            have := htk'.mem_iff.mp hi
            simp [m2 i (by simpa using this)]
      · rw [if_neg heq]
        refine ⟨_, rfl, hlim, hperm, by simp only; omega, dropped, ?_, ?_⟩
        · unfold buf; simp only; rw [hs5]; exact hpd'
        · cases ht : s.threshold with
          | none =>
            rw [ht] at hth
            obtain ⟨hd0, hcl, htk, hsl, hdr⟩ := hth
            simp only
            have hdr' : s.indices.drop (s.cur + 1) = List.range' (s.cur + 1) (2 * limit - (s.cur + 1)) := by
              rw [← List.drop_drop, hdr, show 2 * limit - s.cur = 2 * limit - (s.cur + 1) + 1 by omega,
                List.range'_succ]
              simp
            refine ⟨hd0, by omega, ?_, ?_, hdr'⟩
            · rw [List.take_succ_eq_append_getElem (by omega), List.range_succ]
              have : s.indices[s.cur]'(by omega) = s.cur := by
                rw [List.getElem?_eq_getElem (by omega)] at hsl; exact Option.some.inj hsl
              rw [this]
              exact htk.append_right _
            · have : (s.indices.drop (s.cur + 1))[0]? = s.indices[s.cur + 1]? := by simp
              rw [← this, hdr', List.getElem?_range' (by omega)]
          | some t =>
            rw [ht] at hth
            obtain ⟨ht0, ht1, ht2, ht3⟩ := hth
            simp only
            have hte : Function.update s.elements slot v t = s.elements t := hs4 t ht1
            refine ⟨by omega, ?_, ?_, ?_⟩
            · rw [List.take_succ_eq_append_getElem (by omega)]
              exact List.mem_append_left _ ht1
            · unfold buf
              simp only
              rw [hs5, hte, List.countP_append]; omega
            · rw [hte]; exact ht3
  · rw [if_neg ha]
    refine ⟨s, rfl, hlim, hperm, hcur, ?_⟩
    cases ht : s.threshold with
    | none => unfold accepts at ha; rw [ht] at ha; simp at ha
    | some t =>
      rw [ht] at hth
      obtain ⟨ht0, ht1, ht2, ht3⟩ := hth
      refine ⟨dropped ++ [v], ?_, ?_⟩
      · rw [← List.append_assoc]; exact hpd.append_right _
      · simp only
        refine ⟨ht0, ht1, ht2, ?_⟩
        intro d hd
        rcases List.mem_append.mp hd with hd | hd
        · exact ht3 d hd
        · rw [List.mem_singleton] at hd
          subst hd
          unfold accepts at ha; rw [ht] at ha; simpa using ha

theorem inv_get {gt : α → α → Bool} (hg : StrictWeak gt) {limit : ℕ} (hl : 1 ≤ limit) {s : State α}
    {pushed : List α} (hi : Inv gt limit s pushed) {sorted : List ℕ}
    (h : IsSorted (indexComp gt s.elements) (s.indices.take s.cur) sorted) :
    Inv gt limit (getImpl sorted s).1 pushed ∧ IsTop gt limit pushed (getImpl sorted s).2 := by
  obtain ⟨hlim, hperm, hcur, dropped, hpd, hth⟩ := hi
  obtain ⟨hsp, hss⟩ := h
  have hlen : s.indices.length = 2 * limit := by rw [hperm.length_eq]; simp
  have hslen : sorted.length = s.cur := by rw [hsp.length_eq]; simp; omega
  have hsb : (sorted.map s.elements).Perm (buf s) := hsp.map _
  have hsorted : (sorted.map s.elements).Pairwise fun x y => gt y x = false := by
    rw [List.pairwise_map]; exact hss
  have hperm' : (sorted ++ s.indices.drop s.cur).Perm (List.range (2 * limit)) := by
    refine List.Perm.trans ?_ hperm
    conv_rhs => rw [← List.take_append_drop s.cur s.indices]
    exact hsp.append_right _
  have htake : ∀ k ≤ s.cur, (sorted ++ s.indices.drop s.cur).take k = sorted.take k := by
    intro k hk; rw [List.take_append_of_le_length (by omega)]
  have hpl : pushed.length = s.cur + dropped.length := by
    rw [← hpd.length_eq, List.length_append]; unfold buf; simp; omega
  unfold getImpl
  simp only
  by_cases hc : s.cur ≥ s.limit
  · rw [if_pos hc]
    simp only
    have hn : s.limit - 1 < sorted.length := by omega
    have hth' : (sorted ++ s.indices.drop s.cur)[s.limit - 1]? = some sorted[s.limit - 1] := by
      rw [List.getElem?_append_left hn, List.getElem?_eq_getElem hn]
    -- threshold present
    cases ht : s.threshold with
    | none => rw [ht] at hth; have := hth.2.1; omega
    | some t =>
      rw [ht] at hth
      obtain ⟨ht0, ht1, ht2, ht3⟩ := hth
      have hnm : s.limit - 1 < (sorted.map s.elements).length := by simpa using hn
      have hthr : gt (s.elements t) (sorted.map s.elements)[s.limit - 1] = false := by
        apply nth_ge hg (by omega) hsorted _ hnm
        rw [hsb.countP_eq, hlim]; exact ht2
      rw [List.getElem_map] at hthr
      have hdrop : ∀ d ∈ (sorted.drop s.limit).map s.elements ++ dropped,
          gt d (s.elements sorted[s.limit - 1]) = false := by
        intro d hd
        rcases List.mem_append.mp hd with hd | hd
        · obtain ⟨i, hi, rfl⟩ := List.mem_map.mp hd
          obtain ⟨j, hj, rfl⟩ := List.getElem_of_mem hi
          rw [List.getElem_drop]
          simp at hj
          exact List.pairwise_iff_getElem.mp hss (s.limit - 1) (s.limit + j) hn (by omega) (by omega)
        · exact hg.trans _ _ _ (ht3 d hd) hthr
      have hkeep : ∀ r ∈ (sorted.take s.limit).map s.elements,
          gt (s.elements sorted[s.limit - 1]) r = false := by
        intro r hr
        obtain ⟨i, hi, rfl⟩ := List.mem_map.mp hr
        obtain ⟨j, hj, rfl⟩ := List.getElem_of_mem hi
        rw [List.getElem_take]
        simp at hj
        by_cases hjl : j = s.limit - 1
        · subst hjl
          cases hh : gt (s.elements sorted[s.limit - 1]) (s.elements sorted[s.limit - 1]) with
          | false => rfl
          | true => have := hg.asymm _ _ hh; rw [hh] at this; cases this
        · exact List.pairwise_iff_getElem.mp hss j (s.limit - 1) (by omega) hn (by omega)
      have hpd' : ((sorted.take s.limit).map s.elements ++
          ((sorted.drop s.limit).map s.elements ++ dropped)).Perm pushed := by
        rw [← List.append_assoc, ← List.map_append, List.take_append_drop]
        exact (hsb.append_right _).trans hpd
      refine ⟨⟨hlim, hperm', by simp only; omega, (sorted.drop s.limit).map s.elements ++ dropped, ?_, ?_⟩,
        ⟨?_, ?_, (sorted.drop s.limit).map s.elements ++ dropped, ?_, ?_⟩⟩
      · unfold buf; simp only; rw [htake _ hc]; exact hpd'
      · simp only [hth']
        refine ⟨by omega, ?_, ?_, hdrop⟩
        · rw [htake _ hc, List.mem_iff_getElem]
          exact ⟨s.limit - 1, by simp; omega, by simp⟩
        · unfold buf
          simp only
          rw [htake _ hc, List.countP_eq_length.mpr]
          · simp; omega
          · intro x hx; simp [hkeep x hx]
      · rw [htake _ hc]; simp; omega
      · rw [htake _ hc, List.map_take]; exact hsorted.take
      · rw [htake _ hc]; exact hpd'
      · intro d hd r hr
        rw [htake _ hc] at hr
        exact hg.trans _ _ _ (hdrop d hd) (hkeep r hr)
  · rw [if_neg hc]
    simp only
    have htn : s.threshold = none := by
      cases ht : s.threshold with
      | none => rfl
      | some t => rw [ht] at hth; have := hth.1; omega
    rw [htn] at hth
    obtain ⟨hd0, hcl, htk, hsl, hdr⟩ := hth
    have hts : sorted.take s.cur = sorted := by rw [← hslen, List.take_length]
    have hds : (sorted ++ s.indices.drop s.cur).drop s.cur = s.indices.drop s.cur := by
      rw [List.drop_append_of_le_length (by omega), List.drop_of_length_le (by omega), List.nil_append]
    refine ⟨⟨hlim, hperm', hcur, dropped, ?_, ?_⟩, ⟨?_, ?_, dropped, ?_, by rw [hd0]; simp⟩⟩
    · unfold buf; simp only; rw [htake _ le_rfl, hts]; exact (hsb.append_right _).trans hpd
    · simp only [htn]
      refine ⟨hd0, hcl, ?_, ?_, by rw [hds]; exact hdr⟩
      · rw [htake _ le_rfl, hts]; exact hsp.trans htk
      · rw [List.getElem?_append_right (by omega), hslen, Nat.sub_self, List.getElem?_drop, Nat.add_zero]
        exact hsl
    · rw [htake _ le_rfl, hts, List.length_map, hslen, hpl, hd0]; simp; omega
    · rw [htake _ le_rfl, hts]; exact hsorted
    · rw [htake _ le_rfl, hts]; exact (hsb.append_right _).trans hpd

theorem inv_step {gt : α → α → Bool} (hg : StrictWeak gt) {limit : ℕ} (hl : 1 ≤ limit) {h : List (Op α)}
    {s : State α} {op : Op α} {out : List α} {r : Option (State α)}
    (hi : Inv gt limit s (pushedSince h)) (hs : Step gt s op out r) :
    (∃ s', r = some s' ∧ Inv gt limit s' (pushedSince (h ++ [op]))) ∧
      (op = .get → IsTop gt limit (pushedSince h) out) := by
  rw [pushedSince_append]
  cases hs with
  | push v perm hp =>
    exact ⟨inv_push hg hl hi hp, fun h => by cases h⟩
  | get sorted hp =>
    obtain ⟨a, b⟩ := inv_get hg hl hi hp
    exact ⟨⟨_, rfl, a⟩, fun _ => b⟩
  | reset => exact ⟨⟨_, rfl, inv_reset hl hi.lim⟩, fun h => by cases h⟩

theorem reach_inv {gt : α → α → Bool} (hg : StrictWeak gt) {limit : ℕ} (hl : 1 ≤ limit) {h : List (Op α)}
    {s : State α} (hr : Reach gt limit h s) : Inv gt limit s (pushedSince h) := by
  induction hr with
  | init e => exact inv_reset hl rfl
  | step _ hs ih =>
    obtain ⟨⟨s', e, i⟩, _⟩ := inv_step hg hl ih hs
    cases e; exact i

/-- **C14**: after any history of `Push`, `GetTopElements` and `Reset` calls, with any legal behaviour
of `std::sort` and `std::nth_element`, `GetTopElements` returns the best `min(limit, n)` of the `n`
elements pushed since the last `Reset`, best first. -/
theorem C14_top_elements {gt : α → α → Bool} (hg : StrictWeak gt) {limit : ℕ} (hl : 1 ≤ limit)
    {h : List (Op α)} {s : State α} (hr : Reach gt limit h s) {out : List α} {r : Option (State α)}
    (hs : Step gt s .get out r) : IsTop gt limit (pushedSince h) out :=
  (inv_step hg hl (reach_inv hg hl hr) hs).2 rfl

/-- **C14**: no operation indexes an array out of bounds. -/
theorem C14_no_out_of_bounds {gt : α → α → Bool} (hg : StrictWeak gt) {limit : ℕ} (hl : 1 ≤ limit)
    {h : List (Op α)} {s : State α} (hr : Reach gt limit h s) {op : Op α} {out : List α}
    {r : Option (State α)} (hs : Step gt s op out r) : ∃ s', r = some s' :=
  let ⟨⟨s', e, _⟩, _⟩ := inv_step hg hl (reach_inv hg hl hr) hs
  ⟨s', e⟩

/-! ## C52: peaks -/

theorem pushes_reach {gt : α → α → Bool} {limit : ℕ} {h : List (Op α)} {s s' : State α} {vs : List α}
    (hr : Reach gt limit h s) (hp : Pushes gt s vs s') : Reach gt limit (h ++ vs.map .push) s' := by
  induction hp generalizing h with
  | nil => simpa using hr
  | cons hs _ ih => have := ih (Reach.step hr hs); simpa using this

theorem pushedSince_pushes (h : List (Op α)) (vs : List α) :
    pushedSince (h ++ vs.map .push) = pushedSince h ++ vs := by
  induction vs generalizing h with
  | nil => simp
  | cons v vs ih =>
    have := ih (h ++ [.push v])
    rw [pushedSince_append] at this
    simpa using this

/-- Interior point strictly above its left and not below its right neighbour, or end point above its
only neighbour. -/
def IsPeak (size : ℕ) (f : ℕ → β) (i : ℕ) : Prop :=
  i < size ∧ 2 ≤ size ∧ (if i = 0 then f 0 > f 1 else
    f i > f (i - 1) ∧ (i + 1 < size → f i ≥ f (i + 1)))

/-- The points strictly above their left and not below their right neighbour on a circle. -/
def IsPeriodicPeak (size : ℕ) (f : ℕ → β) (i : ℕ) : Prop :=
  i < size ∧ 2 ≤ size ∧ f i > f ((i + size - 1) % size) ∧ f i ≥ f ((i + 1) % size)

theorem peakComp_strictWeak (f : ℕ → β) : StrictWeak (peakComp f) := by
  constructor
  · intro a b h; unfold peakComp at *; simp at *; exact h.le
  · intro a b c h1 h2; unfold peakComp at *; simp at *; exact h1.trans h2

theorem peaks_of {periodic : Bool} {N size : ℕ} {f : ℕ → β} (hN : 1 ≤ N) {out : List ℕ}
    (h : TopNPeaks periodic N size f out) :
    IsTop (peakComp f) N (peakPushes periodic size f) out := by
  unfold TopNPeaks at h
  split at h
  · rename_i hs
    subst h
    have : peakPushes periodic size f = [] := by unfold peakPushes; rw [if_pos hs]
    rw [this]
    exact ⟨by simp, by simp, [], by simp, by simp⟩
  · obtain ⟨e, s, s', hp, hs⟩ := h
    have hr := pushes_reach (Reach.init e) hp
    have := C14_top_elements (peakComp_strictWeak f) hN hr hs
    rwa [pushedSince_pushes, show pushedSince ([] : List (Op ℕ)) = [] from rfl, List.nil_append] at this

theorem peakPushes_nodup (periodic : Bool) (size : ℕ) (f : ℕ → β) :
    (peakPushes periodic size f).Nodup := by
  unfold peakPushes
  split
  · simp
  · have h1 : ((List.range' 1 (size - 2)).filter fun i => f i > f (i - 1) ∧ f i ≥ f (i + 1)).Nodup :=
      (List.nodup_range').filter _
    have h2 : ∀ x ∈ (List.range' 1 (size - 2)).filter fun i => f i > f (i - 1) ∧ f i ≥ f (i + 1),
        x ≠ 0 ∧ x ≠ size - 1 := by
      intro x hx
      have := (List.mem_filter.mp hx).1
      rw [List.mem_range'_1] at this
      omega
    have h3 : (0 : ℕ) ≠ size - 1 := by omega
    rw [List.nodup_append]
    refine ⟨h1, ?_, ?_⟩
    · split <;> (repeat' split) <;> simp_all
    · intro a ha b hb he
      have := h2 a ha
      subst he
      revert hb
      split <;> (repeat' split) <;> simp <;> omega

/-- **C52**: `TopNPeaksNonperiodic` returns the `N` highest peaks, highest first. -/
theorem C52_nonperiodic {N size : ℕ} {f : ℕ → β} (hN : 1 ≤ N) {out : List ℕ}
    (h : TopNPeaks false N size f out) :
    ∃ peaks : List ℕ, peaks.Nodup ∧ (∀ i, i ∈ peaks ↔ IsPeak size f i) ∧
      IsTop (fun i j => decide (f i > f j)) N peaks out := by
  refine ⟨peakPushes false size f, peakPushes_nodup _ _ _, ?_, peaks_of hN h⟩
  intro i
  unfold peakPushes IsPeak
  by_cases hs : size < 2
  · rw [if_pos hs]; simp; omega
  · rw [if_neg hs]
    simp only [Bool.false_eq_true, if_false, List.mem_append, List.mem_filter, List.mem_range'_1,
      decide_eq_true_eq]
    constructor
    · rintro (⟨h1, h2⟩ | h | h)
      · refine ⟨by omega, by omega, ?_⟩
        rw [if_neg (by omega)]
        exact ⟨h2.1, fun _ => h2.2⟩
      · split at h
        · rename_i h0
          rw [List.mem_singleton] at h; subst h
          exact ⟨by omega, by omega, by simpa using h0⟩
        · cases h
      · split at h
        · rename_i h0
          rw [List.mem_singleton] at h; subst h
          refine ⟨by omega, by omega, ?_⟩
          rw [if_neg (by omega)]
          exact ⟨h0, fun hc => by omega⟩
        · cases h
    · rintro ⟨h1, _, h3⟩
      by_cases h0 : i = 0
      · subst h0
        rw [if_pos rfl] at h3
        right; left; rw [if_pos h3]; simp
      · rw [if_neg h0] at h3
        by_cases hl : i + 1 < size
        · left; exact ⟨by omega, h3.1, h3.2 hl⟩
        · right; right
          have : i = size - 1 := by omega
          subst this
          rw [if_pos (by rw [show size - 2 = size - 1 - 1 by omega]; exact h3.1)]; simp

/-- **C52**, periodic, for containers in which the first element differs from both its neighbours on
the circle: `TopNPeaksPeriodic` returns the `N` highest peaks. Without that hypothesis the claim is
false (`C52_periodic_violation`): at index 0 the code compares strictly on the right instead of on the
left. -/
theorem C52_periodic_partial {N size : ℕ} {f : ℕ → β} (hN : 1 ≤ N) (hne : f 0 ≠ f 1)
    (hne' : f 0 ≠ f (size - 1)) {out : List ℕ} (h : TopNPeaks true N size f out) :
    ∃ peaks : List ℕ, peaks.Nodup ∧ (∀ i, i ∈ peaks ↔ IsPeriodicPeak size f i) ∧
      IsTop (fun i j => decide (f i > f j)) N peaks out := by
  refine ⟨peakPushes true size f, peakPushes_nodup _ _ _, ?_, peaks_of hN h⟩
  intro i
  unfold peakPushes IsPeriodicPeak
  by_cases hs : size < 2
  · rw [if_pos hs]; simp; omega
  · rw [if_neg hs]
    simp only [if_true, List.mem_append, List.mem_filter, List.mem_range'_1, decide_eq_true_eq]
    constructor
    · rintro (⟨h1, h2⟩ | h | h)
      · refine ⟨by omega, by omega, ?_⟩
        rw [show i + size - 1 = i - 1 + size by omega, Nat.add_mod_right, Nat.mod_eq_of_lt (by omega),
          Nat.mod_eq_of_lt (by omega)]
        exact h2
      · split at h
        · rename_i h0
          rw [List.mem_singleton] at h; subst h
          refine ⟨by omega, by omega, ?_⟩
          rw [Nat.mod_eq_of_lt (by omega), Nat.mod_eq_of_lt (by omega), Nat.zero_add, Nat.zero_add]
          exact ⟨lt_of_le_of_ne h0.2 (fun e => hne' e.symm), h0.1.le⟩
        · cases h
      · split at h
        · rename_i h0
          rw [List.mem_singleton] at h; subst h
          refine ⟨by omega, by omega, ?_⟩
          rw [show size - 1 + size - 1 = size - 2 + size by omega, Nat.add_mod_right,
            Nat.mod_eq_of_lt (by omega), show size - 1 + 1 = size by omega, Nat.mod_self]
          exact h0
        · cases h
    · rintro ⟨h1, _, h3, h4⟩
      by_cases h0 : i = 0
      · subst h0
        rw [Nat.mod_eq_of_lt (by omega), Nat.zero_add] at h3
        rw [Nat.mod_eq_of_lt (by omega), Nat.zero_add] at h4
        right; left
        rw [if_pos ⟨lt_of_le_of_ne h4 (fun e => hne e.symm), h3.le⟩]; simp
      · rw [show i + size - 1 = i - 1 + size by omega, Nat.add_mod_right, Nat.mod_eq_of_lt (by omega)] at h3
        by_cases hl : i + 1 < size
        · rw [Nat.mod_eq_of_lt hl] at h4
          left; exact ⟨by omega, h3, h4⟩
        · right; right
          have : i = size - 1 := by omega
          subst this
          rw [show size - 1 + 1 = size by omega, Nat.mod_self] at h4
          rw [if_pos ⟨by rw [show size - 2 = size - 1 - 1 by omega]; exact h3, h4⟩]; simp

/-- Circular container 3, 3, 1: index 0 is a peak (above its left neighbour 1, not below its right
neighbour 3), but `TopNPeaksPeriodic` finds none. Circular container 3, 1, 3: index 0 is not a peak
(its left neighbour is 3), but it is reported. -/
theorem C52_periodic_violation :
    (let f := fun i => [3, 3, 1].getD i (0 : ℚ)
     IsPeriodicPeak 3 f 0 ∧ peakPushes true 3 f = []) ∧
    (let f := fun i => [3, 1, 3].getD i (0 : ℚ)
     ¬ IsPeriodicPeak 3 f 0 ∧ 0 ∈ peakPushes true 3 f) := by
  unfold IsPeriodicPeak
  decide +kernel

/-- Pushing 5, 1, 7 with limit 1 (so `max_size = 2` and the buffer is pruned): a legal run. -/
example : ∃ s out r, Reach (fun a b : ℕ => decide (a > b)) 1 [.push 5, .push 1, .push 7] s ∧
    Step (fun a b : ℕ => decide (a > b)) s .get out r ∧ out = [7] := by
  refine ⟨⟨1, Function.update (Function.update (fun _ => 0) 0 5) 1 7, [1, 0], 1, some 1⟩, [7], _,
    ?_, Step.get _ [1] ⟨by simp, by simp⟩, rfl⟩
  have h0 := Reach.init (gt := fun a b : ℕ => decide (a > b)) (limit := 1) (fun _ => 0)
  have h1 := Reach.step h0 (Step.push _ 5 [] (by intro _ h; simp [State.init, State.reset] at h))
  have h2 := Reach.step h1 (Step.push _ 1 [] (by
    intro h; simp [accepts, minLoop, State.init, State.reset] at h))
  have h3 := Reach.step h2 (Step.push _ 7 [1, 0] (by
    intro _ _
    refine ⟨List.Perm.swap _ _ _, ?_⟩
    intro i j hj hi hn hl hij
    have h1 : i = 0 := by simp [State.init, State.reset] at hi; omega
    have h2 : j = 1 := by simp at hj; omega
    subst h1 h2
    simp [indexComp, written, State.init, State.reset]))
  exact h3

end Verif.BatchTopN
