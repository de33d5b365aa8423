import Verif.Proof.Fir

/-! Lemmas for C101: the block FIR filter in any arithmetic. -/

namespace Verif.Fir.General

variable {R : Type} [Zero R] [Add R] [Mul R]

theorem addCols_spec {buf : List R} {dst : ℕ} {xs : List R} (h : dst + xs.length ≤ buf.length) :
    ∃ buf', addCols buf dst xs = .ok buf' ∧ buf'.length = buf.length ∧
      ∀ j, buf'.getD j 0 =
        if dst ≤ j ∧ j < dst + xs.length then buf.getD j 0 + xs.getD (j - dst) 0 else buf.getD j 0 := by
  refine ⟨_, by unfold addCols; rw [if_pos h], ?_, ?_⟩
  · simp; omega
  · intro j
    have hz : (List.zipWith (· + ·) ((buf.drop dst).take xs.length) xs).length = xs.length := by
      simp; omega
    rw [List.getD_eq_getElem?_getD, List.getD_eq_getElem?_getD, List.getD_eq_getElem?_getD,
      List.append_assoc, List.getElem?_append, List.length_take]
    by_cases h1 : j < dst
    · rw [if_pos (by omega), if_neg (by omega), List.getElem?_take, if_pos h1]
    · have hm : min dst buf.length = dst := by omega
      rw [if_neg (by omega), List.getElem?_append, hz, hm]
      by_cases h2 : j < dst + xs.length
      · rw [if_pos (by omega), if_pos (by omega), List.getElem?_zipWith, List.getElem?_take,
          if_pos (by omega), List.getElem?_drop, show dst + (j - dst) = j by omega,
          List.getElem?_eq_getElem (by omega : j < buf.length),
          List.getElem?_eq_getElem (by omega : j - dst < xs.length)]
        simp
      · rw [if_neg (by omega), if_neg (by omega), List.getElem?_drop]
        congr 2; omega

theorem getD_map_mul (l : List R) (x : R) (j : ℕ) (hj : j < l.length) :
    (l.map (· * x)).getD j 0 = l.getD j 0 * x := by
  rw [List.getD_eq_getElem _ _ (by simpa using hj), List.getD_eq_getElem _ _ hj, List.getElem_map]

theorem getD_drop' (l : List R) (n j : ℕ) : (l.drop n).getD j 0 = l.getD (n + j) 0 := by
  rw [List.getD_eq_getElem?_getD, List.getD_eq_getElem?_getD, List.getElem?_drop]

theorem getD_take' (l : List R) {n j : ℕ} (h : j < n) : (l.take n).getD j 0 = l.getD j 0 := by
  rw [List.getD_eq_getElem?_getD, List.getD_eq_getElem?_getD, List.getElem?_take, if_pos h]

/-- The inputs `x i`, `i < n`, added at position `p` to `acc`, in the order in which they arrive. -/
def addUp (kernel : List R) (x : ℕ → R) (p n : ℕ) (acc : R) : R :=
  (List.range n).foldl (fun acc i => if i ≤ p ∧ p - i < kernel.length then acc + kernel.getD (p - i) 0 * x i else acc) acc

theorem addUp_succ (kernel : List R) (x : ℕ → R) (p n : ℕ) (acc : R) : addUp kernel x p (n + 1) acc =
    if n ≤ p ∧ p - n < kernel.length then addUp kernel x p n acc + kernel.getD (p - n) 0 * x n
    else addUp kernel x p n acc := by
  unfold addUp
  rw [List.range_succ, List.foldl_append]
  rfl

theorem addUp_add (kernel : List R) (x : ℕ → R) (p n k : ℕ) (acc : R) : addUp kernel x (p + n) (n + k) acc =
    addUp kernel (fun i => x (n + i)) p k (addUp kernel x (p + n) n acc) := by
  induction k with
  | zero => rfl
  | succ k ih =>
    rw [← Nat.add_assoc, addUp_succ, ih, addUp_succ]
    have e : p + n - (n + k) = p - k := by omega
    simp only [e, show (n + k ≤ p + n) = (k ≤ p) by simp only [eq_iff_iff]; omega]

theorem addUp_congr (kernel : List R) {x y : ℕ → R} (p n : ℕ) (acc : R) (h : ∀ i, i < n → x i = y i) :
    addUp kernel x p n acc = addUp kernel y p n acc := by
  induction n with
  | zero => rfl
  | succ n ih => rw [addUp_succ, addUp_succ, ih (fun i hi => h i (by omega)), h n (by omega)]

/-- Inputs that arrive later than `p` do not count. -/
theorem addUp_later (kernel : List R) (x : ℕ → R) (p n k : ℕ) (acc : R) (h : p < n) :
    addUp kernel x p (n + k) acc = addUp kernel x p n acc := by
  induction k with
  | zero => rfl
  | succ k ih => rw [← Nat.add_assoc, addUp_succ, if_neg (by omega), ih]

/-- Inputs that are too old do not count. -/
theorem addUp_old (kernel : List R) (x : ℕ → R) (p n : ℕ) (acc : R) (h : kernel.length + n ≤ p + 1) :
    addUp kernel x p n acc = acc := by
  induction n with
  | zero => rfl
  | succ n ih => rw [addUp_succ, if_neg (by omega), ih (by omega)]

theorem accumulate_spec (kernel : List R) (cols : ℕ) (x : ℕ → R) : ∀ (xs : List R) (i : ℕ) (out st : List R),
    i + xs.length = cols → out.length = cols → st.length = kernel.length → (∀ m, m < xs.length → xs.getD m 0 = x (i + m)) →
    (out0 st0 : ℕ → R) → (∀ j, j < cols → out.getD j 0 = addUp kernel x j i (out0 j)) →
    (∀ j, j < kernel.length → st.getD j 0 = addUp kernel x (j + cols) i (st0 j)) →
    ∃ out' st', accumulate kernel cols i xs out st = .ok (out', st') ∧
      out'.length = cols ∧ st'.length = kernel.length ∧
      (∀ j, j < cols → out'.getD j 0 = addUp kernel x j cols (out0 j)) ∧
      (∀ j, j < kernel.length → st'.getD j 0 = addUp kernel x (j + cols) cols (st0 j))
  | [], i, out, st, h1, h2, h3, _, out0, st0, h5, h6 => by
    have : i = cols := by simpa using h1
    subst this
    exact ⟨out, st, rfl, h2, h3, h5, h6⟩
  | y :: xs, i, out, st, h1, h2, h3, h4, out0, st0, h5, h6 => by
    have hlen : i + 1 + xs.length = cols := by simp at h1; omega
    have hy : y = x i := by simpa using h4 0 (by simp)
    subst hy
    have ht : ((kernel.map (· * x i)).take (min (cols - i) kernel.length)).length
        = min (cols - i) kernel.length := by simp
    obtain ⟨o1, e1, l1, g1⟩ := addCols_spec (buf := out) (dst := i)
      (xs := (kernel.map (· * x i)).take (min (cols - i) kernel.length)) (by rw [ht]; omega)
    obtain ⟨s1, e2, l2, g2⟩ : ∃ s1, (if 0 < kernel.length - (cols - i)
        then addCols st 0 ((kernel.map (· * x i)).drop (kernel.length - (kernel.length - (cols - i))))
        else .ok st) = .ok s1 ∧ s1.length = kernel.length ∧
        ∀ j, j < kernel.length → s1.getD j 0 =
          if j + cols - i < kernel.length then st.getD j 0 + kernel.getD (j + cols - i) 0 * x i else st.getD j 0 := by
      split
      · rename_i hp
        have hd : ((kernel.map (· * x i)).drop (kernel.length - (kernel.length - (cols - i)))).length
            = kernel.length - (cols - i) := by simp; omega
        obtain ⟨s1, e, l, g⟩ := addCols_spec (buf := st) (dst := 0)
          (xs := (kernel.map (· * x i)).drop (kernel.length - (kernel.length - (cols - i))))
          (by rw [hd]; omega)
        refine ⟨s1, e, by omega, ?_⟩
        intro j _
        rw [g j, hd]
        by_cases c : j < kernel.length - (cols - i)
        · rw [if_pos (by omega), if_pos (by omega), getD_drop', getD_map_mul _ _ _ (by omega)]
          congr 3; omega
        · rw [if_neg (by omega), if_neg (by omega)]
      · rename_i hp
        refine ⟨st, rfl, h3, ?_⟩
        intro j _
        rw [if_neg (by omega)]
    obtain ⟨o2, s2, e3, l3, l4, g3, g4⟩ := accumulate_spec kernel cols x xs (i + 1) o1 s1
      hlen (by omega) l2
      (fun m hm => by have := h4 (m + 1) (by simpa using hm); rw [List.getD_cons_succ] at this; rw [this]; congr 1; omega)
      out0 st0
      (fun j hj => by
        rw [g1 j, ht, addUp_succ, ← h5 j hj]
        by_cases c : i ≤ j ∧ j - i < kernel.length
        · rw [if_pos (by omega), if_pos c, getD_take' _ (by omega), getD_map_mul _ _ _ c.2]
        · rw [if_neg (by omega), if_neg c])
      (fun j hj => by
        rw [g2 j hj, addUp_succ, ← h6 j hj]
        by_cases c : j + cols - i < kernel.length
        · rw [if_pos c, if_pos (by omega)]
        · rw [if_neg c, if_neg (by omega)])
    refine ⟨o2, s2, ?_, l3, l4, g3, g4⟩
    rw [accumulate]
    simp only [e1, bind, Except.bind]
    split at e2
    · rename_i hp
      rw [if_pos hp, e2]; exact e3
    · rename_i hp
      rw [if_neg hp]
      injection e2 with e2
      rw [e2]; exact e3

/-- State invariant of the block filter after the inputs `x`. -/
structure Inv (kernel st x : List R) : Prop where
  len : st.length = kernel.length
  val : ∀ j, j < kernel.length → st.getD j 0 = addUp kernel (fun i => x.getD i 0) (j + x.length) x.length 0

theorem firProcessBlock_spec (kernel st x input : List R) (h : Inv kernel st x) :
    ∃ st' out, firProcessBlock kernel st input = .ok (st', out) ∧
      Inv kernel st' (x ++ input) ∧ out.length = input.length ∧
      ∀ j, j < input.length → out.getD j 0 =
        addUp kernel (fun i => (x ++ input).getD i 0) (j + x.length) (j + x.length + 1) 0 := by
  obtain ⟨len, val⟩ := h
  by_cases h0 : input.length = 0
  · have : input = [] := List.length_eq_zero_iff.mp h0
    subst this
    refine ⟨st, [], by simp [firProcessBlock, pure, Except.pure, bind, Except.bind], ⟨len, by simpa using val⟩, rfl,
      by simp⟩
  · have hfl : (st.take (min input.length st.length)).length = min input.length st.length := by simp
    obtain ⟨o1, e1, l1, g1⟩ := FixedDelayLine.setCols_spec
      (buf := List.replicate input.length (0 : R)) (dst := 0)
      (xs := st.take (min input.length st.length)) (by rw [hfl]; simp)
    obtain ⟨s1, e2, l2, g2⟩ := FixedDelayLine.shiftLoop_spec kernel.length
      (min input.length st.length) _ 0 st (Nat.le_refl _) (by omega)
    have hs2l : (s1.take (s1.length - min input.length st.length)
        ++ List.replicate (min input.length st.length) (0 : R)).length = kernel.length := by
      simp; omega
    have hs2 : ∀ j, j < kernel.length → (s1.take (s1.length - min input.length st.length)
        ++ List.replicate (min input.length st.length) (0 : R)).getD j 0
        = addUp kernel (fun i => x.getD i 0) (j + input.length + x.length) x.length 0 := by
      intro j hj
      rw [List.getD_eq_getElem?_getD, List.getElem?_append, List.length_take]
      by_cases c : j + input.length < kernel.length
      · have hm : min input.length st.length = input.length := by omega
        rw [if_pos (by omega), List.getElem?_take, if_pos (by omega), g2, if_pos (by omega), hm,
          ← val _ c, List.getD_eq_getElem?_getD]
      · rw [addUp_old _ _ _ _ _ (by omega)]
        by_cases c2 : j < kernel.length - min input.length st.length
        · omega
        · rw [if_neg (by omega), List.getElem?_replicate]
          split <;> rfl
    have hx : ∀ n p acc, n ≤ x.length → addUp kernel (fun i => (x ++ input).getD i 0) p n acc =
        addUp kernel (fun i => x.getD i 0) p n acc := fun n p acc hn =>
      addUp_congr kernel p n acc (fun i hi => by rw [List.getD_append _ _ _ _ (by omega)])
    have hin : ∀ p n acc, addUp kernel (fun i => (x ++ input).getD (x.length + i) 0) p n acc =
        addUp kernel (fun i => input.getD i 0) p n acc := fun p n acc =>
      addUp_congr kernel p n acc (fun i _ => by
        rw [List.getD_append_right _ _ _ _ (by omega), Nat.add_sub_cancel_left])
    obtain ⟨o2, s3, e3, l3, l4, g3, g4⟩ := accumulate_spec kernel input.length (fun i => input.getD i 0) input 0 o1
      (s1.take (s1.length - min input.length st.length)
        ++ List.replicate (min input.length st.length) (0 : R)) (by omega) (by simpa using l1) hs2l
      (fun m _ => by rw [Nat.zero_add])
      (fun j => addUp kernel (fun i => x.getD i 0) (j + x.length) x.length 0)
      (fun j => addUp kernel (fun i => x.getD i 0) (j + input.length + x.length) x.length 0)
      (fun j hj => by
        change _ = addUp kernel (fun i => x.getD i 0) (j + x.length) x.length 0
        rw [List.getD_eq_getElem?_getD, g1, hfl, Nat.sub_zero]
        by_cases c : j < st.length
        · rw [if_pos (by omega), List.getElem?_take, if_pos (by omega), ← val _ (by omega), List.getD_eq_getElem?_getD]
        · rw [if_neg (by omega), addUp_old _ _ _ _ _ (by omega), List.getElem?_replicate]
          split <;> rfl)
      (fun j hj => hs2 j hj)
    refine ⟨s3, o2, ?_, ⟨l4, ?_⟩, l3, ?_⟩
    · unfold firProcessBlock
      simp only [if_neg h0, e1, e2, bind, Except.bind, pure, Except.pure]
      rw [if_neg (by omega), e3]
    · intro j hj
      rw [g4 j hj, List.length_append, show j + (x.length + input.length) = j + input.length + x.length by omega,
        addUp_add, hin, hx _ _ _ le_rfl]
    · intro j hj
      rw [g3 j hj, show j + x.length + 1 = x.length + (j + 1) by omega, addUp_add, hin, hx _ _ _ le_rfl]
      obtain ⟨k, hk⟩ := Nat.exists_eq_add_of_le (Nat.succ_le_of_lt hj)
      rw [hk, Nat.succ_eq_add_one, addUp_later _ _ _ _ _ _ (by omega)]

theorem firRun_spec (kernel : List R) : ∀ (blocks : List (List R)) (st x : List R), Inv kernel st x →
    ∃ st' outs, firRun kernel st blocks = .ok (st', outs) ∧ Inv kernel st' (x ++ blocks.flatten) ∧
      outs.map List.length = blocks.map List.length ∧
      ∀ n, n < blocks.flatten.length → outs.flatten.getD n 0 =
        addUp kernel (fun i => (x ++ blocks.flatten).getD i 0) (n + x.length) (n + x.length + 1) 0
  | [], st, x, h => ⟨st, [], rfl, by simpa using h, rfl, by simp⟩
  | b :: bs, st, x, h => by
    obtain ⟨st1, o1, e1, i1, l1, g1⟩ := firProcessBlock_spec kernel st x b h
    obtain ⟨st2, os, e2, i2, l2, g2⟩ := firRun_spec kernel bs st1 _ i1
    refine ⟨st2, o1 :: os, by simp [firRun, e1, e2, bind, Except.bind, pure, Except.pure],
      by simpa using i2, by simp [l1, l2], ?_⟩
    intro n hn
    rw [List.flatten_cons, List.flatten_cons]
    by_cases c : n < b.length
    · rw [List.getD_append _ _ _ _ (by omega), g1 n c]
      apply addUp_congr
      intro i hi
      rw [← List.append_assoc, List.getD_append (x ++ b) _ _ _ (by rw [List.length_append]; omega)]
    · rw [List.getD_append_right _ _ _ _ (by omega), l1,
        g2 (n - b.length) (by rw [List.flatten_cons, List.length_append] at hn; omega)]
      rw [← List.append_assoc, List.length_append, show n - b.length + (x.length + b.length) = n + x.length by omega]

theorem inv_init (kernel : List R) : Inv kernel (firFilterInit kernel) [] :=
  ⟨by simp [firFilterInit], fun j hj => by simp [firFilterInit, addUp, List.getD_replicate _ hj]⟩

end Verif.Fir.General
