import Verif.Proof.AuditoryFilterbank2
import Verif.Theorems.Biquad

/-! # Processing by the auditory cascade filterbank -/

namespace Verif.AuditoryFilterbank
open Verif.BiquadCascade Verif.FilterDesign Verif.Biquad Verif.Stream Verif.LinearFilter.Spec

variable {C : ℕ} {α : Type}

/-! ### Decimation -/

/-- Every other sample, from the second one on if the first is skipped. -/
def dec : Bool → List α → Bool × List α
  | k, [] => (k, [])
  | false, x :: xs => ((dec true xs).1, x :: (dec true xs).2)
  | true, _ :: xs => dec false xs

theorem dec_append : ∀ (xs ys : List α) (k : Bool),
    dec k (xs ++ ys) = ((dec (dec k xs).1 ys).1, (dec k xs).2 ++ (dec (dec k xs).1 ys).2)
  | [], ys, k => by simp [dec]
  | x :: xs, ys, false => by
    show ((dec true (xs ++ ys)).1, x :: (dec true (xs ++ ys)).2) = _
    rw [dec_append xs ys true]
    rfl
  | x :: xs, ys, true => dec_append xs ys false

theorem dec_spec : ∀ (xs : List α) (k : Bool), (dec k xs).1 = xor k (decide (xs.length % 2 = 1)) ∧
    2 * (dec k xs).2.length + (if k then 1 else 0) =
      xs.length + (if xor k (decide (xs.length % 2 = 1)) then 1 else 0) ∧
    ∀ i, (dec k xs).2[i]? = xs[(if k then 1 else 0) + 2 * i]?
  | [], k => by simp [dec]
  | x :: xs, false => by
    obtain ⟨h1, h2, h3⟩ := dec_spec xs true
    rcases Nat.mod_two_eq_zero_or_one xs.length with hp | hp
    · have hp' : (xs.length + 1) % 2 = 1 := by omega
      simp [hp] at h1 h2
      refine ⟨by simp [dec, h1, hp'], by simp [dec, hp']; omega, ?_⟩
      intro i
      cases i with
      | zero => simp [dec]
      | succ i =>
        have := h3 i
        simp only [dec, List.getElem?_cons_succ, this]
        simp only [if_true, Bool.false_eq_true, if_false, Nat.zero_add]
        rw [show 2 * (i + 1) = (1 + 2 * i) + 1 by omega, List.getElem?_cons_succ]
    · have hp' : ¬ (xs.length + 1) % 2 = 1 := by omega
      simp [hp] at h1 h2
      refine ⟨by simp [dec, h1, hp'], by simp [dec, hp']; omega, ?_⟩
      intro i
      cases i with
      | zero => simp [dec]
      | succ i =>
        have := h3 i
        simp only [dec, List.getElem?_cons_succ, this]
        simp only [if_true, Bool.false_eq_true, if_false, Nat.zero_add]
        rw [show 2 * (i + 1) = (1 + 2 * i) + 1 by omega, List.getElem?_cons_succ]
  | x :: xs, true => by
    obtain ⟨h1, h2, h3⟩ := dec_spec xs false
    rcases Nat.mod_two_eq_zero_or_one xs.length with hp | hp
    · have hp' : (xs.length + 1) % 2 = 1 := by omega
      simp [hp] at h1 h2
      refine ⟨by simp [dec, h1, hp'], by simp [dec, hp']; omega, ?_⟩
      intro i
      have := h3 i
      simp only [dec, this]
      simp only [if_true, Bool.false_eq_true, if_false, Nat.zero_add]
      rw [show 1 + 2 * i = 2 * i + 1 by omega, List.getElem?_cons_succ]
    · have hp' : ¬ (xs.length + 1) % 2 = 1 := by omega
      simp [hp] at h1 h2
      refine ⟨by simp [dec, h1, hp'], by simp [dec, hp']; omega, ?_⟩
      intro i
      have := h3 i
      simp only [dec, this]
      simp only [if_true, Bool.false_eq_true, if_false, Nat.zero_add]
      rw [show 1 + 2 * i = 2 * i + 1 by omega, List.getElem?_cons_succ]

theorem decimate_eq (k : Bool) (xs : List α) : Fir.decimate k xs = some (dec k xs) := by
  obtain ⟨out, e, h1, h2⟩ := Fir.decimate_spec k xs
  obtain ⟨d1, d2, d3⟩ := dec_spec xs k
  rw [e]
  have hlen : out.length = (dec k xs).2.length := by omega
  congr 1
  refine Prod.ext d1.symm ?_
  show out = (dec k xs).2
  apply List.ext_getElem?
  intro i
  rcases Nat.lt_or_ge i out.length with hi | hi
  · rw [h2 i hi, d3 i]
  · rw [List.getElem?_eq_none hi, List.getElem?_eq_none (by omega)]

theorem everyOther_eq (xs : List ℝ) : (dec false xs).2 = Spec.everyOther xs := by
  obtain ⟨d1, d2, d3⟩ := dec_spec xs false
  have hlen : (dec false xs).2.length = (xs.length + 1) / 2 := by
    rcases Nat.mod_two_eq_zero_or_one xs.length with hp | hp <;> simp [hp] at d2 <;> omega
  unfold Spec.everyOther
  apply List.ext_getElem
  · simp [hlen]
  · intro i h1 h2
    have := d3 i
    rw [List.getElem?_eq_getElem h1] at this
    simp only [Bool.false_eq_true, if_false, Nat.zero_add] at this
    rw [List.getElem_map, List.getElem_range, List.getD_eq_getElem?_getD, ← this]
    rfl

theorem dec_map {β : Type} (f : α → β) : ∀ (xs : List α) (k : Bool), (dec k (xs.map f)).2 = (dec k xs).2.map f
  | [], k => rfl
  | x :: xs, false => by
    show f x :: (dec true (xs.map f)).2 = _
    rw [dec_map f xs true]
    rfl
  | _ :: xs, true => dec_map f xs false

/-! ### Cells -/

/-- One stage with its state: biquad, decimator if any, difference filter. -/
structure Cell (C : ℕ) where
  f : Biquad.Filter ℝ
  s : Fin C → ℝ × ℝ
  d : Option Bool
  diff : Fin C → ℝ

/-- The input of the biquad. -/
def Cell.input (c : Cell C) (x : List (Fin C → ℝ)) : Option Bool × List (Fin C → ℝ) :=
  match c.d with
  | none => (none, x)
  | some k => (some (dec k x).1, (dec k x).2)

/-- A block through a cell: the new cell, the output of the biquad, the output of the difference filter. -/
noncomputable def Cell.block (c : Cell C) (x : List (Fin C → ℝ)) :
    Cell C × List (Fin C → ℝ) × List (Fin C → ℝ) :=
  let i := c.input x
  let y := runSamples (stepMulti c.f) c.s i.2
  let z := runSamples (Fir.twoTapStep Fir.firstDifference) c.diff y.2
  (⟨c.f, y.1, i.1, z.1⟩, y.2, z.2)

theorem Cell.input_append (c : Cell C) (x x' : List (Fin C → ℝ)) (c' : Cell C) (h : c'.d = (c.input x).1) :
    c.input (x ++ x') = ((c'.input x').1, (c.input x).2 ++ (c'.input x').2) := by
  obtain ⟨f, s, d, df⟩ := c
  obtain ⟨f', s', d', df'⟩ := c'
  cases d with
  | none =>
    simp only [Cell.input] at h
    subst h
    rfl
  | some k =>
    simp only [Cell.input] at h
    subst h
    simp only [Cell.input, dec_append]

theorem Cell.block_append (c : Cell C) (x x' : List (Fin C → ℝ)) :
    c.block (x ++ x') = (((c.block x).1.block x').1, (c.block x).2.1 ++ ((c.block x).1.block x').2.1,
      (c.block x).2.2 ++ ((c.block x).1.block x').2.2) := by
  unfold Cell.block
  simp only []
  rw [c.input_append x x' ⟨c.f, (runSamples (stepMulti c.f) c.s (c.input x).2).1, (c.input x).1,
    (runSamples (Fir.twoTapStep Fir.firstDifference) c.diff (runSamples (stepMulti c.f) c.s (c.input x).2).2).1⟩ rfl]
  simp only [runSamples_append]

/-- A block through all cells. -/
noncomputable def chainBlock : List (Cell C) → List (Fin C → ℝ) →
    List (Cell C) × List (List (Fin C → ℝ) × List (Fin C → ℝ))
  | [], _ => ([], [])
  | c :: cs, x =>
    let r := c.block x
    let rs := chainBlock cs r.2.1
    (r.1 :: rs.1, r.2 :: rs.2)

theorem chainBlock_length : ∀ (cs : List (Cell C)) (x : List (Fin C → ℝ)),
    (chainBlock cs x).1.length = cs.length ∧ (chainBlock cs x).2.length = cs.length
  | [], _ => ⟨rfl, rfl⟩
  | c :: cs, x => by
    obtain ⟨h1, h2⟩ := chainBlock_length cs (c.block x).2.1
    exact ⟨by simp [chainBlock, h1], by simp [chainBlock, h2]⟩

theorem chainBlock_append : ∀ (cs : List (Cell C)) (x x' : List (Fin C → ℝ)),
    chainBlock cs (x ++ x') = ((chainBlock (chainBlock cs x).1 x').1,
      List.zipWith (fun a b => (a.1 ++ b.1, a.2 ++ b.2)) (chainBlock cs x).2 (chainBlock (chainBlock cs x).1 x').2)
  | [], _, _ => rfl
  | c :: cs, x, x' => by
    simp only [chainBlock, c.block_append x x']
    rw [chainBlock_append cs]
    rfl

theorem chainBlock_nil : ∀ (cs : List (Cell C)), chainBlock cs [] = (cs, cs.map fun _ => ([], []))
  | [] => rfl
  | c :: cs => by
    have h : c.block [] = (c, [], []) := by
      obtain ⟨f, s, d, df⟩ := c
      cases d <;> rfl
    simp only [chainBlock, h, chainBlock_nil cs, List.map_cons]

/-- What does not change. -/
def Cell.shape (c : Cell C) : Biquad.Filter ℝ × Bool := (c.f, c.d.isSome)

theorem Cell.block_shape (c : Cell C) (x : List (Fin C → ℝ)) : (c.block x).1.shape = c.shape := by
  obtain ⟨f, s, d, df⟩ := c
  cases d <;> rfl

theorem chainBlock_shape : ∀ (cs : List (Cell C)) (x : List (Fin C → ℝ)),
    (chainBlock cs x).1.map Cell.shape = cs.map Cell.shape
  | [], _ => rfl
  | c :: cs, x => by
    simp only [chainBlock, List.map_cons, c.block_shape, chainBlock_shape cs]

/-- A cell after `Reset`. -/
noncomputable def Cell.reset (c : Cell C) : Cell C := ⟨c.f, fun _ => resetState, c.d.map fun _ => false, 0⟩

theorem Cell.reset_shape {c c' : Cell C} (h : c.shape = c'.shape) : c.reset = c'.reset := by
  obtain ⟨f, s, d, df⟩ := c
  obtain ⟨f', s', d', df'⟩ := c'
  have h1 : f = f' := congrArg Prod.fst h
  have h2 : d.isSome = d'.isSome := congrArg Prod.snd h
  subst h1
  cases d <;> cases d' <;> simp at h2 <;> rfl

theorem reset_shapes : ∀ {cs cs' : List (Cell C)}, cs.map Cell.shape = cs'.map Cell.shape →
    cs.map Cell.reset = cs'.map Cell.reset
  | [], [], _ => rfl
  | [], _ :: _, h => by simp at h
  | _ :: _, [], h => by simp at h
  | c :: cs, c' :: cs', h => by
    rw [List.map_cons, List.map_cons, List.cons.injEq] at h
    rw [List.map_cons, List.map_cons, Cell.reset_shape h.1, reset_shapes h.2]

/-! ### The filterbank as a list of cells -/

/-- A rate differs from the one before exactly where there is a decimator. -/
def Consistent : ℝ → List (Cell C) → List ℝ → Prop
  | _, [], [] => True
  | last, c :: cs, r :: rs => (c.d.isSome = true ↔ r ≠ last) ∧ Consistent r cs rs
  | _, _, _ => False

/-- The filterbank holds the cells. -/
structure Rep (b : Bank C) (cells : List (Cell C)) : Prop where
  nonempty : cells ≠ []
  filters : b.filters = cells.map fun c => (c.f, c.s)
  diffs : b.diffs = cells.map Cell.diff
  decimators : b.decimators = cells.filterMap Cell.d
  rates : ∃ r rs c cs, b.rates = r :: rs ∧ cells = c :: cs ∧ c.d = none ∧ Consistent r cs rs
  exposed : ∀ i ∈ b.exposed, i < cells.length

theorem stageLoop_eq : ∀ (cells : List (Cell C)) (last : ℝ) (rs : List ℝ) (prev : List (Fin C → ℝ)),
    Consistent last cells rs →
    stageLoop last prev (cells.map fun c => (c.f, c.s)) rs (cells.filterMap Cell.d) =
      .ok ((chainBlock cells prev).1.map (fun c => (c.f, c.s)), (chainBlock cells prev).1.filterMap Cell.d,
        (chainBlock cells prev).2.map Prod.fst)
  | [], _, _, _, _ => by simp [stageLoop, chainBlock]
  | c :: cs, last, [], _, h => h.elim
  | ⟨f, s, d, df⟩ :: cs, last, r :: rs, prev, ⟨h1, h2⟩ => by
    cases d with
    | none =>
      have hr : ¬ r ≠ last := by
        intro h
        have := h1.2 h
        simp at this
      rw [List.map_cons, List.filterMap_cons_none rfl, stageLoop.eq_def]
      dsimp only
      rw [if_neg hr]
      simp only [processBlock]
      rw [stageLoop_eq cs r rs _ h2]
      rfl
    | some k =>
      have hr : r ≠ last := h1.1 rfl
      rw [List.map_cons, List.filterMap_cons_some (f := Cell.d) (b := k) rfl, stageLoop.eq_def]
      dsimp only
      rw [if_pos hr]
      simp only [processBlock, decimate_eq]
      rw [stageLoop_eq cs r rs _ h2]
      rfl

theorem diffLoop_eq : ∀ (cells : List (Cell C)) (prev : List (Fin C → ℝ)),
    diffLoop (cells.map Cell.diff) ((chainBlock cells prev).2.map Prod.fst) =
      .ok ((chainBlock cells prev).1.map Cell.diff, (chainBlock cells prev).2.map Prod.snd)
  | [], _ => rfl
  | c :: cs, prev => by
    simp only [chainBlock, List.map_cons, diffLoop, Fir.twoTapBlock_eq, diffLoop_eq cs]
    rfl

theorem consistent_shape : ∀ {cells cells' : List (Cell C)} {last : ℝ} {rs : List ℝ},
    cells.map Cell.shape = cells'.map Cell.shape → Consistent last cells rs → Consistent last cells' rs
  | [], [], _, _, _, h => h
  | [], _ :: _, _, _, h, _ => by simp at h
  | _ :: _, [], _, _, h, _ => by simp at h
  | c :: cs, c' :: cs', _, [], _, h => h.elim
  | c :: cs, c' :: cs', last, r :: rs, e, ⟨h1, h2⟩ => by
    rw [List.map_cons, List.map_cons, List.cons.injEq] at e
    have : c.d.isSome = c'.d.isSome := congrArg Prod.snd e.1
    exact ⟨by rw [← this]; exact h1, consistent_shape e.2 h2⟩

theorem Rep.shape {b b' : Bank C} {cells cells' : List (Cell C)} (h : Rep b cells)
    (e : cells'.map Cell.shape = cells.map Cell.shape)
    (hf : b'.filters = cells'.map fun c => (c.f, c.s)) (hd : b'.diffs = cells'.map Cell.diff)
    (hk : b'.decimators = cells'.filterMap Cell.d) (hr : b'.rates = b.rates) (he : b'.exposed = b.exposed) :
    Rep b' cells' := by
  have hlen : cells'.length = cells.length := by simpa using congrArg List.length e
  refine ⟨?_, hf, hd, hk, ?_, ?_⟩
  · intro h0
    rw [h0] at hlen
    exact h.nonempty (List.length_eq_zero_iff.1 hlen.symm)
  · obtain ⟨r, rs, c, cs, h1, h2, h3, h4⟩ := h.rates
    subst h2
    cases cells' with
    | nil => simp at hlen
    | cons c' cs' =>
      rw [List.map_cons, List.map_cons, List.cons.injEq] at e
      have h5 : c'.d.isSome = c.d.isSome := congrArg Prod.snd e.1
      refine ⟨r, rs, c', cs', hr.trans h1, rfl, ?_, consistent_shape e.2.symm h4⟩
      rw [h3] at h5
      simpa using h5
  · rw [he, hlen]
    exact h.exposed

theorem Rep.process {b : Bank C} {cells : List (Cell C)} (h : Rep b cells) (x : List (Fin C → ℝ)) :
    ∃ b', b.process x = .ok b' ∧ Rep b' (chainBlock cells x).1 ∧ b'.exposed = b.exposed ∧
      b'.outputs = (chainBlock cells x).2.map Prod.snd := by
  obtain ⟨r, rs, c, cs, h1, h2, h3, h4⟩ := h.rates
  have hs := stageLoop_eq cs r rs (c.block x).2.1 h4
  have hd := diffLoop_eq cells x
  have hx : c.block x = (⟨c.f, (processBlock c.f c.s x).1, none,
      (runSamples (Fir.twoTapStep Fir.firstDifference) c.diff (processBlock c.f c.s x).2).1⟩, (processBlock c.f c.s x).2,
      (runSamples (Fir.twoTapStep Fir.firstDifference) c.diff (processBlock c.f c.s x).2).2) := by
    obtain ⟨f, s, d, df⟩ := c
    dsimp only at h3
    subst h3
    rfl
  have hb1 : (c.block x).2.1 = (processBlock c.f c.s x).2 := by rw [hx]
  refine ⟨{ b with
    filters := (chainBlock cells x).1.map fun c => (c.f, c.s)
    decimators := (chainBlock cells x).1.filterMap Cell.d
    diffs := (chainBlock cells x).1.map Cell.diff
    outputs := (chainBlock cells x).2.map Prod.snd }, ?_, ?_, rfl, rfl⟩
  · unfold Bank.process
    rw [h.filters, h.decimators, h.diffs, h1]
    rw [hb1] at hs
    have hy : (chainBlock cells x).2.map Prod.fst =
        (processBlock c.f c.s x).2 :: (chainBlock cs (processBlock c.f c.s x).2).2.map Prod.fst := by
      rw [h2, chainBlock, hb1, List.map_cons, hb1]
    rw [hy] at hd
    have e1 : cells.map (fun c => (c.f, c.s)) = (c.f, c.s) :: cs.map (fun c => (c.f, c.s)) := by rw [h2]; rfl
    have e2 : cells.filterMap Cell.d = cs.filterMap Cell.d := by rw [h2, List.filterMap_cons_none h3]
    rw [e1, e2]
    simp only [hs, hd]
    have e3 : (chainBlock cells x).1 = (c.block x).1 :: (chainBlock cs (processBlock c.f c.s x).2).1 := by
      rw [h2, chainBlock, hb1]
    congr 2
    · rw [e3, List.map_cons, hx]
    · rw [e3, List.filterMap_cons_none (by rw [hx])]
  · exact h.shape (chainBlock_shape cells x) rfl rfl rfl rfl rfl

theorem Rep.output {b : Bank C} {cells : List (Cell C)} (h : Rep b cells) {x : List (Fin C → ℝ)} {b' : Bank C}
    (h1 : b'.exposed = b.exposed) (h2 : b'.outputs = (chainBlock cells x).2.map Prod.snd) {channel stage : ℕ}
    (hc : b.exposed[channel]? = some stage) :
    b'.output channel = some (((chainBlock cells x).2.map Prod.snd).getD stage []) := by
  unfold Bank.output
  rw [h1, hc, h2]
  have : stage < ((chainBlock cells x).2.map Prod.snd).length := by
    rw [List.length_map, (chainBlock_length cells x).2]
    exact h.exposed stage (List.mem_of_getElem? hc)
  show ((chainBlock cells x).2.map Prod.snd)[stage]? = _
  rw [List.getD_eq_getElem _ _ this, List.getElem?_eq_getElem this]

/-- Any number of blocks. -/
theorem Rep.run {channel stage : ℕ} : ∀ (blocks : List (List (Fin C → ℝ))) {b : Bank C} {cells : List (Cell C)},
    Rep b cells → b.exposed[channel]? = some stage →
    ∃ b' outs, b.run channel blocks = .ok (b', outs) ∧ Rep b' (chainBlock cells blocks.flatten).1 ∧
      b'.exposed = b.exposed ∧ outs.length = blocks.length ∧
      outs.flatten = ((chainBlock cells blocks.flatten).2.map Prod.snd).getD stage []
  | [], b, cells, h, hc => by
    refine ⟨b, [], rfl, ?_, rfl, rfl, ?_⟩
    · rw [List.flatten_nil, chainBlock_nil]; exact h
    · rw [List.flatten_nil, chainBlock_nil]
      have : stage < cells.length := h.exposed stage (List.mem_of_getElem? hc)
      rw [List.getD_eq_getElem _ _ (by simpa using this)]
      simp
  | x :: xs, b, cells, h, hc => by
    obtain ⟨b1, e1, r1, x1, o1⟩ := h.process x
    have ho := h.output x1 o1 hc
    obtain ⟨b2, outs, e2, r2, x2, l2, f2⟩ := Rep.run xs r1 (by rw [x1]; exact hc)
    have hst : stage < cells.length := h.exposed stage (List.mem_of_getElem? hc)
    refine ⟨b2, ((chainBlock cells x).2.map Prod.snd).getD stage [] :: outs, ?_, ?_, x2.trans x1, by simp [l2], ?_⟩
    · rw [Bank.run, e1]
      simp only [ho, e2]
    · rw [List.flatten_cons, chainBlock_append]
      exact r2
    · rw [List.flatten_cons, f2, List.flatten_cons, chainBlock_append]
      have l1 : stage < (chainBlock cells x).2.length := by rw [(chainBlock_length cells x).2]; exact hst
      have l3 : stage < (chainBlock (chainBlock cells x).1 xs.flatten).2.length := by
        rw [(chainBlock_length _ _).2, (chainBlock_length cells x).1]; exact hst
      rw [List.getD_eq_getElem _ _ (by simpa using l1), List.getD_eq_getElem _ _ (by simpa using l3),
        List.getD_eq_getElem _ _ (by simp only [List.length_map, List.length_zipWith]; omega)]
      simp only [List.getElem_map, List.getElem_zipWith]

theorem Rep.reset {b : Bank C} {cells : List (Cell C)} (h : Rep b cells) : Rep b.reset (cells.map Cell.reset) := by
  refine h.shape ?_ ?_ ?_ ?_ rfl rfl
  · rw [List.map_map]
    apply List.map_congr_left
    intro c _
    obtain ⟨f, s, d, df⟩ := c
    cases d <;> rfl
  · show b.filters.map _ = _
    rw [h.filters, List.map_map, List.map_map]
    rfl
  · show b.diffs.map _ = _
    rw [h.diffs, List.map_map, List.map_map]
    rfl
  · show b.decimators.map _ = _
    rw [h.decimators]
    clear h
    induction cells with
    | nil => rfl
    | cons c cs ih =>
      obtain ⟨f, s, d, df⟩ := c
      cases d with
      | none =>
        rw [List.filterMap_cons_none rfl, List.map_cons, List.filterMap_cons_none rfl]
        exact ih
      | some k =>
        rw [List.filterMap_cons_some (f := Cell.d) (b := k) rfl, List.map_cons, List.map_cons,
          List.filterMap_cons_some (f := Cell.d) (b := false) rfl, ih]

/-! ### One microphone -/

/-- A stage after `Init`. -/
noncomputable def fresh (c : Stage ℝ) (d : Bool) : Cell C :=
  ⟨filterOf c, fun _ => resetState, if d then some false else none, 0⟩

theorem difference_eq (y : List (Fin C → ℝ)) (ch : Fin C) :
    (runSamples (Fir.twoTapStep Fir.firstDifference) 0 y).2.map (· ch) = Spec.difference (y.map (· ch)) := by
  have h := Fir.C27_first_difference [y]
  have e : (runBlocks (Fir.twoTapBlock Fir.firstDifference) 0 [y]).2.flatten =
      (runSamples (Fir.twoTapStep Fir.firstDifference) 0 y).2 := by
    simp [runBlocks, Fir.twoTapBlock_eq]
  rw [e] at h
  simp only [List.flatten_cons, List.flatten_nil, List.append_nil] at h
  obtain ⟨h1, h2⟩ := h
  unfold Spec.difference
  apply List.ext_getElem
  · simp [h1]
  · intro n n1 n2
    have n3 : n < y.length := by simpa using n2
    have := congrFun (h2 n n3) ch
    rw [List.getElem_map, List.getElem_map, List.getElem_range]
    rw [List.getD_eq_getElem _ _ (by omega)] at this
    rw [this, List.length_cons, List.length_singleton, Finset.sum_range_succ, Finset.sum_range_one]
    simp only [List.getD_cons_zero, List.getD_cons_succ, one_mul, Pi.add_apply, Pi.mul_apply, Pi.neg_apply, Pi.one_apply]
    have hp : ∀ k, past y n k ch = past (y.map (· ch)) n k := by
      intro k
      unfold past
      split
      · rw [List.getD_eq_getElem?_getD, List.getD_eq_getElem?_getD, List.getElem?_map]
        cases y[n - k]? <;> rfl
      · rfl
    rw [hp, hp, show past (y.map (· ch)) n 0 = (y.map (· ch)).getD n 0 by simp [past]]
    ring

theorem stage_diffEq {c : Stage ℝ} (hb : c.b.length = 3) (ha : c.a.length = 3) (h0 : c.a.getD 0 0 = 1) (ch : Fin C)
    (x : List (Fin C → ℝ)) :
    DiffEq c.b c.a (x.map (· ch)) ((runSamples (stepMulti (filterOf c)) (fun _ => resetState) x).2.map (· ch)) := by
  rw [(runSamples_stepMulti _ ch _ _).2]
  have := step_diffEq (init_filterOf h0) (x.map (· ch))
  obtain ⟨b, a⟩ := c
  match b, a, hb, ha with
  | [b0, b1, b2], [a0, a1, a2], _, _ => exact this

/-- The outputs of fresh cells, for one microphone. -/
theorem chain_spec (ch : Fin C) : ∀ (stages : List (Stage ℝ × Bool)) (x : List (Fin C → ℝ)),
    (∀ c ∈ stages, c.1.b.length = 3 ∧ c.1.a.length = 3 ∧ c.1.a.getD 0 0 = 1) →
    ∃ ys, Spec.Chain stages (x.map (· ch)) ys ∧
      ((chainBlock (stages.map fun c => fresh c.1 c.2) x).2.map Prod.snd).map (List.map (· ch)) = ys.map Spec.difference
  | [], x, _ => ⟨[], rfl, rfl⟩
  | (c, d) :: rest, x, h => by
    obtain ⟨h1, h2, h3⟩ := h (c, d) (by simp)
    obtain ⟨ys, i1, i2⟩ := chain_spec ch rest ((fresh c d : Cell C).block x).2.1 fun c' hc' => h c' (by simp [hc'])
    have hin : ((fresh c d : Cell C).input x).2.map (· ch) = if d then Spec.everyOther (x.map (· ch)) else x.map (· ch) := by
      cases d with
      | false => rfl
      | true =>
        show (dec false x).2.map (· ch) = Spec.everyOther (x.map (· ch))
        rw [← everyOther_eq, dec_map]
    refine ⟨((fresh c d : Cell C).block x).2.1.map (· ch) :: ys, ⟨_, ys, rfl, ?_, i1⟩, ?_⟩
    · rw [← hin]
      exact stage_diffEq h1 h2 h3 ch _
    · rw [List.map_cons, chainBlock, List.map_cons, List.map_cons, i2, List.map_cons]
      congr 1
      exact difference_eq _ ch

end Verif.AuditoryFilterbank
