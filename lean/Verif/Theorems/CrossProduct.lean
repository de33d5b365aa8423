import Verif.Model.NumberUtil
import Mathlib.Data.List.Forall2
import Mathlib.Algebra.Order.BigOperators.Group.List
import Mathlib.Algebra.BigOperators.Group.List.Basic
import Mathlib.Algebra.Order.Ring.Int
import Mathlib.Tactic.Ring
import Mathlib.Tactic.Linarith
import Mathlib.Tactic.LinearCombination

/-!
# C13: `CrossProductRange` visits every index tuple once, first index fastest

Specification: `InShape shape idx` says that `idx` is an element of the cross product
`{0..shape[0]-1} × …`; `flat shape idx = idx[0] + shape[0] * (idx[1] + shape[1] * (…))` is the number of
the iteration of the nested loop (innermost loop over index 0) that has loop variables `idx`.
-/

namespace Verif.NumberUtil

/-- `idx` is in the cross product. -/
def InShape (shape idx : List ℤ) : Prop := List.Forall₂ (fun s i => 0 ≤ i ∧ i < s) shape idx

/-- Iteration number in the nested loop. -/
def flat : List ℤ → List ℤ → ℤ
  | s :: shape, i :: idx => i + s * flat shape idx
  | _, _ => 0

theorem flat_range {shape idx : List ℤ} (h : InShape shape idx) :
    0 ≤ flat shape idx ∧ flat shape idx < shape.prod := by
  induction h with
  | nil => simp [flat]
  | cons h _ ih =>
    rename_i s i shape idx _
    simp only [flat, List.prod_cons]
    obtain ⟨h1, h2⟩ := ih
    obtain ⟨h3, h4⟩ := h
    constructor
    · have := mul_nonneg (show 0 ≤ s by omega) h1; omega
    · have : s * flat shape idx ≤ s * (shape.prod - 1) :=
        mul_le_mul_of_nonneg_left (by omega) (by omega)
      rw [mul_sub, mul_one] at this
      omega

theorem flat_injective {shape a b : List ℤ} (ha : InShape shape a) (hb : InShape shape b)
    (h : flat shape a = flat shape b) : a = b := by
  induction ha generalizing b with
  | nil => cases hb; rfl
  | cons h1 _ ih =>
    rename_i s i shape idx _
    cases hb with
    | cons h2 hb =>
      rename_i j idx'
      simp only [flat] at h
      have e1 : (i + s * flat shape idx) % s = i := by
        rw [Int.add_mul_emod_self_left]; exact Int.emod_eq_of_lt h1.1 h1.2
      have e2 : (j + s * flat shape idx') % s = j := by
        rw [Int.add_mul_emod_self_left]; exact Int.emod_eq_of_lt h2.1 h2.2
      have hij : i = j := by rw [← e1, ← e2, h]
      subst hij
      have : s * flat shape idx = s * flat shape idx' := by omega
      rw [ih hb (mul_left_cancel₀ (by omega) this)]

theorem crossInc_spec {shape idx : List ℤ} (h : InShape shape idx) :
    ((crossInc shape idx).2 = false → InShape shape (crossInc shape idx).1 ∧
      flat shape (crossInc shape idx).1 = flat shape idx + 1) ∧
    ((crossInc shape idx).2 = true → flat shape idx + 1 = shape.prod) := by
  induction h with
  | nil => simp [crossInc, flat]
  | cons h hr ih =>
    rename_i s i shape idx
    simp only [crossInc]
    by_cases hc : i + 1 ≥ s
    · rw [if_pos hc]
      obtain ⟨i1, i2⟩ := ih
      have hi : i + 1 = s := by omega
      constructor
      · intro hb
        obtain ⟨j1, j2⟩ := i1 hb
        refine ⟨List.Forall₂.cons ⟨le_rfl, by omega⟩ j1, ?_⟩
        simp only [flat, j2]; linear_combination (-1) * hi
      · intro hb
        have := i2 hb
        simp only [flat, List.prod_cons, ← this]; linear_combination hi
    · rw [if_neg hc]
      refine ⟨fun _ => ⟨List.Forall₂.cons ⟨by omega, by omega⟩ hr, ?_⟩, by simp⟩
      simp only [flat]; ring

theorem cross_after_shape (shape : List ℤ) (t : ℕ) : (Cross.after shape t).shape = shape := by
  induction t with
  | zero => rfl
  | succ t ih => rw [Cross.after, Cross.next]; split <;> simpa using ih

/-- **C13**: for a shape with positive sizes, the iterator after `t < shape[0] * … * shape.back()`
increments is not the end, and its value is the tuple of iteration number `t` of the nested loop; after
that many increments it is the end. -/
theorem C13_cross_product {shape : List ℤ} (hne : shape ≠ []) (hpos : ∀ s ∈ shape, 0 < s) :
    (∀ t : ℕ, (t : ℤ) < shape.prod → (Cross.after shape t).isEnd = false ∧
      InShape shape (Cross.after shape t).indices ∧ flat shape (Cross.after shape t).indices = t) ∧
    (∀ t : ℕ, shape.prod ≤ (t : ℤ) → (Cross.after shape t).isEnd = true) := by
  have h0 : crossEmpty shape = false := by
    unfold crossEmpty
    rw [Bool.or_eq_false_iff]
    refine ⟨?_, by simpa using hne⟩
    rw [List.any_eq_false]
    intro s hs; have := hpos s hs; simpa using this
  have hz : InShape shape (List.replicate shape.length 0) ∧
      flat shape (List.replicate shape.length 0) = 0 := by
    clear hne h0
    induction shape with
    | nil => exact ⟨List.Forall₂.nil, rfl⟩
    | cons s shape ih =>
      obtain ⟨a, b⟩ := ih (fun x hx => hpos x (by simp [hx]))
      rw [List.length_cons, List.replicate_succ]
      exact ⟨List.Forall₂.cons ⟨le_rfl, hpos s (by simp)⟩ a, by simp [flat, b]⟩
  have hP : 0 < shape.prod := by have := flat_range hz.1; rw [hz.2] at this; exact this.2
  have key : ∀ t : ℕ, (t : ℤ) < shape.prod → (Cross.after shape t).isEnd = false ∧
      InShape shape (Cross.after shape t).indices ∧ flat shape (Cross.after shape t).indices = t := by
    intro t
    induction t with
    | zero => intro _; exact ⟨h0, hz.1, hz.2⟩
    | succ t ih =>
      intro ht
      push_cast at ht
      obtain ⟨a, b, c⟩ := ih (by omega)
      have hs := crossInc_spec b
      simp only [Cross.after, Cross.next, a, Bool.false_eq_true, if_false, cross_after_shape]
      cases hb : (crossInc shape (Cross.after shape t).indices).2 with
      | true => have := hs.2 hb; omega
      | false =>
        obtain ⟨i1, i2⟩ := hs.1 hb
        exact ⟨rfl, i1, by rw [i2, c]; push_cast; rfl⟩
  refine ⟨key, ?_⟩
  intro t ht
  induction t with
  | zero => simp at ht; omega
  | succ t ih =>
    push_cast at ht
    by_cases hc : shape.prod ≤ t
    · rw [Cross.after, Cross.next, if_pos (ih hc)]; exact ih hc
    · obtain ⟨a, b, c⟩ := key t (by omega)
      have hs := crossInc_spec b
      simp only [Cross.after, Cross.next, a, Bool.false_eq_true, if_false, cross_after_shape]
      cases hb : (crossInc shape (Cross.after shape t).indices).2 with
      | true => rfl
      | false =>
        obtain ⟨i1, i2⟩ := hs.1 hb
        have := (flat_range i1).2
        omega

/-- Every tuple of the cross product is visited, at exactly one step. -/
theorem C13_cross_product_exactly_once {shape idx : List ℤ} (hne : shape ≠ [])
    (hpos : ∀ s ∈ shape, 0 < s) (h : InShape shape idx) :
    ∃! t : ℕ, (Cross.after shape t).isEnd = false ∧ (Cross.after shape t).indices = idx := by
  obtain ⟨k1, k2⟩ := C13_cross_product hne hpos
  obtain ⟨f1, f2⟩ := flat_range h
  obtain ⟨t, ht⟩ := Int.eq_ofNat_of_zero_le f1
  obtain ⟨a, b, c⟩ := k1 t (by omega)
  refine ⟨t, ⟨a, flat_injective b h (by rw [c, ht])⟩, ?_⟩
  rintro u ⟨u1, u2⟩
  have hu : (u : ℤ) < shape.prod := by
    by_contra hc
    rw [k2 u (by omega)] at u1; cases u1
  obtain ⟨_, _, cu⟩ := k1 u hu
  rw [u2, ht] at cu
  omega

/-- A shape that is empty or has a size ≤ 0 gives an empty range. -/
theorem C13_cross_product_empty {shape : List ℤ} (h : shape = [] ∨ ∃ s ∈ shape, s ≤ 0) :
    (Cross.begin shape).isEnd = true := by
  unfold Cross.begin crossEmpty
  rcases h with rfl | ⟨s, hs, h0⟩
  · simp
  · simp only [Bool.or_eq_true, List.any_eq_true]
    exact Or.inl ⟨s, hs, by simpa using h0⟩

/-! ## `FlatIndex` -/

theorem toInt32_of_range {x : ℤ} (h0 : 0 ≤ x) (h1 : x < 2 ^ 31) : toInt32 x = x := by
  unfold toInt32
  rw [Int.bmod_def]
  norm_num at *
  rw [Int.emod_eq_of_lt h0 (by omega), if_pos (by omega)]

theorem flatLoop_spec {shape : List ℤ} (hne : shape ≠ []) (hpos : ∀ s ∈ shape, 0 < s ∧ s ≤ 2 ^ 31 - 1)
    (f : ℤ) (h0 : 0 ≤ f) (h1 : f < shape.prod) :
    InShape shape (flatLoop shape f) ∧ flat shape (flatLoop shape f) = f := by
  induction shape generalizing f with
  | nil => exact absurd rfl hne
  | cons s shape ih =>
    obtain ⟨hs0, hs1⟩ := hpos s (by simp)
    cases shape with
    | nil =>
      simp at h1
      simp only [flatLoop, flat]
      rw [toInt32_of_range h0 (by omega)]
      exact ⟨List.Forall₂.cons ⟨h0, h1⟩ List.Forall₂.nil, by simp⟩
    | cons t shape =>
      simp only [flatLoop, flat]
      have m1 := Int.emod_nonneg f (show s ≠ 0 by omega)
      have m2 := Int.emod_lt_of_pos f hs0
      have d1 : 0 ≤ f / s := Int.ediv_nonneg h0 hs0.le
      have d2 : f / s < (t :: shape).prod := by
        apply Int.ediv_lt_of_lt_mul hs0
        rw [List.prod_cons, mul_comm] at h1; exact h1
      rw [Int.tmod_eq_emod_of_nonneg h0, Int.tdiv_eq_ediv_of_nonneg h0,
        toInt32_of_range m1 (by omega)]
      obtain ⟨a, b⟩ := ih (by simp) (fun x hx => hpos x (by simp [hx])) (f / s) d1 d2
      exact ⟨List.Forall₂.cons ⟨m1, m2⟩ a, by rw [b]; exact Int.emod_add_mul_ediv f s⟩

theorem getLastD_inShape {shape idx : List ℤ} (hne : shape ≠ []) (h : InShape shape idx) :
    idx.getLastD 0 < shape.getLastD 0 := by
  induction h with
  | nil => exact absurd rfl hne
  | cons h hr ih =>
    cases hr with
    | nil => simpa using h.2
    | cons a b => simpa using ih (by simp)

/-- **C13**: `FlatIndex(t)` is the iterator that `t` increments of `begin()` give, for `t` before the
end. -/
theorem C13_flatIndex {shape : List ℤ} (hne : shape ≠ []) (hpos : ∀ s ∈ shape, 0 < s ∧ s ≤ 2 ^ 31 - 1)
    (t : ℕ) (ht : (t : ℤ) < shape.prod) : Cross.flatIndex shape t = Cross.after shape t := by
  obtain ⟨a, b, c⟩ := (C13_cross_product hne (fun s hs => (hpos s hs).1)).1 t ht
  obtain ⟨f1, f2⟩ := flatLoop_spec hne hpos t (by omega) ht
  have hi : flatLoop shape t = (Cross.after shape t).indices := flat_injective f1 b (by rw [f2, c])
  have h0 : (Cross.begin shape).isEnd = false :=
    ((C13_cross_product hne (fun s hs => (hpos s hs).1)).1 0 (by
      have : (0 : ℤ) ≤ t := by omega
      push_cast; omega)).1
  unfold Cross.flatIndex
  simp only [h0, Bool.false_eq_true, if_false]
  have hlast : decide ((flatLoop shape t).getLastD 0 ≥ shape.getLastD 0) = false := by
    have := getLastD_inShape hne f1
    simpa using this
  rw [hlast]
  have hsh := cross_after_shape shape t
  cases hcx : Cross.after shape t with
  | mk sh ix en =>
    rw [hcx] at a hsh hi
    simp only at a hsh hi
    subst a hsh
    rw [hi]; rfl

theorem flatLoop_last {shape : List ℤ} (hne : shape ≠ []) (hpos : ∀ s ∈ shape, 0 < s)
    (f : ℤ) (h0 : 0 ≤ f) (h1 : shape.prod ≤ f) (h2 : f / shape.dropLast.prod < 2 ^ 31) :
    shape.getLastD 0 ≤ (flatLoop shape f).getLastD 0 := by
  induction shape generalizing f with
  | nil => exact absurd rfl hne
  | cons s shape ih =>
    have hs0 := hpos s (by simp)
    cases shape with
    | nil =>
      simp at h1 h2
      simp only [flatLoop]
      rw [toInt32_of_range h0 (by omega)]
      simpa using h1
    | cons t shape =>
      simp only [flatLoop]
      rw [Int.tdiv_eq_ediv_of_nonneg h0]
      have := ih (by simp) (fun x hx => hpos x (by simp [hx])) (f / s) (Int.ediv_nonneg h0 hs0.le)
        (by
          rw [Int.le_ediv_iff_mul_le hs0]
          rw [List.prod_cons, mul_comm] at h1; exact h1)
        (by
          rw [Int.ediv_ediv_of_nonneg hs0.le]
          rw [List.dropLast_cons₂, List.prod_cons] at h2; exact h2)
      have hl : flatLoop (t :: shape) (f / s) ≠ [] := by
        cases shape <;> simp [flatLoop]
      cases hfl : flatLoop (t :: shape) (f / s) with
      | nil => exact absurd hfl hl
      | cons y ys => rw [hfl] at this; simpa using this

/-- Past the end `FlatIndex` gives an end iterator — as long as the last index fits an `int`
(the full claim, for every flat index ≥ the number of elements, is false: see the next theorem). -/
theorem C13_flatIndex_end_partial {shape : List ℤ} (hne : shape ≠ []) (hpos : ∀ s ∈ shape, 0 < s)
    (f : ℤ) (h0 : 0 ≤ f) (h1 : shape.prod ≤ f) (h2 : f / shape.dropLast.prod < 2 ^ 31) :
    (Cross.flatIndex shape f).isEnd = true := by
  unfold Cross.flatIndex
  simp only
  split
  · assumption
  · simpa using flatLoop_last hne hpos f h0 h1 h2

/-- `FlatIndex(2^32)` of the shape `{1}` is not the end but the first element: the quotient is narrowed
to `int`. -/
theorem C13_flatIndex_wrap_violation :
    (Cross.flatIndex [1] (2 ^ 32)).isEnd = false ∧ Cross.flatIndex [1] (2 ^ 32) = Cross.begin [1] := by
  decide +kernel

/-- A 2 × 3 range, in order. -/
example : ((List.range 6).map fun t => (Cross.after [2, 3] t).indices) =
    [[0, 0], [1, 0], [0, 1], [1, 1], [0, 2], [1, 2]] ∧ (Cross.after [2, 3] 6).isEnd = true ∧
    InShape [2, 3] [1, 2] ∧ flat [2, 3] [1, 2] = 5 := by
  refine ⟨by decide +kernel, by decide +kernel, ?_, by decide⟩
  exact List.Forall₂.cons (by decide) (List.Forall₂.cons (by decide) List.Forall₂.nil)

end Verif.NumberUtil
