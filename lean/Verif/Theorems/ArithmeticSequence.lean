import Verif.Model.ArithmeticSequence
import Mathlib.Data.Rat.Floor
import Mathlib.Tactic.Linarith
import Mathlib.Tactic.Ring
import Mathlib.Tactic.FieldSimp
import Mathlib.Tactic.NormNum

/-!
# C51: `ArithmeticSequence(base, step, limit)`

The documented semantics: `base + step * i`, with the number of elements fixed by
`base + step * (size - 1) <= limit + tol < base + step * size` (mirrored for a negative step), with
`tol = min(eps * (5 (|base| + |limit|) + 7 |limit - base|), |step| / 3)`.
-/

namespace Verif.ArithmeticSequence

variable {α : Type*} [Field α] [LinearOrder α] [IsStrictOrderedRing α] [FloorRing α]

/-- The documented tolerance. -/
def docTol (eps base step limit : α) : α :=
  min (eps * (5 * (|base| + |limit|) + 7 * |limit - base|)) (|step| / 3)

theorem tol_eq (eps base step limit : α) : tol eps base step limit = docTol eps base step limit := by
  unfold tol docTol
  simp only
  split
  · rename_i h; rw [min_eq_right]; rw [div_le_iff₀ (by norm_num)]; linarith
  · rename_i h; rw [min_eq_left]; rw [le_div_iff₀ (by norm_num)]; linarith

theorem docTol_nonneg {eps : α} (he : 0 ≤ eps) (base step limit : α) :
    0 ≤ docTol eps base step limit := by
  unfold docTol; positivity

/-- The direction of the step. -/
def sgn (step : α) : α := if step > 0 then 1 else -1

theorem sgn_mul_pos {step : α} (h : step ≠ 0) : 0 < sgn step * step := by
  unfold sgn
  split
  · rename_i h1; linarith
  · rename_i h1; have := lt_of_le_of_ne (not_lt.mp h1) h; linarith

theorem sgn_sq (step : α) : sgn step * sgn step = 1 := by unfold sgn; split <;> ring

/-- `sized` satisfies the documented inequalities. -/
theorem sized_spec (eps base step limit : α) (h : step ≠ 0) :
    sgn step * (base + step * ((sized eps base step limit - 1 : ℤ) : α)) ≤
        sgn step * limit + docTol eps base step limit ∧
      sgn step * limit + docTol eps base step limit <
        sgn step * (base + step * (sized eps base step limit : α)) := by
  have hp := sgn_mul_pos h
  have hq := sgn_sq step
  set q := ((limit - base) + sgn step * docTol eps base step limit) / step with hqd
  have hs : sized eps base step limit = 1 + ⌊q⌋ := by
    unfold sized; simp only [tol_eq]; rfl
  have hmul : step * q = (limit - base) + sgn step * docTol eps base step limit := by
    rw [hqd]; field_simp
  have h1 : (⌊q⌋ : α) ≤ q := Int.floor_le q
  have h2 : q < ⌊q⌋ + 1 := Int.lt_floor_add_one q
  have m1 := mul_le_mul_of_nonneg_left h1 hp.le
  have m2 := mul_lt_mul_of_pos_left h2 hp
  have e : sgn step * step * q = sgn step * (limit - base) + docTol eps base step limit := by
    rw [mul_assoc, hmul, mul_add, ← mul_assoc, hq, one_mul]
  rw [e] at m1 m2
  rw [hs]
  constructor
  · have : ((1 + ⌊q⌋ - 1 : ℤ) : α) = ⌊q⌋ := by push_cast; ring
    rw [this]; linarith
  · push_cast
    have : sgn step * (base + step * (1 + (⌊q⌋ : α))) =
        sgn step * base + sgn step * step * (⌊q⌋ + 1) := by ring
    rw [this]; linarith

/-- **C51**: the constructor fails only for `step = 0` or more than `INT_MAX` elements (its internal
consistency checks never fire); otherwise the size is zero exactly if `limit` is before `base` by more
than the tolerance, and a nonzero size satisfies the documented inequalities. -/
theorem C51_size {eps base step limit : α} (he : 0 ≤ eps) :
    (step = 0 → make eps base step limit = none) ∧
    (step ≠ 0 →
      (make eps base step limit = none ∧
        ∃ n : ℤ, 2 ^ 31 - 1 < n ∧ sgn step * (base + step * ((n - 1 : ℤ) : α)) ≤
          sgn step * limit + docTol eps base step limit) ∨
      ∃ s, make eps base step limit = some s ∧ 0 ≤ s.size ∧ s.base = base ∧
        (s.size = 0 ↔ sgn step * limit + docTol eps base step limit < sgn step * base) ∧
        (s.size ≠ 0 →
          sgn step * (base + step * ((s.size - 1 : ℤ) : α)) ≤
            sgn step * limit + docTol eps base step limit ∧
          sgn step * limit + docTol eps base step limit < sgn step * (base + step * (s.size : α)))) := by
  refine ⟨fun h => by unfold make; rw [if_pos h], fun h => ?_⟩
  obtain ⟨h1, h2⟩ := sized_spec eps base step limit h
  have hp := sgn_mul_pos h
  have ht := docTol_nonneg he base step limit
  unfold make
  rw [if_neg h]
  simp only [tol_eq]
  generalize hn : sized eps base step limit = n at h1 h2
  by_cases hz : n ≤ 0
  · rw [if_pos hz]
    refine Or.inr ⟨_, rfl, le_rfl, rfl, ?_, by simp⟩
    simp only [true_iff]
    have : sgn step * step * (n : α) ≤ 0 := mul_nonpos_of_nonneg_of_nonpos hp.le (by exact_mod_cast hz)
    have e : sgn step * (base + step * (n : α)) = sgn step * base + sgn step * step * n := by ring
    rw [e] at h2
    linarith
  · rw [if_neg hz]
    have hz' : ¬ (sgn step * limit + docTol eps base step limit < sgn step * base) := by
      intro hc
      have : 0 ≤ sgn step * step * ((n - 1 : ℤ) : α) :=
        mul_nonneg hp.le (by have : 0 ≤ n - 1 := by omega
                             exact_mod_cast this)
      have e : sgn step * (base + step * ((n - 1 : ℤ) : α)) =
        sgn step * base + sgn step * step * ((n - 1 : ℤ) : α) := by ring
      rw [e] at h1
      linarith
    by_cases hb : n > 2 ^ 31 - 1
    · rw [if_pos hb]
      exact Or.inl ⟨rfl, n, hb, h1⟩
    · rw [if_neg hb]
      have c1 : (if step > 0 then (1 : α) else -1) * (base + step * ((n - 1 : ℤ) : α)) ≤
          (if step > 0 then (1 : α) else -1) * limit + 2 * docTol eps base step limit := by
        have : sgn step = if step > 0 then (1 : α) else -1 := rfl
        rw [← this]; linarith
      have c2 : (if step > 0 then (1 : α) else -1) * limit <
          (if step > 0 then (1 : α) else -1) * (base + step * (n : α)) := by
        have : sgn step = if step > 0 then (1 : α) else -1 := rfl
        rw [← this]; linarith
      rw [if_neg (not_not.mpr c1), if_neg (not_not.mpr c2)]
      right
      have hn0 : n ≠ 0 := by omega
      split
      · rename_i h3
        subst h3
        exact ⟨_, rfl, by norm_num, rfl, by simpa using hz', fun _ => ⟨h1, h2⟩⟩
      · split
        · exact ⟨_, rfl, by simp only; omega, rfl, by simpa [hn0] using hz', fun _ => ⟨h1, h2⟩⟩
        · exact ⟨_, rfl, by simp only; omega, rfl, by simpa [hn0] using hz', fun _ => ⟨h1, h2⟩⟩

/-- **C51**: every element but the last is `base + step * i`. -/
theorem C51_elements {eps base step limit : α} {s : Seq α} (h : make eps base step limit = some s)
    (i : ℤ) (h0 : 0 ≤ i) (h1 : i < s.size - 1) : s.get i = some (base + step * (i : α)) := by
  have hs : s.base = base ∧ (s.size ≤ 1 ∨ s.step = step) := by
    unfold make at h
    simp only at h
    repeat' split at h
    all_goals first
      | (cases h; done)
      | (simp only [Option.some.injEq] at h; subst h; exact ⟨rfl, by simp⟩)
  unfold Seq.get
  rw [if_pos ⟨h0, by omega⟩, if_pos h1, hs.1]
  rcases hs.2 with h2 | h2
  · omega
  · rw [h2]

/-- The documented last element: `base + step * (size - 1)` up to the tolerance of a few epsilon.
Proved for `step ≤ 1` (which includes every negative step). The full claim, for every step, is false:
see `C51_last_element_violation`. -/
theorem C51_last_element_partial {eps base step limit : α} {s : Seq α} (he : 0 ≤ eps)
    (hs1 : step ≤ 1) (h : make eps base step limit = some s) (h0 : 0 < s.size) :
    ∃ x, s.get (s.size - 1) = some x ∧
      |x - (base + step * ((s.size - 1 : ℤ) : α))| ≤
        max (docTol eps base step limit)
          (4 * eps * max |limit| |base + step * ((s.size - 1 : ℤ) : α)|) := by
  refine ⟨s.limit, ?_, ?_⟩
  · unfold Seq.get; rw [if_pos ⟨by omega, by omega⟩, if_neg (by omega)]
  have ht := docTol_nonneg he base step limit
  have hm : ∀ y : α, |y - y| ≤ max (docTol eps base step limit) (4 * eps * max |limit| |y|) := by
    intro y; rw [sub_self, abs_zero]; exact le_max_of_le_left ht
  unfold make at h
  simp only [show (if step > 0 then (1 : α) else -1) = sgn step from rfl] at h
  split at h
  · cases h
  rename_i hs0
  obtain ⟨h1, h2⟩ := sized_spec eps base step limit hs0
  split at h
  · cases h; simp at h0
  split at h
  · cases h
  split at h
  · cases h
  split at h
  · cases h
  split at h
  · rename_i hn
    cases h
    simpa using hm base
  split at h
  · cases h
    simpa using hm _
  · rename_i hc
    cases h
    simp only
    generalize hl : base + step * ((sized eps base step limit - 1 : ℤ) : α) = last at *
    by_cases hout : (step > 0 ∧ limit > last) ∨ (step < 0 ∧ limit < last)
    · have hc' : ¬ (4 * eps * step * max |limit| |last| ≤ |limit - last|) := fun h => hc ⟨hout, h⟩
      apply le_max_of_le_right
      push Not at hc'
      refine hc'.le.trans ?_
      have hM : 0 ≤ 4 * eps * max |limit| |last| := by positivity
      have : 4 * eps * step * max |limit| |last| = (4 * eps * max |limit| |last|) * step := by ring
      rw [this]
      exact mul_le_of_le_one_right hM hs1
    · apply le_max_of_le_left
      push Not at hout
      unfold sgn at h1
      split at h1
      · rename_i hpos
        have := hout.1 hpos
        rw [abs_le]; constructor <;> linarith
      · rename_i hneg
        have := hout.2 (lt_of_le_of_ne (not_lt.mp hneg) hs0)
        rw [abs_le]; constructor <;> linarith

/-- `ArithmeticSequence(0, 1e16, 1.5e16)` is `{0, 1.5e16}`: its last element is half a step away from
`base + step`, because the test whether `limit` is within a few epsilon of the last element multiplies
the tolerance by the step. (All the numbers are exactly representable.) -/
theorem C51_last_element_violation :
    ∃ s : Seq ℚ, make (1 / 2 ^ 52) 0 (10 ^ 16) (15 * 10 ^ 15) = some s ∧ s.size = 2 ∧
      s.get 1 = some (15 * 10 ^ 15) :=
  ⟨⟨0, 10 ^ 16, 15 * 10 ^ 15, 2⟩, by decide +kernel, rfl, by decide +kernel⟩

/-- The first documented example. -/
example : (make (1 / 2 ^ 52) (12 / 10) (1 / 10) (159 / 100) : Option (Seq ℚ)) =
    some ⟨12 / 10, 1 / 10, 15 / 10, 4⟩ := by decide +kernel

end Verif.ArithmeticSequence
