import Verif.Proof.RationalApproximation
import Mathlib.Data.Rat.Floor
import Mathlib.Data.Real.Archimedean

/-!
# C11: `RationalApproximation` returns the best fraction with a bounded denominator

For all values (exact, in any ordered field with floor, such as ℝ) and all denominators limits in `int`.
The competitors are all `a'/b'` with `0 < b' <= max_denominator` and `|a'| <= INT_MAX`.
-/

namespace Verif.RationalApproximation

open Verif.NumberUtil (ck intMin intMax)

variable {α : Type*} [Field α] [LinearOrder α] [IsStrictOrderedRing α] [FloorRing α]

/-- `a/b` is a closest fraction to `value` among the representable ones. -/
def Closest (value : α) (maxDen : ℤ) (a b : ℤ) : Prop :=
  ∀ a' b' : ℤ, 1 ≤ b' → b' ≤ maxDen → |a'| ≤ 2 ^ 31 - 1 →
    |value - (a : α) / b| ≤ |value - (a' : α) / b'|

theorem initial_inv {v : α} {maxDen : ℤ} (h0 : 0 ≤ v) (h1 : v < 2 ^ 31) (hm : 1 ≤ maxDen) :
    Inv v maxDen (v - ⌊v⌋) ⟨1, 0⟩ ⟨⌊v⌋, 1⟩ 1 := by
  have f0 : 0 ≤ ⌊v⌋ := Int.floor_nonneg.mpr h0
  have f1 : ⌊v⌋ < 2 ^ 31 := Int.floor_lt.mpr (by push_cast; linarith)
  have a := Int.floor_le v
  have b := Int.lt_floor_add_one v
  refine ⟨by push_cast; ring, by linarith, by linarith, Or.inr (by ring), le_rfl, by simp, le_rfl, hm,
    f0, by simp only; omega, by simp, by norm_num, le_rfl, by simp, by simp, fun _ => by ring⟩

/-- The whole function, given a postcondition for the nonnegative case. -/
theorem approx_ind {value tol : α} {maxDen : ℤ} (hm : 1 ≤ maxDen) (hM : maxDen ≤ 2 ^ 31 - 1)
    (htol0 : 0 ≤ tol) (P : Frac → Prop)
    (hconv : ∀ r p c m, Inv |value| maxDen r p c m → r ≤ tol → P c)
    (hbest : ∀ f, Best |value| maxDen f → P f)
    (h1 : value ≤ (2 ^ 31 - 1) - 1 / 2) (h2 : -2 ^ 31 + 1 / 2 ≤ value) (hP : ∀ f, P f → |f.a| ≤ 2 ^ 31 - 1) :
    ∃ f, P f ∧
      rationalApproximation tol 47 value maxDen = some ((if value < 0 then -1 else 1) * f.a, f.b) := by
  have hv1 : |value| < 2 ^ 31 := by rw [abs_lt]; constructor <;> linarith
  have f0 : 0 ≤ ⌊|value|⌋ := Int.floor_nonneg.mpr (abs_nonneg _)
  have f1 : ⌊|value|⌋ < 2 ^ 31 := Int.floor_lt.mpr (by push_cast; linarith)
  obtain ⟨f, r, pf⟩ := run_ind hM htol0 P hconv hbest 45 1 (by omega) |value| ⌊|value|⌋ ⟨1, 0⟩
    ⟨⌊|value|⌋, 1⟩ (initial_inv (abs_nonneg _) hv1 hm)
  refine ⟨f, pf, ?_⟩
  have hs : ∀ x : ℤ, |x| ≤ 2 ^ 31 - 1 → ck ((if value < 0 then -1 else 1) * x) =
      some ((if value < 0 then -1 else 1) * x) := by
    intro x hx
    rw [abs_le] at hx
    apply ck_of <;> split <;> omega
  unfold rationalApproximation
  rw [if_neg (by omega), if_neg (by unfold intMax; push_cast; linarith),
    if_neg (by unfold intMin; push_cast; linarith)]
  simp only [Option.bind_eq_bind]
  rw [ck_of (by omega) (by omega), Option.bind_some, show ((47 : ℤ) - 2).toNat = 45 by rfl]
  unfold run at r
  simp only [Option.bind_eq_bind] at r
  cases hl : loop tol maxDen 45 |value| ⌊|value|⌋ ⟨1, 0⟩ ⟨⌊|value|⌋, 1⟩ with
  | none => rw [hl] at r; cases r
  | some ex =>
    rw [hl] at r
    cases ex with
    | converged c =>
      simp only [Option.bind_some] at r ⊢
      cases r
      rw [hs _ (hP _ pf)]; rfl
    | truncated n t p c =>
      simp only [Option.bind_some] at r ⊢
      rw [r, Option.bind_some, hs _ (hP _ pf)]; rfl

theorem sign_dist (value : α) (a b : ℤ) :
    |value - (((if value < 0 then -1 else 1) * a : ℤ) : α) / b| = |(|value|) - (a : α) / b| := by
  split
  · rename_i h
    rw [abs_of_neg h, ← abs_neg]; congr 1; push_cast; ring
  · rename_i h
    rw [abs_of_nonneg (not_lt.mp h)]; push_cast; ring_nf

theorem closest_of_best {value : α} {maxDen : ℤ} {f : Frac} (h : Best |value| maxDen f) :
    Closest value maxDen ((if value < 0 then -1 else 1) * f.a) f.b := by
  intro a' b' h1 h2 h3
  rw [sign_dist]
  rw [abs_le] at h3
  by_cases hv : value < 0
  · have := h.opt (-a') b' h1 h2 (by omega)
    unfold Frac.val at this
    refine this.trans (le_of_eq ?_)
    rw [abs_of_neg hv, ← abs_neg]; congr 1; push_cast; ring
  · have := h.opt a' b' h1 h2 (by omega)
    unfold Frac.val at this
    rwa [abs_of_nonneg (not_lt.mp hv)] at this ⊢

theorem gcd_sign (value : α) (a b : ℤ) :
    Int.gcd ((if value < 0 then -1 else 1) * a) b = Int.gcd a b := by
  split <;> simp

/-- Values too large for an `int` get the closest `int`. -/
theorem closest_huge {value : α} {maxDen : ℤ} (h : value > (2 ^ 31 - 1) - 1 / 2) :
    Closest value maxDen (2 ^ 31 - 1) 1 := by
  intro a' b' h1 _ h3
  rw [abs_le] at h3
  have hb : (1 : α) ≤ b' := by exact_mod_cast h1
  have ha : (a' : α) ≤ 2 ^ 31 - 1 := by exact_mod_cast h3.2
  push_cast
  rw [div_one]
  by_cases hc : a' = 2 ^ 31 - 1 ∧ b' = 1
  · rw [hc.1, hc.2]; push_cast; simp
  · have hq : (a' : α) / b' ≤ 2 ^ 31 - 2 := by
      rw [div_le_iff₀ (by linarith)]
      by_cases hb1 : b' = 1
      · have : a' ≤ 2 ^ 31 - 2 := by omega
        have : (a' : α) ≤ 2 ^ 31 - 2 := by exact_mod_cast this
        rw [hb1]; push_cast; linarith
      · have : (2 : α) ≤ b' := by exact_mod_cast (by omega : 2 ≤ b')
        have := mul_le_mul_of_nonneg_left this (by norm_num : (0 : α) ≤ 2 ^ 31 - 2)
        linarith
    rw [abs_le]
    have := le_abs_self (value - (a' : α) / b')
    constructor <;> linarith

/-- Values too small for an `int` get `INT_MIN`, which is at least as close as every competitor. -/
theorem closest_tiny {value : α} {maxDen : ℤ} (h : value < -2 ^ 31 + 1 / 2) :
    Closest value maxDen (-2 ^ 31) 1 := by
  intro a' b' h1 _ h3
  rw [abs_le] at h3
  have hb : (1 : α) ≤ b' := by exact_mod_cast h1
  have ha : -(2 ^ 31 - 1 : α) ≤ a' := by exact_mod_cast h3.1
  push_cast
  rw [div_one]
  have hq : -(2 ^ 31 - 1) ≤ (a' : α) / b' := by
    rw [le_div_iff₀ (by linarith)]
    have := mul_le_mul_of_nonneg_left hb (by norm_num : (0 : α) ≤ 2 ^ 31 - 1)
    linarith
  rw [abs_le]
  have := neg_abs_le (value - (a' : α) / b')
  constructor <;> linarith

/-- **C11** for every tolerance with `tolerance * (2 * max_denominator + 1) <= 1` (in particular for
`tolerance = 0` and every `max_denominator`): the result is a reduced fraction with
`0 < b <= max_denominator` and no representable fraction is strictly closer. No `int` computation
overflows. -/
theorem C11_best {value tol : α} {maxDen : ℤ} (hm : 1 ≤ maxDen) (hM : maxDen ≤ 2 ^ 31 - 1)
    (htol0 : 0 ≤ tol) (htol : tol * (2 * maxDen + 1) ≤ 1) :
    ∃ a b, rationalApproximation tol 47 value maxDen = some (a, b) ∧ 1 ≤ b ∧ b ≤ maxDen ∧
      Int.gcd a b = 1 ∧ Closest value maxDen a b := by
  by_cases h1 : value > (2 ^ 31 - 1) - 1 / 2
  · refine ⟨2 ^ 31 - 1, 1, ?_, le_rfl, hm, by norm_num, closest_huge h1⟩
    unfold rationalApproximation
    rw [if_neg (by omega), if_pos (by unfold intMax; push_cast; linarith)]; rfl
  · by_cases h2 : value < -2 ^ 31 + 1 / 2
    · refine ⟨-2 ^ 31, 1, ?_, le_rfl, hm, by norm_num, closest_tiny h2⟩
      unfold rationalApproximation
      rw [if_neg (by omega), if_neg (by unfold intMax; push_cast; linarith),
        if_pos (by unfold intMin; push_cast; linarith)]; rfl
    · obtain ⟨f, hf, e⟩ := approx_ind (tol := tol) hm hM htol0 (Best |value| maxDen)
        (fun r p c m hi hr => converged_best hi hM hr htol) (fun f hf => hf) (not_lt.mp h1) (not_lt.mp h2)
        (fun f hf => by rw [abs_of_nonneg hf.a0]; exact hf.aM)
      exact ⟨_, _, e, hf.b1, hf.bM, by rw [gcd_sign]; exact hf.red, closest_of_best hf⟩

/-- **C11**, default options: optimal for every `max_denominator` up to 499999999. (The claim for every
`max_denominator` is false: `C11_tolerance_violation`. What holds for all is
`C11_default_error_partial`.) -/
theorem C11_default_best_partial {value : α} {maxDen : ℤ} (hm : 1 ≤ maxDen) (hM : maxDen ≤ 499999999) :
    ∃ a b, rationalApproximationDefault value maxDen = some (a, b) ∧ 1 ≤ b ∧ b ≤ maxDen ∧
      Int.gcd a b = 1 ∧ Closest value maxDen a b := by
  apply C11_best hm (by omega) (by positivity)
  have : (maxDen : α) ≤ 499999999 := by exact_mod_cast hM
  rw [div_mul_eq_mul_div, div_le_one (by positivity)]
  linarith

/-- With the default options and any `max_denominator`, the result is admissible and reduced and is
either a closest fraction or within `1e-9 / b^2` of the value. -/
theorem C11_default_error_partial {value : α} {maxDen : ℤ} (hm : 1 ≤ maxDen)
    (hM : maxDen ≤ 2 ^ 31 - 1) :
    ∃ a b, rationalApproximationDefault value maxDen = some (a, b) ∧ 1 ≤ b ∧ b ≤ maxDen ∧
      Int.gcd a b = 1 ∧
      (Closest value maxDen a b ∨ |value - (a : α) / b| ≤ 1 / 10 ^ 9 / (b : α) ^ 2) := by
  by_cases h1 : value > (2 ^ 31 - 1) - 1 / 2
  · refine ⟨2 ^ 31 - 1, 1, ?_, le_rfl, hm, by norm_num, Or.inl (closest_huge h1)⟩
    unfold rationalApproximationDefault rationalApproximation
    rw [if_neg (by omega), if_pos (by unfold intMax; push_cast; linarith)]; rfl
  · by_cases h2 : value < -2 ^ 31 + 1 / 2
    · refine ⟨-2 ^ 31, 1, ?_, le_rfl, hm, by norm_num, Or.inl (closest_tiny h2)⟩
      unfold rationalApproximationDefault rationalApproximation
      rw [if_neg (by omega), if_neg (by unfold intMax; push_cast; linarith),
        if_pos (by unfold intMin; push_cast; linarith)]; rfl
    · obtain ⟨f, ⟨p1, p2, p3, p4, p5, p6⟩, e⟩ := approx_ind (value := value) (tol := 1 / 10 ^ 9) hm hM
        (by positivity)
        (fun f => 0 ≤ f.a ∧ f.a ≤ 2 ^ 31 - 1 ∧ 1 ≤ f.b ∧ f.b ≤ maxDen ∧ Int.gcd f.a f.b = 1 ∧
          (Best |value| maxDen f ∨ |(|value|) - f.val| ≤ 1 / 10 ^ 9 / (f.b : α) ^ 2))
        (fun r p c m hi hr => ⟨hi.ca, hi.caM, hi.cb, hi.cbM, gcd_of_det hi.det, Or.inr (by
          rw [err_c hi]
          have hcb : (0 : α) < c.b := by exact_mod_cast (by have := hi.cb; omega : 0 < c.b)
          have hpb : (0 : α) ≤ p.b := by exact_mod_cast hi.pb
          have := mul_nonneg hi.r0 hpb
          apply div_le_div₀ (by positivity) hr (by positivity)
          rw [pow_two]
          exact mul_le_mul_of_nonneg_left (by linarith) hcb.le)⟩)
        (fun f hf => ⟨hf.a0, hf.aM, hf.b1, hf.bM, hf.red, Or.inl hf⟩) (not_lt.mp h1) (not_lt.mp h2)
        (fun f hf => by rw [abs_of_nonneg hf.1]; exact hf.2.1)
      refine ⟨_, _, e, p3, p4, by rw [gcd_sign]; exact p5, ?_⟩
      rcases p6 with h | h
      · exact Or.inl (closest_of_best h)
      · right; rw [sign_dist]; exact h

/-- `RationalApproximation(1e-9, 1000000000)` returns 0/1 although 1/1000000000 is exact. -/
theorem C11_tolerance_violation :
    rationalApproximationDefault (1 / 10 ^ 9 : ℚ) (10 ^ 9) = some (0, 1) ∧
      ¬ Closest (1 / 10 ^ 9 : ℚ) (10 ^ 9) 0 1 := by
  refine ⟨by decide +kernel, ?_⟩
  intro h
  have := h 1 (10 ^ 9) (by norm_num) le_rfl (by norm_num)
  norm_num at this

/-- The value `-2^31 / 3` is representable as `INT_MIN / 3`, but it is not found: the numerator is
bounded by `INT_MAX` in absolute value. -/
theorem C11_int_min_numerator_violation :
    rationalApproximationDefault (-2 ^ 31 / 3 : ℚ) 3 = some (-1431655765, 2) := by
  decide +kernel

/-- 311/99 for a number close to π and a denominator of at most 100. -/
example : rationalApproximationDefault (3141592653589793 / 10 ^ 15 : ℚ) 100 = some (311, 99) ∧
    rationalApproximationDefault (-(3141592653589793 / 10 ^ 15) : ℚ) 10 = some (-22, 7) := by
  decide +kernel

end Verif.RationalApproximation
