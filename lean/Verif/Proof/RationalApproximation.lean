import Verif.Model.RationalApproximation
import Mathlib.Data.Nat.Fib.Basic
import Mathlib.RingTheory.Coprime.Lemmas
import Mathlib.Tactic.Linarith
import Mathlib.Tactic.Ring
import Mathlib.Tactic.FieldSimp
import Mathlib.Tactic.LinearCombination

namespace Verif.RationalApproximation

open Verif.NumberUtil (ck intMin intMax)

variable {α : Type*} [Field α] [LinearOrder α] [IsStrictOrderedRing α] [FloorRing α]

theorem ck_of {x : ℤ} (h0 : -2 ^ 31 ≤ x) (h1 : x ≤ 2 ^ 31 - 1) : ck x = some x := by
  unfold ck intMin intMax; rw [if_pos ⟨h0, h1⟩]

/-- Loop invariant: `p`, `c` are the last two convergents of `value`, `r` the residual, `m` the number
of terms so far. -/
structure Inv (value : α) (maxDen : ℤ) (r : α) (p c : Frac) (m : ℕ) : Prop where
  eq : value * (c.b + r * p.b) = c.a + r * p.a
  r0 : 0 ≤ r
  r1 : r < 1
  det : c.a * p.b - p.a * c.b = 1 ∨ c.a * p.b - p.a * c.b = -1
  pb : 0 ≤ p.b
  pc : p.b ≤ c.b
  cb : 1 ≤ c.b
  cbM : c.b ≤ maxDen
  ca : 0 ≤ c.a
  caM : c.a ≤ 2 ^ 31 - 1
  pa : 0 ≤ p.a
  paM : p.a ≤ 2 ^ 31 - 1
  m1 : 1 ≤ m
  fibc : (Nat.fib m : ℤ) ≤ c.b
  fibp : (Nat.fib (m - 1) : ℤ) ≤ p.b
  first : p.b = 0 → c.a * p.b - p.a * c.b = -1

theorem bound_spec {maxDen : ℤ} {p c : Frac} (hM : maxDen ≤ 2 ^ 31 - 1) (pb : 0 ≤ p.b)
    (pM : p.b ≤ maxDen) (cb : 1 ≤ c.b) (ca : 0 ≤ c.a) (pa : 0 ≤ p.a) (paM : p.a ≤ 2 ^ 31 - 1) :
    ∃ n, bound maxDen p c = some n ∧ 0 ≤ n ∧ n * c.b + p.b ≤ maxDen ∧ n * c.a + p.a ≤ 2 ^ 31 - 1 ∧
      n ≤ maxDen ∧
      ((maxDen < (n + 1) * c.b + p.b) ∨ (2 ^ 31 - 1 < (n + 1) * c.a + p.a)) := by
  unfold bound
  have e1 : (maxDen - p.b).tdiv c.b = (maxDen - p.b) / c.b := Int.tdiv_eq_ediv_of_nonneg (by omega)
  have d0 : 0 ≤ (maxDen - p.b) / c.b := Int.ediv_nonneg (by omega) (by omega)
  have d1 : (maxDen - p.b) / c.b ≤ maxDen - p.b := Int.ediv_le_self _ (by omega)
  have d2 : (maxDen - p.b) / c.b * c.b ≤ maxDen - p.b := Int.ediv_mul_le _ (by omega)
  have d3 : maxDen - p.b < ((maxDen - p.b) / c.b + 1) * c.b := Int.lt_ediv_add_one_mul_self _ (by omega)
  simp only [Option.bind_eq_bind]
  rw [ck_of (by omega) (by omega), Option.bind_some, e1, ck_of (by omega) (by omega), Option.bind_some]
  generalize (maxDen - p.b) / c.b = d at *
  split
  · rename_i h
    have e2 : (intMax - p.a).tdiv c.a = (2 ^ 31 - 1 - p.a) / c.a := by
      unfold intMax; exact Int.tdiv_eq_ediv_of_nonneg (by omega)
    have u0 : 0 ≤ (2 ^ 31 - 1 - p.a) / c.a := Int.ediv_nonneg (by omega) (by omega)
    have u1 : (2 ^ 31 - 1 - p.a) / c.a ≤ 2 ^ 31 - 1 - p.a := Int.ediv_le_self _ (by omega)
    have u2 : (2 ^ 31 - 1 - p.a) / c.a * c.a ≤ 2 ^ 31 - 1 - p.a := Int.ediv_mul_le _ (by omega)
    have u3 : 2 ^ 31 - 1 - p.a < ((2 ^ 31 - 1 - p.a) / c.a + 1) * c.a :=
      Int.lt_ediv_add_one_mul_self _ (by omega)
    rw [ck_of (by unfold intMax; omega) (by unfold intMax; omega), Option.bind_some, e2,
      ck_of (by omega) (by omega), Option.bind_some]
    generalize (2 ^ 31 - 1 - p.a) / c.a = u at *
    by_cases hu : d > u
    · rw [if_pos hu]
      have : u * c.b ≤ d * c.b := mul_le_mul_of_nonneg_right hu.le (by omega)
      exact ⟨u, rfl, u0, by omega, by omega, by omega, Or.inr (by omega)⟩
    · rw [if_neg hu]
      have : d * c.a ≤ u * c.a := mul_le_mul_of_nonneg_right (by omega) (by omega)
      exact ⟨d, rfl, d0, by omega, by omega, by omega, Or.inl (by omega)⟩
  · have h0 : c.a = 0 := by omega
    refine ⟨d, rfl, d0, by omega, ?_, by omega, Or.inl (by omega)⟩
    rw [h0]; omega

theorem append_spec {c p : Frac} {t : ℤ} (ht : 0 ≤ t) (cb : 0 ≤ c.b) (ca : 0 ≤ c.a) (pb : 0 ≤ p.b)
    (pa : 0 ≤ p.a) (h1 : t * c.a + p.a ≤ 2 ^ 31 - 1) (h2 : t * c.b + p.b ≤ 2 ^ 31 - 1) :
    append c p t = some ⟨t * c.a + p.a, t * c.b + p.b⟩ := by
  unfold append
  have x := mul_nonneg ht ca
  have y := mul_nonneg ht cb
  simp only [Option.bind_eq_bind]
  rw [ck_of (by omega) (by omega), Option.bind_some, ck_of (by omega) (by omega), Option.bind_some,
    ck_of (by omega) (by omega), Option.bind_some, ck_of (by omega) (by omega), Option.bind_some]
  rfl

/-- The floor of `1 / r`. -/
theorem floor_recip {r : α} (h0 : 0 < r) (h1 : r < 1) :
    1 ≤ ⌊1 / r⌋ ∧ r * ⌊1 / r⌋ ≤ 1 ∧ 1 < r * (⌊1 / r⌋ + 1) := by
  have hr : 1 ≤ 1 / r := by rw [le_div_iff₀ h0]; linarith
  refine ⟨Int.le_floor.mpr (by simpa using hr), ?_, ?_⟩
  · have := Int.floor_le (1 / r)
    have := mul_le_mul_of_nonneg_left this h0.le
    rwa [mul_one_div_cancel h0.ne'] at this
  · have := Int.lt_floor_add_one (1 / r)
    have := mul_lt_mul_of_pos_left this h0
    rwa [mul_one_div_cancel h0.ne'] at this

/-- One more term keeps the invariant. -/
theorem Inv.step {value : α} {maxDen : ℤ} {r : α} {p c : Frac} {m : ℕ} (h : Inv value maxDen r p c m)
    (hr : 0 < r) (hM : ⌊1 / r⌋ * c.b + p.b ≤ maxDen) (hA : ⌊1 / r⌋ * c.a + p.a ≤ 2 ^ 31 - 1) :
    Inv value maxDen (1 / r - ⌊1 / r⌋) c ⟨⌊1 / r⌋ * c.a + p.a, ⌊1 / r⌋ * c.b + p.b⟩ (m + 1) := by
  obtain ⟨t1, t2, t3⟩ := floor_recip hr h.r1
  have hrr : r * (1 / r) = 1 := mul_one_div_cancel hr.ne'
  have hfl := Int.floor_le (1 / r)
  have hfl' := Int.lt_floor_add_one (1 / r)
  generalize ht : ⌊1 / r⌋ = t at *
  generalize 1 / r = x at *
  have tcb : c.b ≤ t * c.b := le_mul_of_one_le_left (by have := h.cb; omega) t1
  have tca : 0 ≤ t * c.a := mul_nonneg (by omega) h.ca
  have hpb := h.pb
  have hpa := h.pa
  have hcb := h.cb
  have hm1 := h.m1
  refine ⟨?_, by linarith, by linarith, ?_, by omega, by simp only; omega,
    by simp only; omega, hM, by simp only; omega, hA, h.ca, h.caM, by omega, ?_, ?_, ?_⟩
  · push_cast
    have := h.eq
    have h2 : value * (r * (t * c.b + p.b + (x - t) * c.b)) = r * (t * c.a + p.a + (x - t) * c.a) := by
      have e1 : r * (t * c.b + p.b + (x - t) * c.b) = c.b + r * p.b := by linear_combination (c.b : α) * hrr
      have e2 : r * (t * c.a + p.a + (x - t) * c.a) = (c.a + r * p.a : α) := by
        linear_combination (c.a : α) * hrr
      rw [e1, e2]; exact this
    apply mul_left_cancel₀ hr.ne'
    linear_combination h2
  · simp only
    have e : (t * c.a + p.a) * c.b - c.a * (t * c.b + p.b) = -(c.a * p.b - p.a * c.b) := by ring
    rw [e]
    rcases h.det with h | h
    · right; omega
    · left; omega
  · simp only
    have : Nat.fib (m + 1) = Nat.fib (m - 1) + Nat.fib m := by
      obtain ⟨k, rfl⟩ := Nat.exists_eq_add_of_le hm1
      rw [show 1 + k + 1 = k + 2 by omega, show 1 + k - 1 = k by omega, show 1 + k = k + 1 by omega,
        Nat.fib_add_two]
    rw [this]
    have := h.fibc
    have := h.fibp
    push_cast
    omega
  · simpa using h.fibc
  · intro hc; omega

/-! ## Optimality -/

theorem key_c {value : α} {maxDen : ℤ} {r : α} {p c : Frac} {m : ℕ} (h : Inv value maxDen r p c m) :
    (c.b + r * p.b : α) * (c.a - value * c.b) = r * ((c.a * p.b - p.a * c.b : ℤ) : α) := by
  have := h.eq
  push_cast
  linear_combination (-(c.b : α)) * this

theorem key_s {value : α} {maxDen : ℤ} {r : α} {p c : Frac} {m : ℕ} (h : Inv value maxDen r p c m)
    (n : ℤ) :
    (c.b + r * p.b : α) * (value * ((n * c.b + p.b : ℤ) : α) - ((n * c.a + p.a : ℤ) : α)) =
      ((c.a * p.b - p.a * c.b : ℤ) : α) * (1 - r * n) := by
  have := h.eq
  push_cast
  linear_combination (n * c.b + p.b : α) * this

theorem pos_D {value : α} {maxDen : ℤ} {r : α} {p c : Frac} {m : ℕ} (h : Inv value maxDen r p c m) :
    (0 : α) < c.b + r * p.b := by
  have h1 : (1 : α) ≤ c.b := by exact_mod_cast h.cb
  have h2 : (0 : α) ≤ p.b := by exact_mod_cast h.pb
  have := mul_nonneg h.r0 h2
  linarith

/-- Error of the convergent and of the semiconvergent. -/
theorem err_c {value : α} {maxDen : ℤ} {r : α} {p c : Frac} {m : ℕ} (h : Inv value maxDen r p c m) :
    |value - c.val| = r / (c.b * (c.b + r * p.b)) := by
  have hD := pos_D h
  have hb : (0 : α) < c.b := by exact_mod_cast (by have := h.cb; omega : 0 < c.b)
  have hk := key_c h
  have e : value - c.val = -((c.a - value * c.b) / c.b) := by unfold Frac.val; field_simp; ring
  rw [e, abs_neg, abs_div, abs_of_pos hb, mul_comm (c.b : α) (_ + _), ← div_div]
  congr 1
  rw [eq_div_iff hD.ne', ← abs_of_pos hD, ← abs_mul, mul_comm, hk, abs_mul,
    abs_of_nonneg h.r0]
  rcases h.det with hd | hd <;> rw [hd] <;> simp

theorem err_s {value : α} {maxDen : ℤ} {r : α} {p c : Frac} {m : ℕ} (h : Inv value maxDen r p c m)
    (n : ℤ) (hn : r * n ≤ 1) (hb : 0 < n * c.b + p.b) :
    |value - (⟨n * c.a + p.a, n * c.b + p.b⟩ : Frac).val| =
      (1 - r * n) / ((n * c.b + p.b : ℤ) * (c.b + r * p.b)) := by
  have hD := pos_D h
  have hb' : (0 : α) < ((n * c.b + p.b : ℤ) : α) := by exact_mod_cast hb
  have hk := key_s h n
  unfold Frac.val
  simp only
  generalize n * c.b + p.b = sb at *
  generalize n * c.a + p.a = sa at *
  have e : value - (sa : α) / sb = (value * sb - sa) / sb := by field_simp
  rw [e, abs_div, abs_of_pos hb', mul_comm (sb : α) (_ + _), ← div_div]
  congr 1
  rw [eq_div_iff hD.ne', ← abs_of_pos hD, ← abs_mul, mul_comm, hk, abs_mul,
    abs_of_nonneg (by linarith : 0 ≤ 1 - r * n)]
  rcases h.det with hd | hd <;> rw [hd] <;> simp

/-- No admissible fraction lies strictly between the convergent and the last admissible
semiconvergent, so one of them is at least as close as any admissible fraction. -/
theorem best_of_two {value : α} {maxDen : ℤ} {r : α} {p c : Frac} {m : ℕ}
    (h : Inv value maxDen r p c m) (n : ℤ) (hn0 : 0 ≤ n) (hn : r * n ≤ 1)
    (hv : maxDen < (n + 1) * c.b + p.b ∨ 2 ^ 31 - 1 < (n + 1) * c.a + p.a) {a' b' : ℤ} (hb' : 1 ≤ b')
    (hbM : b' ≤ maxDen) (haM : a' ≤ 2 ^ 31 - 1) :
    |value - c.val| ≤ |value - (a' : α) / b'| ∨
      (0 < n * c.b + p.b ∧
        |value - (⟨n * c.a + p.a, n * c.b + p.b⟩ : Frac).val| ≤ |value - (a' : α) / b'|) := by
  have hD := pos_D h
  have hcb : (0 : α) < c.b := by exact_mod_cast (by have := h.cb; omega : 0 < c.b)
  have hbp : (0 : α) < b' := by exact_mod_cast (by omega : 0 < b')
  have hkc := key_c h
  have hks := key_s h n
  have hfirst := h.first
  have hdet := h.det
  have hcb1 := h.cb
  have hpb := h.pb
  have hncb : 0 ≤ n * c.b := mul_nonneg hn0 (by omega)
  have hnca : 0 ≤ n * c.a := mul_nonneg hn0 h.ca
  have hca := h.ca
  have hpa := h.pa
  have hr0 := h.r0
  obtain ⟨s, hs⟩ : ∃ s, s = c.a * p.b - p.a * c.b := ⟨_, rfl⟩
  rw [← hs] at hkc hks hfirst hdet
  have hss : s * s = 1 := by rcases hdet with h | h <;> rw [h] <;> rfl
  have hssα : (s : α) * s = 1 := by exact_mod_cast hss
  obtain ⟨u, hu⟩ : ∃ u, u = s * (a' * (n * c.b + p.b) - b' * (n * c.a + p.a)) := ⟨_, rfl⟩
  obtain ⟨w, hw⟩ : ∃ w, w = -(s * (a' * c.b - b' * c.a)) := ⟨_, rfl⟩
  have ea : a' = u * c.a + w * (n * c.a + p.a) := by
    rw [hu, hw]
    linear_combination (-a') * hss + a' * s * hs
  have eb : b' = u * c.b + w * (n * c.b + p.b) := by
    rw [hu, hw]
    linear_combination (-b') * hss + b' * s * hs
  -- sign facts
  have hsc : 0 ≤ (s : α) * (c.a - value * c.b) := by
    have : (c.b + r * p.b : α) * (s * (c.a - value * c.b)) = r := by
      linear_combination (s : α) * hkc + r * hssα
    by_contra hneg
    push Not at hneg
    have := mul_neg_of_pos_of_neg hD hneg
    linarith
  have hsv : 0 ≤ (s : α) * (value * ((n * c.b + p.b : ℤ) : α) - ((n * c.a + p.a : ℤ) : α)) := by
    have : (c.b + r * p.b : α) *
        (s * (value * ((n * c.b + p.b : ℤ) : α) - ((n * c.a + p.a : ℤ) : α))) = 1 - r * n := by
      linear_combination (s : α) * hks + (1 - r * n) * hssα
    by_contra hneg
    push Not at hneg
    have := mul_neg_of_pos_of_neg hD hneg
    linarith
  have habs : ∀ x : α, |x| = |(s : α) * x| := by
    intro x
    rcases hdet with h | h <;> rw [h] <;> simp
  by_cases hw0 : w ≤ 0
  · left
    -- beyond the convergent
    have h1 : 0 ≤ (s : α) * (a' * c.b - b' * c.a) := by
      have : 0 ≤ s * (a' * c.b - b' * c.a) := by omega
      exact_mod_cast this
    have h2 : 0 ≤ (s : α) * ((a' : α) / b' - c.val) := by
      have e : (s : α) * ((a' : α) / b' - c.val) = (s : α) * (a' * c.b - b' * c.a) / (b' * c.b) := by
        unfold Frac.val; field_simp
      rw [e]; positivity
    have h3 : 0 ≤ (s : α) * (c.val - value) := by
      have e : (s : α) * (c.val - value) = (s : α) * (c.a - value * c.b) / c.b := by
        unfold Frac.val; field_simp
      rw [e]; positivity
    rw [habs (value - c.val), habs (value - (a' : α) / b'), ← abs_neg, ← abs_neg ((s : α) * (_ - (a' : α) / b'))]
    have e1 : -((s : α) * (value - c.val)) = s * (c.val - value) := by ring
    have e2 : -((s : α) * (value - (a' : α) / b')) = s * ((a' : α) / b' - value) := by ring
    rw [e1, e2, abs_of_nonneg h3]
    refine le_trans ?_ (le_abs_self _)
    linear_combination h2
  · by_cases hu0 : u ≤ 0
    · right
      have hsb : 0 < n * c.b + p.b := by
        by_contra hz
        have hz' : n * c.b + p.b = 0 := by omega
        have hp0 : p.b = 0 := by omega
        have hs1 := hfirst hp0
        rw [hz', hs1] at hu
        have hpos : 0 < n * c.a + p.a := by
          by_contra hq
          have : n * c.a = 0 ∧ p.a = 0 := by omega
          rw [this.2, hp0] at hs
          simp at hs; omega
        have := mul_pos (show 0 < b' by omega) hpos
        omega
      refine ⟨hsb, ?_⟩
      have hsbα : (0 : α) < ((n * c.b + p.b : ℤ) : α) := by exact_mod_cast hsb
      generalize n * c.b + p.b = sb at *
      generalize n * c.a + p.a = sa at *
      have h1 : (s : α) * (a' * sb - b' * sa) ≤ 0 := by
        have : s * (a' * sb - b' * sa) ≤ 0 := by omega
        exact_mod_cast this
      have h2 : (s : α) * ((a' : α) / b' - (⟨sa, sb⟩ : Frac).val) ≤ 0 := by
        have e : (s : α) * ((a' : α) / b' - (⟨sa, sb⟩ : Frac).val) =
            (s : α) * (a' * sb - b' * sa) / (b' * sb) := by
          unfold Frac.val; field_simp
        rw [e]
        exact div_nonpos_of_nonpos_of_nonneg h1 (by positivity)
      have h3 : 0 ≤ (s : α) * (value - (⟨sa, sb⟩ : Frac).val) := by
        have e : (s : α) * (value - (⟨sa, sb⟩ : Frac).val) = (s : α) * (value * sb - sa) / sb := by
          unfold Frac.val; field_simp
        rw [e]; positivity
      rw [habs (value - (⟨sa, sb⟩ : Frac).val), habs (value - (a' : α) / b'), abs_of_nonneg h3]
      refine le_trans ?_ (le_abs_self _)
      linear_combination h2
    · exfalso
      have hu1 : 1 ≤ u := by omega
      have hw1 : 1 ≤ w := by omega
      have a1 : c.a ≤ u * c.a := le_mul_of_one_le_left hca hu1
      have a2 : n * c.a + p.a ≤ w * (n * c.a + p.a) := le_mul_of_one_le_left (by omega) hw1
      have b1 : c.b ≤ u * c.b := le_mul_of_one_le_left (by omega) hu1
      have b2 : n * c.b + p.b ≤ w * (n * c.b + p.b) := le_mul_of_one_le_left (by omega) hw1
      rw [add_mul, add_mul] at hv
      omega

/-- `2n + 1 ≤ 1/r`: the convergent is at least as close as the semiconvergent. -/
theorem c_better {value : α} {maxDen : ℤ} {r : α} {p c : Frac} {m : ℕ} (h : Inv value maxDen r p c m)
    (n : ℤ) (hn0 : 0 ≤ n) (hn : r * (2 * n + 1) ≤ 1) (hb : 0 < n * c.b + p.b) :
    |value - c.val| ≤ |value - (⟨n * c.a + p.a, n * c.b + p.b⟩ : Frac).val| := by
  have hnα : (0 : α) ≤ n := by exact_mod_cast hn0
  have hr := h.r0
  have hrn : 0 ≤ r * n := mul_nonneg hr hnα
  rw [err_c h, err_s h n (by linarith) hb]
  have hD := pos_D h
  have hcb : (0 : α) < c.b := by exact_mod_cast (by have := h.cb; omega : 0 < c.b)
  have hb' : (0 : α) < ((n * c.b + p.b : ℤ) : α) := by exact_mod_cast hb
  rw [← div_div, ← div_div]
  apply div_le_div_of_nonneg_right _ hD.le
  rw [div_le_div_iff₀ hcb hb']
  push_cast
  have hpc : (p.b : α) ≤ c.b := by exact_mod_cast h.pc
  have h1 : r * p.b ≤ r * c.b := mul_le_mul_of_nonneg_left hpc hr
  have h2 : r * (2 * n + 1) * c.b ≤ 1 * c.b := mul_le_mul_of_nonneg_right hn hcb.le
  linarith

/-- `2n ≥ 1/r`: the semiconvergent is at least as close as the convergent. -/
theorem s_better {value : α} {maxDen : ℤ} {r : α} {p c : Frac} {m : ℕ} (h : Inv value maxDen r p c m)
    (n : ℤ) (hn : r * n ≤ 1) (hn2 : 1 ≤ r * (2 * n)) (hb : 0 < n * c.b + p.b) :
    |value - (⟨n * c.a + p.a, n * c.b + p.b⟩ : Frac).val| ≤ |value - c.val| := by
  have hr := h.r0
  rw [err_c h, err_s h n hn hb]
  have hD := pos_D h
  have hcb : (0 : α) < c.b := by exact_mod_cast (by have := h.cb; omega : 0 < c.b)
  have hb' : (0 : α) < ((n * c.b + p.b : ℤ) : α) := by exact_mod_cast hb
  rw [← div_div, ← div_div]
  apply div_le_div_of_nonneg_right _ hD.le
  rw [div_le_div_iff₀ hb' hcb]
  push_cast
  have hpb : (0 : α) ≤ p.b := by exact_mod_cast h.pb
  have h1 : 0 ≤ r * p.b := mul_nonneg hr hpb
  have h2 : 1 * c.b ≤ r * (2 * n) * c.b := mul_le_mul_of_nonneg_right hn2 hcb.le
  linarith

/-- What we want of a result for a nonnegative value. -/
structure Best (value : α) (maxDen : ℤ) (f : Frac) : Prop where
  a0 : 0 ≤ f.a
  aM : f.a ≤ 2 ^ 31 - 1
  b1 : 1 ≤ f.b
  bM : f.b ≤ maxDen
  red : Int.gcd f.a f.b = 1
  opt : ∀ a' b' : ℤ, 1 ≤ b' → b' ≤ maxDen → a' ≤ 2 ^ 31 - 1 → |value - f.val| ≤ |value - (a' : α) / b'|

theorem gcd_of_det {a b x y : ℤ} (h : a * x - y * b = 1 ∨ a * x - y * b = -1) : Int.gcd a b = 1 := by
  rw [← Int.isCoprime_iff_gcd_eq_one]
  rcases h with h | h
  · exact ⟨x, -y, by linear_combination h⟩
  · exact ⟨-x, y, by linear_combination -h⟩

theorem Inv.best_c {value : α} {maxDen : ℤ} {r : α} {p c : Frac} {m : ℕ} (h : Inv value maxDen r p c m)
    (hopt : ∀ a' b' : ℤ, 1 ≤ b' → b' ≤ maxDen → a' ≤ 2 ^ 31 - 1 →
      |value - c.val| ≤ |value - (a' : α) / b'|) : Best value maxDen c :=
  ⟨h.ca, h.caM, h.cb, h.cbM, gcd_of_det h.det, hopt⟩

/-- The `return` inside the loop. -/
theorem converged_best {value : α} {maxDen : ℤ} {r tol : α} {p c : Frac} {m : ℕ}
    (h : Inv value maxDen r p c m) (hM : maxDen ≤ 2 ^ 31 - 1) (hr : r ≤ tol)
    (htol : tol * (2 * maxDen + 1) ≤ 1) : Best value maxDen c := by
  apply h.best_c
  intro a' b' hb' hbM haM
  have hcbM := h.cbM
  obtain ⟨n, _, n0, _, _, nM, hv⟩ :=
    bound_spec (maxDen := maxDen) (p := p) (c := c) hM h.pb (h.pc.trans h.cbM) h.cb h.ca h.pa h.paM
  have hnα : (0 : α) ≤ n := by exact_mod_cast n0
  have hn1 : (n : α) ≤ maxDen := by exact_mod_cast nM
  have h1 : r * (2 * n + 1) ≤ 1 := by
    have : r * (2 * n + 1) ≤ tol * (2 * maxDen + 1) :=
      mul_le_mul hr (by linarith) (by linarith) (h.r0.trans hr)
    linarith
  have h2 : r * n ≤ 1 := by have := mul_nonneg h.r0 hnα; have := h.r0; linarith
  rcases best_of_two h n n0 h2 hv hb' hbM haM with hl | ⟨hb, hs⟩
  · exact hl
  · exact (c_better h n n0 h1 hb).trans hs

/-- After the loop. -/
theorem finish_best {value : α} {maxDen : ℤ} {r : α} {p c : Frac} {m : ℕ}
    (h : Inv value maxDen r p c m) (hM : maxDen ≤ 2 ^ 31 - 1) (hr : 0 < r) {n : ℤ}
    (hn : bound maxDen p c = some n) (hle : n ≤ ⌊1 / r⌋) :
    ∃ f, finish value n ⌊1 / r⌋ p c = some f ∧ Best value maxDen f := by
  obtain ⟨n', e, n0, nb, na, nM, hv⟩ :=
    bound_spec (maxDen := maxDen) (p := p) (c := c) hM h.pb (h.pc.trans h.cbM) h.cb h.ca h.pa h.paM
  rw [hn] at e
  cases e
  obtain ⟨t1, t2, t3⟩ := floor_recip hr h.r1
  generalize ⌊1 / r⌋ = t at *
  have hnα : (0 : α) ≤ n := by exact_mod_cast n0
  have hrn : r * n ≤ 1 := by
    have : r * n ≤ r * t := mul_le_mul_of_nonneg_left (by exact_mod_cast hle) hr.le
    linarith
  have hbest := fun (a' b' : ℤ) h1 h2 h3 => best_of_two h n n0 hrn hv (a' := a') (b' := b') h1 h2 h3
  unfold finish
  simp only
  split
  · rename_i hge
    have hn2 : t ≤ 2 * n := by
      have : (t : α) ≤ 2 * n := by linarith
      exact_mod_cast this
    have hn1 : 1 ≤ n := by omega
    have hncb : c.b ≤ n * c.b := le_mul_of_one_le_left (by have := h.cb; omega) hn1
    have hncb' := h.cb
    have hpb := h.pb
    have hsb : 0 < n * c.b + p.b := by omega
    rw [if_neg (by omega)]
    have happ := append_spec (c := c) (p := p) n0 (by omega) h.ca h.pb h.pa (by omega) (by omega)
    simp only [Option.bind_eq_bind, Option.bind_some, happ]
    refine ⟨_, rfl, ?_⟩
    split
    · rename_i hcond
      have hsc : |value - (⟨n * c.a + p.a, n * c.b + p.b⟩ : Frac).val| ≤ |value - c.val| := by
        rcases hcond with hc | hc
        · apply s_better h n hrn _ hsb
          have h2 : t + 1 ≤ 2 * n := by
            have : (t : α) < 2 * n := by linarith
            have : t < 2 * n := by exact_mod_cast this
            omega
          have h2' : (t : α) + 1 ≤ 2 * n := by exact_mod_cast h2
          have := mul_le_mul_of_nonneg_left h2' hr.le
          linarith
        · exact hc.le
      refine ⟨?_, by simpa using na, by simp only; omega, by simpa using nb, ?_, ?_⟩
      · simp only
        have := mul_nonneg n0 h.ca
        have := h.pa
        omega
      · apply gcd_of_det (x := c.b) (y := c.a)
        have e : (n * c.a + p.a) * c.b - c.a * (n * c.b + p.b) = -(c.a * p.b - p.a * c.b) := by ring
        simp only
        rw [e]
        rcases h.det with h | h <;> rw [h] <;> simp
      · intro a' b' h1 h2 h3
        rcases hbest a' b' h1 h2 h3 with hl | ⟨_, hs⟩
        · exact hsc.trans hl
        · exact hs
    · rename_i hcond
      push Not at hcond
      apply h.best_c
      intro a' b' h1 h2 h3
      rcases hbest a' b' h1 h2 h3 with hl | ⟨_, hs⟩
      · exact hl
      · exact hcond.2.trans hs
  · rename_i hge
    refine ⟨c, rfl, ?_⟩
    apply h.best_c
    intro a' b' h1 h2 h3
    rcases hbest a' b' h1 h2 h3 with hl | ⟨hb, hs⟩
    · exact hl
    · refine (c_better h n n0 ?_ hb).trans hs
      have hlt : 2 * n + 1 ≤ t := by
        push Not at hge
        have : 2 * (n : α) < t := by linarith
        have : 2 * n < t := by exact_mod_cast this
        omega
      have hlt' : 2 * (n : α) + 1 ≤ t := by exact_mod_cast hlt
      have := mul_le_mul_of_nonneg_left hlt' hr.le
      linarith

/-- What the loop and the code after it do, for a nonnegative value. -/
def run (tol : α) (maxDen : ℤ) (left : ℕ) (recip : α) (term : ℤ) (p c : Frac) (value : α) :
    Option Frac := do
  match ← loop tol maxDen left recip term p c with
  | .converged c => return c
  | .truncated n term p c => finish value n term p c

theorem fib46 : Nat.fib 46 = 1836311903 := by decide +kernel
theorem fib45 : Nat.fib 45 = 1134903170 := by decide +kernel

/-- `P` holds of the result if it holds of every convergent with a residual within the tolerance and
of every best approximation. -/
theorem run_ind {value tol : α} {maxDen : ℤ} (hM : maxDen ≤ 2 ^ 31 - 1) (htol0 : 0 ≤ tol)
    (P : Frac → Prop) (hconv : ∀ r p c m, Inv value maxDen r p c m → r ≤ tol → P c)
    (hbest : ∀ f, Best value maxDen f → P f)
    (left m : ℕ) (hlm : 46 ≤ left + m) (recip : α) (term : ℤ)
    (p c : Frac) (h : Inv value maxDen (recip - term) p c m) :
    ∃ f, run tol maxDen left recip term p c value = some f ∧ P f := by
  induction left generalizing m recip term p c with
  | zero =>
    unfold run loop
    simp only
    split
    · rename_i hc
      exact ⟨c, rfl, hconv _ _ _ _ h ((le_abs_self _).trans hc)⟩
    · rename_i hc
      have hr : 0 < recip - (term : α) := by
        rcases lt_or_eq_of_le h.r0 with h1 | h1
        · exact h1
        · exfalso; apply hc; rw [← h1, abs_zero]; exact htol0
      obtain ⟨n, e, n0, nb, na, nM, hv⟩ :=
        bound_spec (maxDen := maxDen) (p := p) (c := c) hM h.pb (h.pc.trans h.cbM) h.cb h.ca h.pa h.paM
      obtain ⟨t1, _, _⟩ := floor_recip hr h.r1
      have hn0 : n = 0 := by
        by_contra hne
        have hn1 : 1 ≤ n := by omega
        have : c.b ≤ n * c.b := le_mul_of_one_le_left (by have := h.cb; omega) hn1
        have f1 : (Nat.fib 46 : ℤ) ≤ Nat.fib m := by exact_mod_cast Nat.fib_mono (by omega)
        have f2 : (Nat.fib 45 : ℤ) ≤ Nat.fib (m - 1) := by exact_mod_cast Nat.fib_mono (by omega)
        rw [fib46] at f1
        rw [fib45] at f2
        have := h.fibc
        have := h.fibp
        push_cast at f1 f2
        omega
      obtain ⟨f, f1, f2⟩ := finish_best h hM hr e (by omega)
      refine ⟨f, ?_, hbest f f2⟩
      rw [e]
      exact f1
  | succ left ih =>
    unfold run loop
    simp only
    split
    · rename_i hc
      exact ⟨c, rfl, hconv _ _ _ _ h ((le_abs_self _).trans hc)⟩
    · rename_i hc
      have hr : 0 < recip - (term : α) := by
        rcases lt_or_eq_of_le h.r0 with h1 | h1
        · exact h1
        · exfalso; apply hc; rw [← h1, abs_zero]; exact htol0
      obtain ⟨n, e, n0, nb, na, nM, hv⟩ :=
        bound_spec (maxDen := maxDen) (p := p) (c := c) hM h.pb (h.pc.trans h.cbM) h.cb h.ca h.pa h.paM
      obtain ⟨t1, _, _⟩ := floor_recip hr h.r1
      simp only [e, Option.bind_eq_bind, Option.bind_some]
      by_cases ht : ⌊1 / (recip - (term : α))⌋ ≥ n
      · rw [if_pos ht]
        obtain ⟨f, f1, f2⟩ := finish_best h hM hr e ht
        exact ⟨f, f1, hbest f f2⟩
      · rw [if_neg ht]
        have hcb := h.cb
        have b1 : ⌊1 / (recip - (term : α))⌋ * c.b ≤ n * c.b :=
          mul_le_mul_of_nonneg_right (by omega) (by omega)
        have a1 : ⌊1 / (recip - (term : α))⌋ * c.a ≤ n * c.a :=
          mul_le_mul_of_nonneg_right (by omega) h.ca
        have happ := append_spec (c := c) (p := p) (t := ⌊1 / (recip - (term : α))⌋) (by omega)
          (by omega) h.ca h.pb h.pa (by omega) (by omega)
        have hstep := h.step hr (by omega) (by omega)
        obtain ⟨f, f1, f2⟩ := ih (m + 1) (by omega) _ _ _ _ hstep
        refine ⟨f, ?_, f2⟩
        rw [happ]
        exact f1

end Verif.RationalApproximation
