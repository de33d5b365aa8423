import Verif.Model.NumberUtil
import Mathlib.Algebra.Order.Floor.Div
import Mathlib.Data.Int.GCD
import Mathlib.Tactic.Ring
import Mathlib.Tactic.LinearCombination

/-!
# C12: integer helpers

`v`, `m` range over all values of a 32-bit `int` (`IsInt`). `v / m` and `v % m` on `ℤ` with `m > 0`
are the floor quotient and the remainder in `0..m-1`.
-/

namespace Verif.NumberUtil

/-- Representable as `int`. -/
def IsInt (x : ℤ) : Prop := intMin ≤ x ∧ x ≤ intMax

theorem ck_some {x : ℤ} (h1 : -2 ^ 31 ≤ x) (h2 : x ≤ 2 ^ 31 - 1) : ck x = some x := by
  unfold ck intMin intMax; rw [if_pos ⟨h1, h2⟩]

theorem ck_none {x : ℤ} (h : x < -2 ^ 31 ∨ 2 ^ 31 - 1 < x) : ck x = none := by
  unfold ck intMin intMax; rw [if_neg (by omega)]

/-- `(-v - 1) tmod m` for negative `v`. -/
theorem neg_tmod {v m : ℤ} (hv : v < 0) (hm : 0 < m) : (-v - 1).tmod m = m - 1 - v % m := by
  rw [Int.tmod_eq_emod_of_nonneg (by omega)]
  have h1 := Int.emod_nonneg v (by omega : m ≠ 0)
  have h2 := Int.emod_lt_of_pos v hm
  have h3 := Int.mul_ediv_add_emod v m
  have : -v - 1 = (m - 1 - v % m) + m * (-(v / m) - 1) := by linear_combination h3
  rw [this, Int.add_mul_emod_self_left]
  exact Int.emod_eq_of_lt (by omega) (by omega)

/-- **C12**: `Modulo(value, modulus)` is `value - floor(value / modulus) * modulus`, in
`{0, …, modulus - 1}`; the only undefined case is `value = INT_MIN`. -/
theorem C12_modulo {v m : ℤ} (hv : IsInt v) (hm : IsInt m) (h0 : 0 < m) :
    (v ≠ intMin → modulo v m = some (v - v / m * m) ∧ 0 ≤ v - v / m * m ∧ v - v / m * m < m) ∧
      (v = intMin → modulo v m = none) := by
  obtain ⟨v1, v2⟩ := hv
  obtain ⟨m1, m2⟩ := hm
  simp only [intMin, intMax] at *
  have e : v - v / m * m = v % m := by have := Int.mul_ediv_add_emod v m; linarith
  have h1 := Int.emod_nonneg v (by omega : m ≠ 0)
  have h2 := Int.emod_lt_of_pos v h0
  constructor
  · intro hne
    rw [e]
    refine ⟨?_, h1, h2⟩
    unfold modulo
    simp only [Option.bind_eq_bind]
    split
    · rename_i hlt
      rw [ck_some (by omega) (by omega), Option.bind_some,
        ck_some (by omega) (by omega), Option.bind_some,
        ck_some (by omega) (by omega), Option.bind_some, neg_tmod hlt h0,
        ck_some (by omega) (by omega)]
      congr 1; omega
    · rw [Int.tmod_eq_emod_of_nonneg (by omega)]
  · intro he
    unfold modulo
    rw [if_pos (by omega), ck_none (by omega)]; rfl

/-- **C12**: `RoundDownToMultiple(value, factor)` is `floor(value / factor) * factor`; it is undefined
exactly when `value < 0` and `value - factor` is not representable. -/
theorem C12_roundDown {v m : ℤ} (hv : IsInt v) (hm : IsInt m) (h0 : 0 < m) :
    ((0 ≤ v ∨ intMin ≤ v - m) → roundDown v m = some (v / m * m)) ∧
      (¬ (0 ≤ v ∨ intMin ≤ v - m) → roundDown v m = none) := by
  obtain ⟨v1, v2⟩ := hv
  obtain ⟨m1, m2⟩ := hm
  simp only [intMin, intMax] at *
  have e : v / m * m = v - v % m := by have := Int.mul_ediv_add_emod v m; linarith
  have h1 := Int.emod_nonneg v (by omega : m ≠ 0)
  have h2 := Int.emod_lt_of_pos v h0
  constructor
  · intro hne
    rw [e]
    unfold roundDown
    simp only [Option.bind_eq_bind]
    split
    · rename_i hlt
      rw [ck_some (by omega) (by omega), Option.bind_some,
        ck_some (by omega) (by omega), Option.bind_some,
        ck_some (by omega) (by omega), Option.bind_some,
        ck_some (by omega) (by omega), Option.bind_some, neg_tmod hlt h0,
        ck_some (by omega) (by omega)]
      congr 1; omega
    · have h3 : 0 ≤ v := by omega
      have := Int.mul_ediv_add_emod v m
      have h4 : v % m ≤ v := by
        by_contra hcon
        have := Int.emod_eq_of_lt (a := v) (b := m) (by omega) (by omega)
        omega
      rw [Int.tmod_eq_emod_of_nonneg h3, ck_some (by omega) (by omega)]
  · intro he
    unfold roundDown
    rw [if_pos (by omega), ck_none (by omega)]; rfl

/-- **C12**: `RoundUpToMultiple(value, factor)` is `ceil(value / factor) * factor`; it is undefined
exactly when `value = INT_MIN` or `value > 0` and `value + factor` is not representable. -/
theorem C12_roundUp {v m : ℤ} (hv : IsInt v) (hm : IsInt m) (h0 : 0 < m) :
    ((v ≠ intMin ∧ (v ≤ 0 ∨ v + m ≤ intMax)) → roundUp v m = some (-(-v / m) * m)) ∧
      (¬ (v ≠ intMin ∧ (v ≤ 0 ∨ v + m ≤ intMax)) → roundUp v m = none) := by
  obtain ⟨v1, v2⟩ := hv
  obtain ⟨m1, m2⟩ := hm
  simp only [intMin, intMax] at *
  have e : -(-v / m) * m = v + (-v) % m := by have := Int.mul_ediv_add_emod (-v) m; linarith
  have h1 := Int.emod_nonneg (-v) (by omega : m ≠ 0)
  have h2 := Int.emod_lt_of_pos (-v) h0
  constructor
  · rintro ⟨hne, hc⟩
    rw [e]
    unfold roundUp
    simp only [Option.bind_eq_bind]
    split
    · have h3 : (-v) % m ≤ -v := by
        by_contra hcon
        have := Int.emod_eq_of_lt (a := -v) (b := m) (by omega) (by omega)
        omega
      rw [ck_some (by omega) (by omega), Option.bind_some,
        Int.tmod_eq_emod_of_nonneg (by omega), ck_some (by omega) (by omega)]
    · have := neg_tmod (v := -v) (m := m) (by omega) h0
      rw [neg_neg] at this
      rw [ck_some (by omega) (by omega), Option.bind_some,
        ck_some (by omega) (by omega), Option.bind_some,
        ck_some (by omega) (by omega), Option.bind_some, this,
        ck_some (by omega) (by omega)]
      congr 1; omega
  · intro he
    unfold roundUp
    by_cases hlt : v < 1
    · rw [if_pos hlt, ck_none (by omega)]; rfl
    · rw [if_neg hlt, ck_none (by omega)]; rfl

/-- The result of `RoundUpToMultiple` is the least multiple of `factor` that is not below `value`. -/
theorem C12_roundUp_least {v m r : ℤ} (hv : IsInt v) (hm : IsInt m) (h0 : 0 < m)
    (h : roundUp v m = some r) : m ∣ r ∧ v ≤ r ∧ ∀ s, m ∣ s → v ≤ s → r ≤ s := by
  have key := C12_roundUp hv hm h0
  by_cases hc : v ≠ intMin ∧ (v ≤ 0 ∨ v + m ≤ intMax)
  · have hr := key.1 hc
    rw [h] at hr
    cases hr
    have e : -(-v / m) * m = v + (-v) % m := by have := Int.mul_ediv_add_emod (-v) m; linarith
    have h1 := Int.emod_nonneg (-v) (by omega : m ≠ 0)
    have h2 := Int.emod_lt_of_pos (-v) h0
    refine ⟨Dvd.intro_left _ rfl, by rw [e]; omega, ?_⟩
    rintro s ⟨t, rfl⟩ hs
    by_contra hlt
    push Not at hlt
    have : t < -(-v / m) := by
      rw [mul_comm] at hlt; exact lt_of_mul_lt_mul_right hlt h0.le
    have : t ≤ -(-v / m) - 1 := by omega
    have : t * m ≤ (-(-v / m) - 1) * m := mul_le_mul_of_nonneg_right this h0.le
    have e2 : (-(-v / m) - 1) * m = -(-v / m) * m - m := by ring
    rw [e2, e] at this
    rw [mul_comm] at hs
    omega
  · rw [key.2 hc] at h; cases h

theorem gcdLoop_eq (a b : ℤ) (ha : 0 ≤ a) (hb : 0 ≤ b) : gcdLoop a b = Int.gcd a b := by
  induction a, b using gcdLoop.induct with
  | case1 a => unfold gcdLoop; simp [abs_of_nonneg ha]
  | case2 a b h ih =>
    unfold gcdLoop
    rw [dif_neg h, Int.tmod_eq_emod_of_nonneg ha] at *
    rw [ih hb (Int.emod_nonneg _ h), Int.gcd_comm, ← Int.gcd_emod a b, Int.gcd_comm]
    all_goals first | rfl | skip

/-- **C12**: `GreatestCommonDivisor(a, b)` is the greatest common divisor (and `a` or `b` if the other
is zero). -/
theorem C12_gcd {a b : ℤ} (ha : 0 ≤ a) (hb : 0 ≤ b) :
    gcdLoop a b ∣ a ∧ gcdLoop a b ∣ b ∧ 0 ≤ gcdLoop a b ∧ ∀ d, d ∣ a → d ∣ b → d ∣ gcdLoop a b := by
  rw [gcdLoop_eq a b ha hb]
  exact ⟨Int.gcd_dvd_left .., Int.gcd_dvd_right .., by positivity, fun d h1 h2 => Int.dvd_coe_gcd h1 h2⟩

/-- **C12**: the vector version is the nonnegative number that divides every element and that every
common divisor divides. -/
theorem C12_gcd_vector {l : List ℤ} (hl : l ≠ []) (h : ∀ x ∈ l, 0 ≤ x) :
    ∃ g, gcdVector l = some g ∧ 0 ≤ g ∧ (∀ x ∈ l, g ∣ x) ∧ ∀ d, (∀ x ∈ l, d ∣ x) → d ∣ g := by
  have key : ∀ (as : List ℤ) (a : ℤ), 0 ≤ a → (∀ x ∈ as, 0 ≤ x) → 0 ≤ as.foldl gcdLoop a ∧
      (∀ x ∈ a :: as, as.foldl gcdLoop a ∣ x) ∧ ∀ d, (∀ x ∈ a :: as, d ∣ x) → d ∣ as.foldl gcdLoop a := by
    intro as
    induction as with
    | nil => intro a ha _; simpa using ha
    | cons b bs ih =>
      intro a ha hb
      obtain ⟨g1, g2, g3, g4⟩ := C12_gcd ha (hb b (by simp))
      obtain ⟨i0, i1, i2⟩ := ih (gcdLoop a b) g3 (fun x hx => hb x (by simp [hx]))
      have hg := i1 _ (List.mem_cons_self)
      refine ⟨i0, ?_, ?_⟩
      · intro x hx
        rcases List.mem_cons.mp hx with rfl | hx
        · exact hg.trans g1
        · rcases List.mem_cons.mp hx with rfl | hx
          · exact hg.trans g2
          · exact i1 x (by simp [hx])
      · intro d hd
        apply i2
        intro x hx
        rcases List.mem_cons.mp hx with rfl | hx
        · exact g4 d (hd a (by simp)) (hd b (by simp))
        · exact hd x (by simp [hx])
  cases l with
  | nil => exact absurd rfl hl
  | cons a as => exact ⟨_, rfl, key as a (h a (by simp)) (fun x hx => h x (by simp [hx]))⟩

/-- **C12**: `IsPowerOfTwoOrZero`. -/
theorem C12_isPowerOfTwoOrZero (v : BitVec 32) :
    isPowerOfTwoOrZero v = true ↔ v.toNat = 0 ∨ ∃ k, v.toNat = 2 ^ k := by
  unfold isPowerOfTwoOrZero
  rw [beq_iff_eq, ← BitVec.toNat_inj, BitVec.toNat_and]
  by_cases h : v.toNat = 0
  · simp [h]
  · have : (v - 1).toNat = v.toNat - 1 := by
      have := v.isLt
      rw [BitVec.toNat_sub]
      simp
      omega
    rw [this]
    have := Nat.and_sub_one_eq_zero_iff_isPowerOfTwo h
    rw [show (0 : BitVec 32).toNat = 0 by rfl, this, Nat.isPowerOfTwo]
    simp [h]

theorem log2Loop_spec (v : ℕ) (r : ℤ) (hv : 0 < v) :
    ∃ e : ℕ, log2Loop v r = r + e ∧ 2 ^ e ≤ v ∧ v < 2 ^ (e + 1) := by
  induction v, r using log2Loop.induct with
  | case1 v r h ih =>
    have h2 : v >>> 1 = v / 2 := by rw [Nat.shiftRight_eq_div_pow]
    obtain ⟨e, e1, e2, e3⟩ := ih (by omega)
    rw [h2] at e1 e2 e3
    refine ⟨e + 1, ?_, ?_, ?_⟩
    · unfold log2Loop; rw [if_pos h, h2, e1]; push_cast; ring
    · rw [pow_succ]; omega
    · rw [pow_succ]; omega
  | case2 v r h =>
    refine ⟨0, ?_, by omega, by omega⟩
    unfold log2Loop; rw [if_neg h]; simp

/-- **C12**: `Log2Floor(value) = floor(log2(value))`, and `-1` for zero. -/
theorem C12_log2Floor (v : BitVec 32) :
    (v.toNat = 0 → log2Floor v = -1) ∧
    (v.toNat ≠ 0 → ∃ e : ℕ, log2Floor v = e ∧ 2 ^ e ≤ v.toNat ∧ v.toNat < 2 ^ (e + 1)) := by
  constructor
  · intro h
    have : v = 0 := by rw [← BitVec.toNat_inj]; exact h
    unfold log2Floor; rw [if_pos this]
  · intro h
    have : v ≠ 0 := by intro hc; apply h; rw [hc]; rfl
    unfold log2Floor; rw [if_neg this]
    obtain ⟨e, e1, e2, e3⟩ := log2Loop_spec v.toNat 0 (by omega)
    exact ⟨e, by rw [e1]; simp, e2, e3⟩

/-- **C12**: `Log2Ceiling(value) = ceil(log2(value))`: the least `e` with `value ≤ 2^e`. -/
theorem C12_log2Ceiling (v : BitVec 32) (h : v.toNat ≠ 0) :
    ∃ e : ℕ, log2Ceiling v = e ∧ v.toNat ≤ 2 ^ e ∧ ∀ d, v.toNat ≤ 2 ^ d → e ≤ d := by
  obtain ⟨e, e1, e2, e3⟩ := (C12_log2Floor v).2 h
  unfold log2Ceiling
  by_cases hp : isPowerOfTwoOrZero v = true
  · rw [if_pos hp]
    rcases (C12_isPowerOfTwoOrZero v).mp hp with h0 | ⟨k, hk⟩
    · exact absurd h0 h
    · have hke : k = e := by
        rw [hk] at e2 e3
        have a := (Nat.pow_le_pow_iff_right (by omega : 1 < 2)).mp e2
        have b := (Nat.pow_lt_pow_iff_right (by omega : 1 < 2)).mp e3
        omega
      refine ⟨e, e1, by rw [hk, hke], ?_⟩
      intro d hd
      rw [hk] at hd
      have := (Nat.pow_le_pow_iff_right (by omega : 1 < 2)).mp hd
      omega
  · rw [if_neg hp]
    refine ⟨e + 1, by rw [e1]; push_cast; ring, by omega, ?_⟩
    intro d hd
    by_contra hcon
    have hde : 2 ^ d ≤ 2 ^ e := Nat.pow_le_pow_right (by omega) (by omega)
    have : v.toNat = 2 ^ e := by omega
    exact hp ((C12_isPowerOfTwoOrZero v).mpr (Or.inr ⟨e, this⟩))

/-- **C12**: `NextPowerOfTwo(value)` is the least power of two that is at least `value`, for every
`value` in `1..2^31`; outside it is undefined. -/
theorem C12_nextPowerOfTwo (v : BitVec 32) :
    (1 ≤ v.toNat ∧ v.toNat ≤ 2 ^ 31 → ∃ r e, nextPowerOfTwo v = some r ∧ r.toNat = 2 ^ e ∧
      v.toNat ≤ r.toNat ∧ ∀ d, v.toNat ≤ 2 ^ d → r.toNat ≤ 2 ^ d) ∧
    (¬ (1 ≤ v.toNat ∧ v.toNat ≤ 2 ^ 31) → nextPowerOfTwo v = none) := by
  constructor
  · rintro ⟨h1, h2⟩
    obtain ⟨e, e1, e2, e3⟩ := C12_log2Ceiling v (by omega)
    have he := e3 31 h2
    have hlt : 2 ^ e < 2 ^ 32 := Nat.pow_lt_pow_right (by omega) (by omega)
    have hr : (1#32 <<< e).toNat = 2 ^ e := by
      rw [BitVec.toNat_shiftLeft, Nat.shiftLeft_eq]
      simp
      exact hlt
    refine ⟨1#32 <<< e, e, ?_, hr, by rw [hr]; exact e2, ?_⟩
    · unfold nextPowerOfTwo
      simp only [e1]
      rw [if_pos (by omega)]; simp
    · intro d hd
      rw [hr]
      exact Nat.pow_le_pow_right (by omega) (e3 d hd)
  · intro h
    unfold nextPowerOfTwo
    simp only
    rw [if_neg]
    rintro ⟨a, b⟩
    by_cases h0 : v.toNat = 0
    · have : log2Ceiling v = -1 := by
        unfold log2Ceiling
        rw [if_pos ((C12_isPowerOfTwoOrZero v).mpr (Or.inl h0)), (C12_log2Floor v).1 h0]
      omega
    · obtain ⟨e, e1, e2, _⟩ := C12_log2Ceiling v h0
      have : 2 ^ e ≤ 2 ^ 31 := Nat.pow_le_pow_right (by omega) (by omega)
      omega

/-- Concrete values. -/
example : modulo (-7) 3 = some 2 ∧ roundDown (-7) 3 = some (-9) ∧ roundUp 7 3 = some 9 ∧
    gcdLoop 12 18 = 6 ∧ log2Floor 1000 = 9 ∧ log2Ceiling 1000 = 10 ∧
    nextPowerOfTwo 1000 = some 1024 ∧ modulo intMin 3 = none := by decide +kernel

end Verif.NumberUtil
