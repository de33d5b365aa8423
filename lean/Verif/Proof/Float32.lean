import Verif.Model.Float32
import Mathlib.Tactic.Linarith
import Mathlib.Tactic.FieldSimp
import Mathlib.Tactic.NormNum
import Mathlib.Tactic.Positivity
import Mathlib.Algebra.Order.Field.Basic

namespace Verif.Float32

theorem rhe_cases (q : ℚ) :
    (roundHalfEven q = ⌊q⌋ ∧ q - ⌊q⌋ ≤ 1 / 2) ∨ (roundHalfEven q = ⌊q⌋ + 1 ∧ 1 / 2 ≤ q - ⌊q⌋) := by
  unfold roundHalfEven
  dsimp only
  split_ifs with h1 h2 h3
  · left; exact ⟨rfl, h1.le⟩
  · right; exact ⟨rfl, h2.le⟩
  · left; exact ⟨rfl, by linarith⟩
  · right; exact ⟨rfl, by linarith⟩

theorem rhe_err (q : ℚ) : |(roundHalfEven q : ℚ) - q| ≤ 1 / 2 := by
  have h1 := Int.floor_le q
  have h2 := Int.lt_floor_add_one q
  rcases rhe_cases q with ⟨h, h3⟩ | ⟨h, h3⟩ <;> rw [h, abs_le] <;> push_cast <;>
    constructor <;> linarith

theorem rhe_int (n : ℤ) : roundHalfEven n = n := by
  unfold roundHalfEven
  dsimp only
  rw [if_pos (by simp)]
  simp

theorem rhe_mono {p q : ℚ} (h : p ≤ q) : roundHalfEven p ≤ roundHalfEven q := by
  have hf : ⌊p⌋ ≤ ⌊q⌋ := Int.floor_le_floor h
  rcases hf.lt_or_eq with hlt | heq
  · have a : roundHalfEven p ≤ ⌊p⌋ + 1 := by
      rcases rhe_cases p with ⟨h, -⟩ | ⟨h, -⟩ <;> omega
    have b : ⌊q⌋ ≤ roundHalfEven q := by
      rcases rhe_cases q with ⟨h, -⟩ | ⟨h, -⟩ <;> omega
    omega
  · unfold roundHalfEven
    dsimp only
    rw [heq]
    split_ifs <;> first | omega | (exfalso; linarith)

theorem rhe_neg (q : ℚ) : roundHalfEven (-q) = -roundHalfEven q := by
  have h1 := Int.floor_le q
  have h2 := Int.lt_floor_add_one q
  rcases h1.lt_or_eq with hlt | heq
  · have hf : ⌊-q⌋ = -⌊q⌋ - 1 := by
      rw [Int.floor_eq_iff]; push_cast; constructor <;> linarith
    unfold roundHalfEven
    dsimp only
    rw [hf]
    push_cast
    split_ifs <;> first | omega | (exfalso; linarith)
  · rw [← heq, ← Int.cast_neg, rhe_int, rhe_int]

theorem f32_zero : f32 0 = 0 := by simp [f32]

theorem f32_neg (q : ℚ) : f32 (-q) = -f32 q := by
  unfold f32
  by_cases h : q = 0
  · simp [h]
  · rw [if_neg h, if_neg (by simpa using h)]
    dsimp only
    rw [abs_neg, neg_div, rhe_neg]
    push_cast; ring

/-- Relative error of rounding to `float`. -/
theorem f32_err (q : ℚ) : |f32 q - q| ≤ |q| / 2 ^ 24 := by
  unfold f32
  by_cases h : q = 0
  · simp [h]
  rw [if_neg h]
  dsimp only
  have hq : 0 < |q| := abs_pos.2 h
  have hlog := Int.zpow_log_le_self (b := 2) (by norm_num) hq
  rw [show ((2 : ℕ) : ℚ) = 2 by norm_num] at hlog
  have hu : (0 : ℚ) < 2 ^ (Int.log 2 |q| - 23) := zpow_pos (by norm_num) _
  have hu2 : (2 : ℚ) ^ (Int.log 2 |q| - 23) * 2 ^ 23 ≤ |q| := by
    rw [zpow_sub₀ (by norm_num)]
    have : (2 : ℚ) ^ Int.log 2 |q| / 2 ^ (23 : ℤ) * 2 ^ 23 = 2 ^ Int.log 2 |q| := by
      rw [show (2 : ℚ) ^ (23 : ℤ) = 2 ^ 23 by norm_cast]
      field_simp
    rw [this]; exact hlog
  generalize (2 : ℚ) ^ (Int.log 2 |q| - 23) = u at hu hu2
  have e := rhe_err (q / u)
  have : (roundHalfEven (q / u) : ℚ) * u - q = ((roundHalfEven (q / u) : ℚ) - q / u) * u := by
    field_simp
  rw [this, abs_mul, abs_of_pos hu, le_div_iff₀ (by norm_num)]
  nlinarith

theorem f32_pos_lower {q : ℚ} (h : 0 < q) : (2 : ℚ) ^ Int.log 2 q ≤ f32 q := by
  unfold f32
  rw [if_neg h.ne']
  dsimp only
  rw [abs_of_pos h]
  have hlog := Int.zpow_log_le_self (b := 2) (by norm_num) h
  rw [show ((2 : ℕ) : ℚ) = 2 by norm_num] at hlog
  have hu : (0 : ℚ) < 2 ^ (Int.log 2 q - 23) := zpow_pos (by norm_num) _
  have hsplit : (2 : ℚ) ^ Int.log 2 q = 2 ^ 23 * 2 ^ (Int.log 2 q - 23) := by
    rw [show (2 : ℚ) ^ 23 = 2 ^ (23 : ℤ) by norm_cast, ← zpow_add₀ (by norm_num)]
    congr 1; ring
  have hq : ((2 ^ 23 : ℤ) : ℚ) ≤ q / 2 ^ (Int.log 2 q - 23) := by
    rw [le_div_iff₀ hu]; push_cast; linarith
  have := rhe_mono hq
  rw [rhe_int] at this
  have h2 : ((2 ^ 23 : ℤ) : ℚ) ≤ (roundHalfEven (q / 2 ^ (Int.log 2 q - 23)) : ℚ) := by
    exact_mod_cast this
  rw [hsplit]
  push_cast at h2
  exact mul_le_mul_of_nonneg_right h2 hu.le

theorem f32_pos_upper {q : ℚ} (h : 0 < q) : f32 q ≤ (2 : ℚ) ^ (Int.log 2 q + 1) := by
  unfold f32
  rw [if_neg h.ne']
  dsimp only
  rw [abs_of_pos h]
  have hlog := Int.lt_zpow_succ_log_self (b := 2) (by norm_num) q
  rw [show ((2 : ℕ) : ℚ) = 2 by norm_num] at hlog
  have hu : (0 : ℚ) < 2 ^ (Int.log 2 q - 23) := zpow_pos (by norm_num) _
  have hsplit : (2 : ℚ) ^ (Int.log 2 q + 1) = 2 ^ 24 * 2 ^ (Int.log 2 q - 23) := by
    rw [show (2 : ℚ) ^ 24 = 2 ^ (24 : ℤ) by norm_cast, ← zpow_add₀ (by norm_num)]
    congr 1; ring
  have hq : q / 2 ^ (Int.log 2 q - 23) ≤ ((2 ^ 24 : ℤ) : ℚ) := by
    rw [div_le_iff₀ hu]; push_cast; linarith
  have := rhe_mono hq
  rw [rhe_int] at this
  have h2 : (roundHalfEven (q / 2 ^ (Int.log 2 q - 23)) : ℚ) ≤ ((2 ^ 24 : ℤ) : ℚ) := by
    exact_mod_cast this
  rw [hsplit]
  push_cast at h2
  exact mul_le_mul_of_nonneg_right h2 hu.le

theorem f32_pos {q : ℚ} (h : 0 < q) : 0 < f32 q :=
  lt_of_lt_of_le (zpow_pos (by norm_num) _) (f32_pos_lower h)

theorem f32_mono_pos {p q : ℚ} (hp : 0 < p) (h : p ≤ q) : f32 p ≤ f32 q := by
  have hq : 0 < q := lt_of_lt_of_le hp h
  have hlog : Int.log 2 p ≤ Int.log 2 q := Int.log_mono_right hp h
  rcases hlog.lt_or_eq with hlt | heq
  · calc f32 p ≤ 2 ^ (Int.log 2 p + 1) := f32_pos_upper hp
      _ ≤ 2 ^ Int.log 2 q := zpow_le_zpow_right₀ (by norm_num) (by omega)
      _ ≤ f32 q := f32_pos_lower hq
  · unfold f32
    rw [if_neg hp.ne', if_neg hq.ne']
    dsimp only
    rw [abs_of_pos hp, abs_of_pos hq, heq]
    have hu : (0 : ℚ) < 2 ^ (Int.log 2 q - 23) := zpow_pos (by norm_num) _
    apply mul_le_mul_of_nonneg_right _ hu.le
    exact_mod_cast rhe_mono (div_le_div_of_nonneg_right h hu.le)

/-- Rounding to `float` is monotone. -/
theorem f32_mono {p q : ℚ} (h : p ≤ q) : f32 p ≤ f32 q := by
  rcases lt_trichotomy p 0 with hp | hp | hp
  · rcases lt_trichotomy q 0 with hq | hq | hq
    · have := f32_mono_pos (p := -q) (q := -p) (by linarith) (by linarith)
      rw [f32_neg, f32_neg] at this
      linarith
    · have := f32_pos (q := -p) (by linarith)
      rw [f32_neg] at this
      rw [hq, f32_zero]; linarith
    · have := f32_pos (q := -p) (by linarith)
      rw [f32_neg] at this
      have := f32_pos hq
      linarith
  · subst hp
    rcases h.lt_or_eq with hq | hq
    · rw [f32_zero]; exact (f32_pos hq).le
    · rw [← hq]
  · exact f32_mono_pos hp h

/-- Numbers in `[2^15, 2^16)`: rounding to `float` is rounding to a multiple of `2^-8`. -/
theorem f32_fixed {q : ℚ} (h1 : 2 ^ 15 ≤ q) (h2 : q < 2 ^ 16) :
    f32 q = roundHalfEven (q * 2 ^ 8) / 2 ^ 8 := by
  have hq : 0 < q := by linarith
  have hlog : Int.log 2 q = 15 := by
    have a := Int.zpow_log_le_self (b := 2) (by norm_num) hq
    have b := Int.lt_zpow_succ_log_self (b := 2) (by norm_num) q
    rw [show ((2 : ℕ) : ℚ) = 2 by norm_num] at a b
    have c : Int.log 2 q < 16 := by
      have : (2 : ℚ) ^ Int.log 2 q < 2 ^ (16 : ℤ) := lt_of_le_of_lt a (by norm_cast at h2 ⊢)
      exact (zpow_lt_zpow_iff_right₀ (by norm_num)).1 this
    have d : 15 < Int.log 2 q + 1 := by
      have : (2 : ℚ) ^ (15 : ℤ) < 2 ^ (Int.log 2 q + 1) := lt_of_le_of_lt (by norm_cast at h1 ⊢) b
      exact (zpow_lt_zpow_iff_right₀ (by norm_num)).1 this
    omega
  unfold f32
  rw [if_neg hq.ne']
  dsimp only
  rw [abs_of_pos hq, hlog]
  have : (2 : ℚ) ^ ((15 : ℤ) - 23) = 1 / 2 ^ 8 := by norm_num
  rw [this, div_div_eq_mul_div, div_one]
  ring

theorem and_mask (n k : ℕ) : n &&& (2 ^ k - 1) = n % 2 ^ k := Nat.and_two_pow_sub_one_eq_mod n k

theorem and_ff00 (n : ℕ) : n &&& 0xFF <<< 8 = n / 256 % 256 * 256 := by
  have : n &&& 0xFF <<< 8 = ((n >>> 8) &&& 0xFF) <<< 8 := by
    apply Nat.eq_of_testBit_eq
    intro i
    rw [Nat.testBit_and, Nat.testBit_shiftLeft, Nat.testBit_shiftLeft, Nat.testBit_and,
      Nat.testBit_shiftRight]
    by_cases h : 8 ≤ i
    · simp [h, Nat.add_sub_cancel' h]
    · simp [h]
  rw [this, show (0xFF : ℕ) = 2 ^ 8 - 1 by norm_num, and_mask, Nat.shiftRight_eq_div_pow,
    Nat.shiftLeft_eq, show (2 : ℕ) ^ 8 = 256 by norm_num]

/-- Value of a `float` with given exponent and mantissa fields. -/
theorem decode_mk {e m : ℕ} (he : e < 256) (hm : m < 2 ^ 23) :
    decode (e * 2 ^ 23 + m) = 2 ^ ((e : ℤ) - 127) * (1 + (m : ℚ) / 2 ^ 23) := by
  unfold decode
  rw [show (0xFF : ℕ) = 2 ^ 8 - 1 by norm_num, show (0x7FFFFF : ℕ) = 2 ^ 23 - 1 by norm_num,
    and_mask, and_mask, Nat.shiftRight_eq_div_pow]
  have h1 : (e * 2 ^ 23 + m) / 2 ^ 23 % 2 ^ 8 = e := by omega
  have h2 : (e * 2 ^ 23 + m) % 2 ^ 23 = m := by omega
  rw [h1, h2]

/-- Bits of a number in `[2^15, 2^16)`. -/
theorem encode_fixed {k : ℕ} (hk : k < 2 ^ 23) :
    encode (2 ^ 15 + (k : ℚ) / 2 ^ 8) = 142 * 2 ^ 23 + k := by
  obtain ⟨q, hq⟩ : ∃ q : ℚ, q = 2 ^ 15 + (k : ℚ) / 2 ^ 8 := ⟨_, rfl⟩
  have hkq : (k : ℚ) < 2 ^ 23 := by exact_mod_cast hk
  have hk0 : (0 : ℚ) ≤ k := by positivity
  have h1 : 2 ^ 15 ≤ q := by rw [hq]; have : 0 ≤ (k : ℚ) / 2 ^ 8 := by positivity
                             linarith
  have h2 : q < 2 ^ 16 := by
    rw [hq]
    have : (k : ℚ) / 2 ^ 8 < 2 ^ 15 := by rw [div_lt_iff₀ (by norm_num)]; norm_num at hkq ⊢; exact hkq
    linarith
  have hlog : Int.log 2 q = 15 := by
    have a := Int.zpow_log_le_self (b := 2) (by norm_num) (show 0 < q by linarith)
    have b := Int.lt_zpow_succ_log_self (b := 2) (by norm_num) q
    rw [show ((2 : ℕ) : ℚ) = 2 by norm_num] at a b
    have c : Int.log 2 q < 16 := by
      have : (2 : ℚ) ^ Int.log 2 q < 2 ^ (16 : ℤ) := lt_of_le_of_lt a (by norm_cast at h2 ⊢)
      exact (zpow_lt_zpow_iff_right₀ (by norm_num)).1 this
    have d : 15 < Int.log 2 q + 1 := by
      have : (2 : ℚ) ^ (15 : ℤ) < 2 ^ (Int.log 2 q + 1) := lt_of_le_of_lt (by norm_cast at h1 ⊢) b
      exact (zpow_lt_zpow_iff_right₀ (by norm_num)).1 this
    omega
  rw [← hq]
  unfold encode
  dsimp only
  rw [hlog]
  have e1 : q / 2 ^ ((15 : ℤ) - 23) = ((2 ^ 23 + k : ℕ) : ℚ) := by
    have : (2 : ℚ) ^ ((15 : ℤ) - 23) = 1 / 2 ^ 8 := by norm_num
    rw [this, hq]; push_cast; field_simp; norm_num
  rw [e1, Int.floor_natCast, Int.toNat_natCast, Nat.add_sub_cancel_left,
    show ((15 : ℤ) + 127).toNat = 142 by rfl, ← Nat.shiftLeft_add_eq_or_of_lt hk, Nat.shiftLeft_eq]

end Verif.Float32
