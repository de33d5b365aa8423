import Verif.Model.FastFun
import Verif.Proof.Float32
import Mathlib.Analysis.SpecialFunctions.Log.Base
import Mathlib.Analysis.SpecialFunctions.Pow.Real
import Mathlib.Analysis.Complex.ExponentialBounds

namespace Verif.FastFun
open Verif.Float32

/-! ### The tables -/

/-- The number of repetitions used to compare the logarithm table with powers of two. -/
def reps : ℕ := 16384

/-- Every logarithm literal is at most 0.0029 above the logarithm at the lower end of its cell. -/
theorem log2_lower : ∀ s < 256,
    2 ^ ((reps * (8 * 10 ^ 12 + log2Literals.getD s 0 - 29 * 10 ^ 8) + 10 ^ 12 - 1) / 10 ^ 12) ≤
      (256 + s) ^ reps := by decide +kernel

/-- Every logarithm literal is at most 0.0029 below the logarithm at the upper end of its cell. -/
theorem log2_upper : ∀ s < 256,
    (257 + s) ^ reps ≤
      2 ^ (reps * (8 * 10 ^ 12 + log2Literals.getD s 0 + 29 * 10 ^ 8) / 10 ^ 12) := by
  decide +kernel

theorem log2_literals_mono : ∀ s < 255, log2Literals.getD s 0 ≤ log2Literals.getD (s + 1) 0 := by
  decide +kernel

theorem log2_literals_lt : ∀ s < 256, log2Literals.getD s 0 < 10 ^ 12 := by decide +kernel

theorem exp2_bounds : ∀ j < 256,
    (2 ^ 23 + exp2Table.getD j 0 - 1) ^ 256 ≤ 2 ^ (23 * 256 + j) ∧
    2 ^ (23 * 256 + j) ≤ (2 ^ 23 + exp2Table.getD j 0 + 1) ^ 256 ∧
    exp2Table.getD j 0 < 2 ^ 23 := by decide +kernel

theorem exp2_table_mono : ∀ j < 255, exp2Table.getD j 0 ≤ exp2Table.getD (j + 1) 0 := by
  decide +kernel

/-! ### FastLog2 -/

theorem fastLog2_mk {e s r : ℕ} (he : e < 256) (hs : s < 256) (hr : r < 2 ^ 15) :
    fastLog2 (e * 2 ^ 23 + (s * 2 ^ 15 + r)) = f32 ((e : ℤ) - 127 + log2Table s) := by
  unfold fastLog2
  dsimp only
  rw [show ((1 : ℕ) <<< 8 - 1) = 2 ^ 8 - 1 by rfl, show (0xFF : ℕ) = 2 ^ 8 - 1 by norm_num,
    and_mask, and_mask, Nat.shiftRight_eq_div_pow, Nat.shiftRight_eq_div_pow]
  have h1 : (e * 2 ^ 23 + (s * 2 ^ 15 + r)) / 2 ^ 23 % 2 ^ 8 = e := by omega
  have h2 : (e * 2 ^ 23 + (s * 2 ^ 15 + r)) / 2 ^ (23 - 8) % 2 ^ 8 = s := by omega
  rw [h1, h2]

theorem split_bits (b : ℕ) : ∃ e s r, b = e * 2 ^ 23 + (s * 2 ^ 15 + r) ∧ s < 256 ∧ r < 2 ^ 15 :=
  ⟨b / 2 ^ 23, b / 2 ^ 15 % 256, b % 2 ^ 15, by omega, by omega, by omega⟩

theorem log2Table_bounds {s : ℕ} (hs : s < 256) :
    |log2Table s - (log2Literals.getD s 0 : ℕ) / 10 ^ 12| ≤ 1 / 2 ^ 24 := by
  unfold log2Table
  refine (f32_err _).trans ?_
  have h := log2_literals_lt s hs
  have h' : ((log2Literals.getD s 0 : ℕ) : ℚ) < 10 ^ 12 := by exact_mod_cast h
  have h0 : (0 : ℚ) ≤ (log2Literals.getD s 0 : ℕ) := by positivity
  rw [abs_of_nonneg (by positivity), div_le_div_iff_of_pos_right (by norm_num),
    div_le_one (by norm_num)]
  exact h'.le

theorem logb_two_le_of_pow {a n : ℕ} (hn : 0 < n) {x : ℝ} (hx : 0 < x) (h : (2 : ℝ) ^ a ≤ x ^ n) :
    (a : ℝ) / n ≤ Real.logb 2 x := by
  rw [div_le_iff₀ (by exact_mod_cast hn)]
  have := Real.logb_le_logb_of_le (b := 2) (by norm_num) (by positivity) h
  rw [Real.logb_pow, Real.logb_pow, Real.logb_self_eq_one (by norm_num)] at this
  linarith

theorem le_logb_two_of_pow {a n : ℕ} (hn : 0 < n) {x : ℝ} (hx : 0 < x) (h : x ^ n ≤ (2 : ℝ) ^ a) :
    Real.logb 2 x ≤ (a : ℝ) / n := by
  rw [le_div_iff₀ (by exact_mod_cast hn)]
  have := Real.logb_le_logb_of_le (b := 2) (by norm_num) (by positivity) h
  rw [Real.logb_pow, Real.logb_pow, Real.logb_self_eq_one (by norm_num)] at this
  linarith

theorem literal_lower {s : ℕ} (hs : s < 256) :
    8 + ((log2Literals.getD s 0 : ℕ) : ℝ) / 10 ^ 12 - 29 / 10000 ≤ Real.logb 2 (256 + s) := by
  have h := log2_lower s hs
  have h' : (2 : ℝ) ^ ((reps * (8 * 10 ^ 12 + log2Literals.getD s 0 - 29 * 10 ^ 8) + 10 ^ 12 - 1) /
      10 ^ 12) ≤ ((256 : ℝ) + s) ^ reps := by exact_mod_cast h
  have := logb_two_le_of_pow (by norm_num [reps]) (by positivity) h'
  refine le_trans ?_ this
  obtain ⟨A, hA⟩ : ∃ A, A = (reps * (8 * 10 ^ 12 + log2Literals.getD s 0 - 29 * 10 ^ 8) +
    10 ^ 12 - 1) / 10 ^ 12 := ⟨_, rfl⟩
  rw [← hA]
  generalize log2Literals.getD s 0 = T at *
  have hN : reps * (8 * 10 ^ 12 + T) ≤ A * 10 ^ 12 + reps * (29 * 10 ^ 8) := by
    unfold reps at hA ⊢; omega
  have hR : (reps : ℝ) * (8 * 10 ^ 12 + T) ≤ A * 10 ^ 12 + reps * (29 * 10 ^ 8) := by
    exact_mod_cast hN
  rw [show (reps : ℝ) = 16384 by norm_num [reps]] at *
  rw [le_div_iff₀ (by norm_num)]
  linarith

theorem literal_upper {s : ℕ} (hs : s < 256) :
    Real.logb 2 (257 + s) ≤ 8 + ((log2Literals.getD s 0 : ℕ) : ℝ) / 10 ^ 12 + 29 / 10000 := by
  have h := log2_upper s hs
  have h' : ((257 : ℝ) + s) ^ reps ≤
      2 ^ (reps * (8 * 10 ^ 12 + log2Literals.getD s 0 + 29 * 10 ^ 8) / 10 ^ 12) := by
    exact_mod_cast h
  have := le_logb_two_of_pow (by norm_num [reps]) (by positivity) h'
  refine le_trans this ?_
  obtain ⟨A, hA⟩ : ∃ A, A = reps * (8 * 10 ^ 12 + log2Literals.getD s 0 + 29 * 10 ^ 8) /
    10 ^ 12 := ⟨_, rfl⟩
  rw [← hA]
  generalize log2Literals.getD s 0 = T at *
  have hN : A * 10 ^ 12 ≤ reps * (8 * 10 ^ 12 + T + 29 * 10 ^ 8) := by
    unfold reps at hA ⊢; omega
  have hR : (A : ℝ) * 10 ^ 12 ≤ reps * (8 * 10 ^ 12 + T + 29 * 10 ^ 8) := by exact_mod_cast hN
  rw [show (reps : ℝ) = 16384 by norm_num [reps]] at *
  rw [div_le_iff₀ (by norm_num)]
  linarith

/-- The base two logarithm of a `float` with given fields. -/
theorem logb_decode {e s r : ℕ} (he : e < 256) (hs : s < 256) (hr : r < 2 ^ 15) :
    Real.logb 2 ((decode (e * 2 ^ 23 + (s * 2 ^ 15 + r)) : ℚ) : ℝ) =
      (e : ℝ) - 127 + (Real.logb 2 (256 + s + (r : ℝ) / 2 ^ 15) - 8) := by
  rw [decode_mk he (by omega)]
  push_cast
  rw [Real.logb_mul (zpow_pos (by norm_num) _).ne' (by positivity), ← Real.rpow_intCast,
    Real.logb_rpow (by norm_num) (by norm_num)]
  have e8 : (8 : ℝ) = Real.logb 2 (2 ^ 8) := by
    rw [Real.logb_pow, Real.logb_self_eq_one (by norm_num)]; norm_num
  rw [e8, ← Real.logb_div (by positivity) (by positivity)]
  push_cast
  have : (1 + ((s : ℝ) * 32768 + r) / 2 ^ 23) = (256 + s + (r : ℝ) / 2 ^ 15) / 2 ^ 8 := by
    field_simp; ring
  rw [this]

/-! ### FastExp2 -/

/-- The rounded fixed-point argument. -/
def fixed (x : ℚ) : ℤ := roundHalfEven ((x + 127) * 2 ^ 8)

theorem fixed_err (x : ℚ) : |((fixed x : ℤ) : ℚ) / 256 - 127 - x| ≤ 1 / 512 := by
  have := rhe_err ((x + 127) * 2 ^ 8)
  unfold fixed
  rw [abs_le] at *
  constructor <;> linarith

theorem fixed_range {x : ℚ} (h : |x| ≤ 126) : 256 ≤ fixed x ∧ fixed x ≤ 253 * 256 := by
  rw [abs_le] at h
  constructor
  · have := rhe_mono (p := ((256 : ℤ) : ℚ)) (q := (x + 127) * 2 ^ 8) (by push_cast; linarith)
    rwa [rhe_int] at this
  · have := rhe_mono (p := (x + 127) * 2 ^ 8) (q := ((253 * 256 : ℤ) : ℚ)) (by push_cast; linarith)
    rwa [rhe_int] at this

theorem fixed_mono {x y : ℚ} (h : x ≤ y) : fixed x ≤ fixed y :=
  rhe_mono (mul_le_mul_of_nonneg_right (by linarith) (by norm_num))

theorem rhe_add_int (q : ℚ) (n : ℤ) (hn : n % 2 = 0) :
    roundHalfEven (q + n) = roundHalfEven q + n := by
  unfold roundHalfEven
  dsimp only
  rw [Int.floor_add_intCast]
  push_cast
  rw [add_sub_add_right_eq_sub]
  split_ifs <;> omega

/-- The bits of the result: the high and low bytes of the fixed-point argument select the exponent
and the mantissa. -/
theorem fastExp2Bits_eq {x : ℚ} (h : |x| ≤ 126) :
    fastExp2Bits x = (fixed x).toNat / 256 * 2 ^ 23 +
      exp2Table.getD ((fixed x).toNat % 256) 0 := by
  obtain ⟨r1, r2⟩ := fixed_range h
  have hx := h
  rw [abs_le] at hx
  obtain ⟨k, hk⟩ := Int.eq_ofNat_of_zero_le (show 0 ≤ fixed x by omega)
  have hk1 : 256 ≤ k ∧ k ≤ 253 * 256 := by omega
  unfold fastExp2Bits
  dsimp only
  have hy : f32 (x + (127 + ((1 <<< (23 - 8) : ℕ) : ℚ))) = 2 ^ 15 + (k : ℚ) / 2 ^ 8 := by
    rw [show ((1 : ℕ) <<< (23 - 8)) = 2 ^ 15 by rfl]
    push_cast
    rw [f32_fixed (by linarith) (by linarith)]
    have e : (x + (127 + 32768)) * 2 ^ 8 = (x + 127) * 2 ^ 8 + ((2 ^ 23 : ℤ) : ℚ) := by
      push_cast; ring
    rw [e, rhe_add_int _ _ (by norm_num)]
    have : roundHalfEven ((x + 127) * 2 ^ 8) = (k : ℤ) := hk
    rw [this]
    push_cast
    ring
  rw [hy, encode_fixed (by omega), and_ff00, show (0xFF : ℕ) = 2 ^ 8 - 1 by norm_num, and_mask, hk,
    Int.toNat_natCast]
  have e1 : (142 * 2 ^ 23 + k) / 256 % 256 = k / 256 := by omega
  have e2 : (142 * 2 ^ 23 + k) % 2 ^ 8 = k % 256 := by omega
  have e3 : (k / 256 * 256) <<< (23 - 8) = (k / 256) <<< 23 := by
    rw [Nat.shiftLeft_eq, Nat.shiftLeft_eq]; omega
  rw [e1, e2, e3, ← Nat.shiftLeft_add_eq_or_of_lt (exp2_bounds _ (Nat.mod_lt _ (by norm_num))).2.2,
    Nat.shiftLeft_eq]

theorem fastExp2_eq {x : ℚ} (h : |x| ≤ 126) :
    fastExp2 x = 2 ^ ((((fixed x).toNat / 256 : ℕ) : ℤ) - 127) *
      (1 + (exp2Table.getD ((fixed x).toNat % 256) 0 : ℕ) / 2 ^ 23) := by
  obtain ⟨r1, r2⟩ := fixed_range h
  unfold fastExp2
  rw [fastExp2Bits_eq h, decode_mk (by omega) (exp2_bounds _ (Nat.mod_lt _ (by norm_num))).2.2]

theorem entry_aux (N j T : ℕ) (hN : N ≠ 0) (p : ℝ) (hp0 : 0 ≤ p) (hp : p ^ N = 2 ^ j)
    (h1 : (2 ^ 23 + T - 1) ^ N ≤ 2 ^ (23 * N + j)) (h2 : 2 ^ (23 * N + j) ≤ (2 ^ 23 + T + 1) ^ N) :
    (2 : ℝ) ^ 23 + T - 1 ≤ 2 ^ 23 * p ∧ 2 ^ 23 * p ≤ (2 : ℝ) ^ 23 + T + 1 := by
  have hpow2 : (2 ^ 23 * p) ^ N = (2 : ℝ) ^ (23 * N + j) := by
    rw [mul_pow, hp, ← pow_mul, pow_add]
  constructor
  · have h1' : (((2 ^ 23 + T - 1 : ℕ)) : ℝ) ^ N ≤ (2 ^ 23 * p) ^ N := by
      rw [hpow2]; exact_mod_cast h1
    have := le_of_pow_le_pow_left₀ hN (by positivity) h1'
    rw [Nat.cast_sub (by omega)] at this
    push_cast at this
    norm_num at this ⊢
    linarith
  · have h2' : (2 ^ 23 * p) ^ N ≤ ((2 : ℝ) ^ 23 + T + 1) ^ N := by
      rw [hpow2]; exact_mod_cast h2
    exact le_of_pow_le_pow_left₀ hN (by positivity) h2'

/-- The mantissa table is within one unit of the exact power of two. -/
theorem exp2_entry {j : ℕ} (hj : j < 256) :
    (1 - 1 / 2 ^ 23) * (2 : ℝ) ^ ((j : ℝ) / 256) ≤ 1 + ((exp2Table.getD j 0 : ℕ) : ℝ) / 2 ^ 23 ∧
    1 + ((exp2Table.getD j 0 : ℕ) : ℝ) / 2 ^ 23 ≤ (1 + 1 / 2 ^ 23) * (2 : ℝ) ^ ((j : ℝ) / 256) := by
  obtain ⟨h1, h2, h3⟩ := exp2_bounds j hj
  generalize exp2Table.getD j 0 = T at *
  obtain ⟨p, hp⟩ : ∃ p, p = (2 : ℝ) ^ ((j : ℝ) / 256) := ⟨_, rfl⟩
  have hp1 : 1 ≤ p := by rw [hp]; exact Real.one_le_rpow (by norm_num) (div_nonneg (Nat.cast_nonneg _) (by norm_num))
  have hp0 : 0 ≤ p := by linarith
  have hpow : p ^ 256 = 2 ^ j := by
    rw [hp, ← Real.rpow_natCast, ← Real.rpow_mul (by norm_num), ← Real.rpow_natCast]
    have : (j : ℝ) / 256 * ((256 : ℕ) : ℝ) = j := by push_cast; field_simp
    rw [this]
  obtain ⟨a, b⟩ := entry_aux 256 j T (by norm_num) p hp0 hpow h1 h2
  rw [← hp]
  constructor
  · field_simp; linarith
  · field_simp; linarith

theorem two_rpow_step : (2 : ℝ) ^ ((1 : ℝ) / 512) ≤ 1 + 136 / 100000 := by
  have : ((2 : ℝ) ^ ((1 : ℝ) / 512)) ^ 512 ≤ (1 + 136 / 100000) ^ 512 := by
    rw [← Real.rpow_natCast, ← Real.rpow_mul (by norm_num)]
    have h : 2 * 100000 ^ 512 ≤ 100136 ^ 512 := by decide +kernel
    have h' : (2 : ℝ) * 100000 ^ 512 ≤ 100136 ^ 512 := by exact_mod_cast h
    rw [show (1 : ℝ) / 512 * ((512 : ℕ) : ℝ) = 1 by norm_num, Real.rpow_one,
      show (1 + 136 / 100000 : ℝ) = 100136 / 100000 by norm_num, div_pow,
      le_div_iff₀ (by positivity)]
    exact h'
  exact le_of_pow_le_pow_left₀ (by norm_num) (by norm_num) this

/-- Relative error of `FastExp2`. -/
theorem fastExp2_rel {x : ℚ} (h : |x| ≤ 126) :
    (1 - 14 / 10000) * (2 : ℝ) ^ (x : ℝ) ≤ ((fastExp2 x : ℚ) : ℝ) ∧
    ((fastExp2 x : ℚ) : ℝ) ≤ (1 + 14 / 10000) * (2 : ℝ) ^ (x : ℝ) := by
  obtain ⟨r1, r2⟩ := fixed_range h
  obtain ⟨k, hk⟩ := Int.eq_ofNat_of_zero_le (show 0 ≤ fixed x by omega)
  have herr := fixed_err x
  rw [fastExp2_eq h, hk, Int.toNat_natCast]
  rw [hk] at herr
  obtain ⟨b1, b2⟩ := exp2_entry (j := k % 256) (Nat.mod_lt _ (by norm_num))
  generalize exp2Table.getD (k % 256) 0 = T at b1 b2
  push_cast
  have hsplit : (2 : ℝ) ^ ((((k / 256 : ℕ) : ℤ)) - 127) * (2 : ℝ) ^ (((k % 256 : ℕ) : ℝ) / 256) =
      (2 : ℝ) ^ ((k : ℝ) / 256 - 127) := by
    rw [← Real.rpow_intCast, ← Real.rpow_add (by norm_num)]
    congr 1
    push_cast
    have : (k : ℝ) = 256 * ((k / 256 : ℕ) : ℝ) + ((k % 256 : ℕ) : ℝ) := by
      exact_mod_cast (Nat.div_add_mod k 256).symm
    rw [this]
    have e1 : (((k : ℤ) / 256 : ℤ) : ℝ) = ((k / 256 : ℕ) : ℝ) := by norm_cast
    rw [e1]
    ring
  obtain ⟨P, hP⟩ : ∃ P, P = (2 : ℝ) ^ (((k / 256 : ℕ) : ℤ) - 127) := ⟨_, rfl⟩
  have hP0 : 0 < P := by rw [hP]; exact zpow_pos (by norm_num) _
  obtain ⟨Q, hQ⟩ : ∃ Q, Q = (2 : ℝ) ^ (((k % 256 : ℕ) : ℝ) / 256) := ⟨_, rfl⟩
  rw [← hQ] at b1 b2 hsplit
  rw [← hP] at hsplit
  have hd : |(k : ℝ) / 256 - 127 - x| ≤ 1 / 512 := by
    have : ((|((k : ℤ) : ℚ) / 256 - 127 - x| : ℚ) : ℝ) ≤ ((1 / 512 : ℚ) : ℝ) := by
      exact Rat.cast_le.2 herr
    push_cast at this
    exact this
  rw [abs_le] at hd
  have hX : 0 < (2 : ℝ) ^ (x : ℝ) := Real.rpow_pos_of_pos (by norm_num) _
  have up : P * Q ≤ (1 + 136 / 100000) * (2 : ℝ) ^ (x : ℝ) := by
    rw [hsplit]
    calc (2 : ℝ) ^ ((k : ℝ) / 256 - 127) ≤ 2 ^ ((1 : ℝ) / 512 + x) :=
          Real.rpow_le_rpow_of_exponent_le (by norm_num) (by linarith)
      _ = 2 ^ ((1 : ℝ) / 512) * 2 ^ (x : ℝ) := Real.rpow_add (by norm_num) _ _
      _ ≤ _ := mul_le_mul_of_nonneg_right two_rpow_step hX.le
  have lo : (2 : ℝ) ^ (x : ℝ) ≤ (1 + 136 / 100000) * (P * Q) := by
    rw [hsplit]
    have hK : 0 < (2 : ℝ) ^ ((k : ℝ) / 256 - 127) := Real.rpow_pos_of_pos (by norm_num) _
    calc (2 : ℝ) ^ (x : ℝ) ≤ 2 ^ ((1 : ℝ) / 512 + ((k : ℝ) / 256 - 127)) :=
          Real.rpow_le_rpow_of_exponent_le (by norm_num) (by linarith)
      _ = 2 ^ ((1 : ℝ) / 512) * 2 ^ ((k : ℝ) / 256 - 127) := Real.rpow_add (by norm_num) _ _
      _ ≤ _ := mul_le_mul_of_nonneg_right two_rpow_step hK.le
  have hPe : (2 : ℝ) ^ ((k : ℤ) / 256 - 127) = P := by rw [hP]; push_cast; rfl
  have b1' := mul_le_mul_of_nonneg_left b1 hP0.le
  have b2' := mul_le_mul_of_nonneg_left b2 hP0.le
  rw [hPe]
  constructor
  · refine le_trans ?_ b1'
    have : P * ((1 - 1 / 2 ^ 23) * Q) = (1 - 1 / 2 ^ 23) * (P * Q) := by ring
    rw [this]
    norm_num at lo ⊢
    linarith
  · refine le_trans b2' ?_
    have : P * ((1 + 1 / 2 ^ 23) * Q) = (1 + 1 / 2 ^ 23) * (P * Q) := by ring
    rw [this]
    norm_num at up ⊢
    linarith

theorem fastExp2_pos {x : ℚ} (h : |x| ≤ 126) : 0 < fastExp2 x := by
  rw [fastExp2_eq h]
  exact mul_pos (zpow_pos (by norm_num) _) (by positivity)

/-- Logarithmic form of the error of `FastExp2`. -/
theorem fastExp2_logb {x : ℚ} (h : |x| ≤ 126) :
    |Real.logb 2 ((fastExp2 x : ℚ) : ℝ) - x| ≤ 21 / 10000 := by
  obtain ⟨h1, h2⟩ := fastExp2_rel h
  have hpos : (0 : ℝ) < ((fastExp2 x : ℚ) : ℝ) := by exact_mod_cast fastExp2_pos h
  have hX : 0 < (2 : ℝ) ^ (x : ℝ) := Real.rpow_pos_of_pos (by norm_num) _
  have hx : (x : ℝ) = Real.logb 2 ((2 : ℝ) ^ (x : ℝ)) := by
    rw [Real.logb_rpow (by norm_num) (by norm_num)]
  obtain ⟨X, hXe⟩ : ∃ X, X = (2 : ℝ) ^ (x : ℝ) := ⟨_, rfl⟩
  rw [← hXe] at h1 h2 hX hx
  rw [hx, ← Real.logb_div hpos.ne' hX.ne']
  obtain ⟨q, hq⟩ : ∃ q, q = ((fastExp2 x : ℚ) : ℝ) / X := ⟨_, rfl⟩
  rw [← hq]
  have q1 : 1 - 14 / 10000 ≤ q := by rw [hq, le_div_iff₀ hX]; exact h1
  have q2 : q ≤ 1 + 14 / 10000 := by rw [hq, div_le_iff₀ hX]; exact h2
  have hq0 : 0 < q := by linarith
  have l2 := Real.log_two_gt_d9
  unfold Real.logb
  have u1 := Real.log_le_sub_one_of_pos hq0
  have u2 := Real.one_sub_inv_le_log_of_pos hq0
  have u3 : q⁻¹ ≤ 1 + 1403 / 1000000 := by
    rw [inv_le_comm₀ hq0 (by norm_num)]
    refine le_trans ?_ q1
    norm_num
  rw [abs_le, le_div_iff₀ (by linarith), div_le_iff₀ (by linarith)]
  constructor <;> nlinarith

theorem table_le {j i : ℕ} (h : j ≤ i) (hi : i < 256) :
    exp2Table.getD j 0 ≤ exp2Table.getD i 0 := by
  induction i with
  | zero => rw [Nat.le_zero.1 h]
  | succ i ih =>
    rcases Nat.lt_or_ge i j with h2 | h2
    · rw [show j = i + 1 by omega]
    · exact (ih h2 (by omega)).trans (exp2_table_mono i (by omega))

theorem literals_le {j i : ℕ} (h : j ≤ i) (hi : i < 256) :
    log2Literals.getD j 0 ≤ log2Literals.getD i 0 := by
  induction i with
  | zero => rw [Nat.le_zero.1 h]
  | succ i ih =>
    rcases Nat.lt_or_ge i j with h2 | h2
    · rw [show j = i + 1 by omega]
    · exact (ih h2 (by omega)).trans (log2_literals_mono i (by omega))

end Verif.FastFun
