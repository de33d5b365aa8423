import Verif.Proof.FastFun
import Mathlib.Analysis.SpecialFunctions.Trigonometric.DerivHyp

/-!
# C41: accuracy of fast_fun

`decode b` is the value of the `float` with bits `b`; positive normal floats have bits from
`2^23` to `255 * 2^23 - 1`. (The theorems also hold for smaller `b`, where `decode` is not the value of
the subnormal `float`.)
-/

namespace Verif.FastFun
open Verif.Float32

/-- **C41.** For every positive normal `float`, `FastLog2` is within 0.003 of the logarithm. -/
theorem C41_log2 (b : ℕ) (h2 : b < 255 * 2 ^ 23) :
    |((fastLog2 b : ℚ) : ℝ) - Real.logb 2 ((decode b : ℚ) : ℝ)| ≤ 3 / 1000 := by
  obtain ⟨e, s, r, rfl, hs, hr⟩ := split_bits b
  have he : e < 255 := by omega
  rw [fastLog2_mk (by omega) hs hr, logb_decode (by omega) hs hr]
  have t1 := log2Table_bounds hs
  have f1 := f32_err ((e : ℤ) - 127 + log2Table s)
  have lo := literal_lower hs
  have hi := literal_upper hs
  have hT := log2_literals_lt s hs
  generalize log2Literals.getD s 0 = T at *
  have hTq : (T : ℚ) < 10 ^ 12 := by exact_mod_cast hT
  have hT0 : (0 : ℚ) ≤ T := by positivity
  have heq : (e : ℚ) < 255 := by exact_mod_cast he
  have he0 : (0 : ℚ) ≤ e := by positivity
  obtain ⟨v, hv⟩ : ∃ v, v = ((e : ℤ) : ℚ) - 127 + log2Table s := ⟨_, rfl⟩
  rw [← hv] at f1 ⊢
  have hTd : (T : ℚ) / 10 ^ 12 < 1 := by rw [div_lt_one (by norm_num)]; exact hTq
  have hTd0 : 0 ≤ (T : ℚ) / 10 ^ 12 := by positivity
  push_cast at hv
  have hvabs : |v| ≤ 130 := by
    rw [abs_le] at t1 ⊢
    constructor <;> linarith [t1.1, t1.2]
  have f2 : |f32 v - v| ≤ 130 / 2 ^ 24 :=
    f1.trans (div_le_div_of_nonneg_right hvabs (by norm_num))
  have f3 : |f32 v - ((e : ℚ) - 127 + (T : ℚ) / 10 ^ 12)| ≤ 131 / 2 ^ 24 := by
    rw [abs_le] at t1 f2 ⊢
    constructor <;> linarith [t1.1, t1.2, f2.1, f2.2]
  have f4 : |((f32 v : ℚ) : ℝ) - ((e : ℝ) - 127 + (T : ℝ) / 10 ^ 12)| ≤ 131 / 2 ^ 24 := by
    have : ((|f32 v - ((e : ℚ) - 127 + (T : ℚ) / 10 ^ 12)| : ℚ) : ℝ) ≤ ((131 / 2 ^ 24 : ℚ) : ℝ) :=
      Rat.cast_le.2 f3
    push_cast at this
    exact this
  have hrr : (0 : ℝ) ≤ (r : ℝ) / 2 ^ 15 ∧ (r : ℝ) / 2 ^ 15 ≤ 1 := by
    constructor
    · positivity
    · rw [div_le_one (by norm_num)]; exact_mod_cast hr.le
  have l1 : Real.logb 2 (256 + s) ≤ Real.logb 2 (256 + s + (r : ℝ) / 2 ^ 15) :=
    Real.logb_le_logb_of_le (by norm_num) (by positivity) (by linarith [hrr.1])
  have l2 : Real.logb 2 (256 + s + (r : ℝ) / 2 ^ 15) ≤ Real.logb 2 (257 + s) :=
    Real.logb_le_logb_of_le (by norm_num) (by positivity) (by linarith [hrr.2])
  rw [abs_le] at f4 ⊢
  constructor <;> linarith [f4.1, f4.2]

/-- **C41.** `FastLog2` is monotone on the positive normal floats (the order of positive floats is the
order of their bits, `C41_decode_monotone`). -/
theorem C41_log2_monotone (a b : ℕ) (hab : a ≤ b) (hb : b < 255 * 2 ^ 23) :
    fastLog2 a ≤ fastLog2 b := by
  obtain ⟨e, s, r, rfl, hs, hr⟩ := split_bits a
  obtain ⟨e', s', r', rfl, hs', hr'⟩ := split_bits b
  rw [fastLog2_mk (by omega) hs hr, fastLog2_mk (by omega) hs' hr']
  apply f32_mono
  have mono : ∀ {s s' : ℕ}, s ≤ s' → s' < 256 → log2Table s ≤ log2Table s' := by
    intro s s' h h'
    unfold log2Table
    apply f32_mono
    apply div_le_div_of_nonneg_right _ (by norm_num)
    exact_mod_cast literals_le h h'
  rcases Nat.lt_or_ge e e' with h | h
  · have h1 : log2Table s ≤ 1 := by
      unfold log2Table
      have : f32 ((log2Literals.getD s 0 : ℕ) / 10 ^ 12) ≤ f32 1 := by
        apply f32_mono
        rw [div_le_one (by norm_num)]
        exact_mod_cast (log2_literals_lt s hs).le
      exact this.trans (by decide +kernel)
    have h2 : 0 ≤ log2Table s' := by
      unfold log2Table
      rw [← f32_zero]
      apply f32_mono
      positivity
    have h3 : ((e : ℤ) : ℚ) + 1 ≤ ((e' : ℤ) : ℚ) := by exact_mod_cast h
    linarith
  · have h1 : e = e' := by omega
    subst h1
    have := mono (s := s) (s' := s') (by omega) hs'
    linarith

/-- Positive normal floats are ordered like their bits. -/
theorem C41_decode_monotone (a b : ℕ) (hb : b < 255 * 2 ^ 23) (hab : a < b) :
    decode a < decode b := by
  obtain ⟨e, m, rfl, hm⟩ : ∃ e m, a = e * 2 ^ 23 + m ∧ m < 2 ^ 23 :=
    ⟨a / 2 ^ 23, a % 2 ^ 23, by omega, by omega⟩
  obtain ⟨e', m', rfl, hm'⟩ : ∃ e m, b = e * 2 ^ 23 + m ∧ m < 2 ^ 23 :=
    ⟨b / 2 ^ 23, b % 2 ^ 23, by omega, by omega⟩
  rw [decode_mk (by omega) hm, decode_mk (by omega) hm']
  have hmq : (m : ℚ) / 2 ^ 23 < 1 := by rw [div_lt_one (by norm_num)]; exact_mod_cast hm
  have hmq' : 0 ≤ (m' : ℚ) / 2 ^ 23 := by positivity
  have hp : (0 : ℚ) < 2 ^ ((e : ℤ) - 127) := zpow_pos (by norm_num) _
  rcases Nat.lt_or_ge e e' with h | h
  · calc (2 : ℚ) ^ ((e : ℤ) - 127) * (1 + (m : ℚ) / 2 ^ 23) < 2 ^ ((e : ℤ) - 127) * 2 := by
          apply mul_lt_mul_of_pos_left _ hp; linarith
      _ = 2 ^ ((e : ℤ) - 127 + 1) := by rw [zpow_add₀ (by norm_num)]; norm_num
      _ ≤ 2 ^ ((e' : ℤ) - 127) := zpow_le_zpow_right₀ (by norm_num) (by omega)
      _ ≤ 2 ^ ((e' : ℤ) - 127) * (1 + (m' : ℚ) / 2 ^ 23) := by
          apply le_mul_of_one_le_right (zpow_pos (by norm_num) _).le; linarith
  · have h1 : e = e' := by omega
    subst h1
    apply mul_lt_mul_of_pos_left _ hp
    have : (m : ℚ) < m' := by exact_mod_cast (by omega : m < m')
    have := div_lt_div_of_pos_right this (show (0 : ℚ) < 2 ^ 23 by norm_num)
    linarith

/-- **C41.** For every `|x| <= 126`, `FastExp2` has a relative error of at most 0.14% (0.3% is
documented). -/
theorem C41_exp2 (x : ℚ) (h : |x| ≤ 126) :
    |((fastExp2 x : ℚ) : ℝ) - (2 : ℝ) ^ (x : ℝ)| ≤ 14 / 10000 * (2 : ℝ) ^ (x : ℝ) := by
  obtain ⟨h1, h2⟩ := fastExp2_rel h
  rw [abs_le]
  constructor <;> linarith

/-- **C41.** `FastExp2` is exact at integers. -/
theorem C41_exp2_integer (n : ℤ) (h : |n| ≤ 126) : fastExp2 n = 2 ^ n := by
  have h' : |(n : ℚ)| ≤ 126 := by exact_mod_cast h
  rw [abs_le] at h
  rw [fastExp2_eq h']
  have : fixed n = (n + 127) * 256 := by
    unfold fixed
    have : ((n : ℚ) + 127) * 2 ^ 8 = (((n + 127) * 256 : ℤ) : ℚ) := by push_cast; norm_num
    rw [this, rhe_int]
  rw [this]
  have h2 : ((n + 127) * 256).toNat / 256 = (n + 127).toNat := by omega
  have h3 : ((n + 127) * 256).toNat % 256 = 0 := by omega
  rw [h2, h3, Int.toNat_of_nonneg (by omega), show exp2Table.getD 0 0 = 0 by rfl]
  norm_num

/-- **C41.** `FastExp2` is monotone. -/
theorem C41_exp2_monotone (x y : ℚ) (hx : |x| ≤ 126) (hy : |y| ≤ 126) (h : x ≤ y) :
    fastExp2 x ≤ fastExp2 y := by
  have hk := fixed_mono h
  obtain ⟨r1, -⟩ := fixed_range hx
  obtain ⟨-, r2⟩ := fixed_range hy
  unfold fastExp2
  have hlt : ∀ z, |z| ≤ 126 → fastExp2Bits z < 255 * 2 ^ 23 := by
    intro z hz
    obtain ⟨-, r⟩ := fixed_range hz
    have := (exp2_bounds ((fixed z).toNat % 256) (Nat.mod_lt _ (by norm_num))).2.2
    rw [fastExp2Bits_eq hz]; omega
  have hb : fastExp2Bits x ≤ fastExp2Bits y := by
    have t1 := (exp2_bounds ((fixed x).toNat % 256) (Nat.mod_lt _ (by norm_num))).2.2
    rw [fastExp2Bits_eq hx, fastExp2Bits_eq hy]
    have hle : (fixed x).toNat ≤ (fixed y).toNat := by omega
    rcases Nat.lt_or_ge ((fixed x).toNat / 256) ((fixed y).toNat / 256) with h1 | h1
    · omega
    · have h2 : (fixed x).toNat / 256 = (fixed y).toNat / 256 := by omega
      have := table_le (j := (fixed x).toNat % 256) (i := (fixed y).toNat % 256) (by omega)
        (Nat.mod_lt _ (by norm_num))
      omega
  rcases hb.lt_or_eq with h1 | h1
  · exact (C41_decode_monotone _ _ (hlt y hy) h1).le
  · rw [h1]

/-- **C41.** The error of `FastPow` in the exponent, for every positive normal `x` and every `y` for
which the computed exponent is in the domain of `FastExp2`. It grows with `|y|`. -/
theorem C41_pow_general (b : ℕ) (hb : b < 255 * 2 ^ 23) (y : ℚ)
    (hz : |f32 (fastLog2 b * y)| ≤ 126) :
    |Real.logb 2 ((fastPow b y : ℚ) : ℝ) - y * Real.logb 2 ((decode b : ℚ) : ℝ)| ≤
      3 / 1000 * |(y : ℝ)| + 211 / 100000 := by
  have h1 := C41_log2 b hb
  have h2 := fastExp2_logb hz
  have h3 := f32_err (fastLog2 b * y)
  unfold fastPow
  generalize fastLog2 b = L at *
  generalize f32 (L * y) = z at *
  generalize Real.logb 2 ((decode b : ℚ) : ℝ) = l at *
  generalize Real.logb 2 ((fastExp2 z : ℚ) : ℝ) = w at *
  have hLy : |L * y| ≤ 127 := by
    have : |L * y| ≤ |z| + |z - L * y| := by
      have := abs_sub_abs_le_abs_sub (L * y) z
      rw [abs_sub_comm] at this
      linarith
    have h3' : |z - L * y| ≤ |L * y| * (1 / 2 ^ 24) := by rw [mul_one_div]; exact h3
    have : |L * y| * (1 - 1 / 2 ^ 24) ≤ 126 := by linarith
    norm_num at this
    nlinarith [abs_nonneg (L * y)]
  have h4 : |z - L * y| ≤ 1 / 100000 := by
    refine h3.trans ?_
    rw [div_le_iff₀ (by norm_num)]
    linarith
  have h5 : |(z : ℝ) - (L : ℝ) * y| ≤ 1 / 100000 := by
    have : ((|z - L * y| : ℚ) : ℝ) ≤ ((1 / 100000 : ℚ) : ℝ) := Rat.cast_le.2 h4
    push_cast at this
    exact this
  have h6 : |(L : ℝ) * y - y * l| ≤ 3 / 1000 * |(y : ℝ)| := by
    have : (L : ℝ) * y - y * l = ((L : ℝ) - l) * y := by ring
    rw [this, abs_mul]
    exact mul_le_mul_of_nonneg_right h1 (abs_nonneg _)
  have : w - y * l = (w - z) + (z - (L : ℝ) * y) + ((L : ℝ) * y - y * l) := by ring
  rw [this]
  refine (abs_add_le _ _).trans ?_
  have := abs_add_le (w - z) ((z : ℝ) - (L : ℝ) * y)
  linarith

theorem rpow_small_upper : (2 : ℝ) ^ ((1 : ℝ) / 150) ≤ 1 + 5 / 1000 := by
  have : ((2 : ℝ) ^ ((1 : ℝ) / 150)) ^ 150 ≤ (1 + 5 / 1000) ^ 150 := by
    rw [← Real.rpow_natCast, ← Real.rpow_mul (by norm_num)]
    norm_num
  exact le_of_pow_le_pow_left₀ (by norm_num) (by norm_num) this

theorem rpow_small_lower : 1 - 5 / 1000 ≤ (2 : ℝ) ^ (-((1 : ℝ) / 150)) := by
  have : (1 - 5 / 1000 : ℝ) ^ 150 ≤ ((2 : ℝ) ^ (-((1 : ℝ) / 150))) ^ 150 := by
    rw [← Real.rpow_natCast ((2 : ℝ) ^ (-((1 : ℝ) / 150))), ← Real.rpow_mul (by norm_num)]
    norm_num
  exact le_of_pow_le_pow_left₀ (by norm_num) (by positivity) this

theorem decode_pos {b : ℕ} (hb : b < 255 * 2 ^ 23) : 0 < decode b := by
  obtain ⟨e, m, rfl, hm⟩ : ∃ e m, b = e * 2 ^ 23 + m ∧ m < 2 ^ 23 :=
    ⟨b / 2 ^ 23, b % 2 ^ 23, by omega, by omega⟩
  rw [decode_mk (by omega) hm]
  exact mul_pos (zpow_pos (by norm_num) _) (by positivity)

/-- **C41.** In the documented domain `1e-37 <= x^y <= 1e37`, `FastPow` has the documented relative
error of at most 0.5% if `|y| <= 3/2`. Missing: the documentation does not restrict `y`, but for
larger `|y|` the error is larger, see `C41_pow_violation`. -/
theorem C41_pow_partial (b : ℕ) (hb : b < 255 * 2 ^ 23) (y : ℚ) (hy : |y| ≤ 3 / 2)
    (hlo : (10 : ℝ) ^ (-37 : ℤ) ≤ ((decode b : ℚ) : ℝ) ^ (y : ℝ))
    (hhi : ((decode b : ℚ) : ℝ) ^ (y : ℝ) ≤ (10 : ℝ) ^ (37 : ℤ)) :
    |((fastPow b y : ℚ) : ℝ) - ((decode b : ℚ) : ℝ) ^ (y : ℝ)| ≤
      5 / 1000 * ((decode b : ℚ) : ℝ) ^ (y : ℝ) := by
  have hd : (0 : ℝ) < ((decode b : ℚ) : ℝ) := by exact_mod_cast decode_pos hb
  obtain ⟨X, hX⟩ : ∃ X, X = ((decode b : ℚ) : ℝ) ^ (y : ℝ) := ⟨_, rfl⟩
  have hX0 : 0 < X := by rw [hX]; exact Real.rpow_pos_of_pos hd _
  rw [← hX] at hlo hhi ⊢
  have hlogX : Real.logb 2 X = y * Real.logb 2 ((decode b : ℚ) : ℝ) := by
    rw [hX, Real.logb_rpow_eq_mul_logb_of_pos hd]
  have hbound : |Real.logb 2 X| ≤ 123 := by
    have a : Real.logb 2 X ≤ 123 := by
      rw [Real.logb_le_iff_le_rpow (by norm_num) hX0]
      refine hhi.trans ?_
      rw [show (123 : ℝ) = ((123 : ℕ) : ℝ) by norm_num, Real.rpow_natCast]
      norm_num
    have b : -123 ≤ Real.logb 2 X := by
      rw [Real.le_logb_iff_rpow_le (by norm_num) hX0]
      refine le_trans ?_ hlo
      rw [show (-123 : ℝ) = ((-123 : ℤ) : ℝ) by norm_num, Real.rpow_intCast]
      norm_num
    rw [abs_le]; exact ⟨b, a⟩
  have hyR : |(y : ℝ)| ≤ 3 / 2 := by
    have : ((|y| : ℚ) : ℝ) ≤ ((3 / 2 : ℚ) : ℝ) := Rat.cast_le.2 hy
    push_cast at this
    exact this
  have h1 := C41_log2 b hb
  have hz : |f32 (fastLog2 b * y)| ≤ 126 := by
    have e1 : |((fastLog2 b : ℚ) : ℝ) * y - Real.logb 2 X| ≤ 1 := by
      rw [hlogX, show ((fastLog2 b : ℚ) : ℝ) * y - y * Real.logb 2 ((decode b : ℚ) : ℝ) =
        (((fastLog2 b : ℚ) : ℝ) - Real.logb 2 ((decode b : ℚ) : ℝ)) * y by ring, abs_mul]
      nlinarith [abs_nonneg (y : ℝ), abs_nonneg (((fastLog2 b : ℚ) : ℝ) -
        Real.logb 2 ((decode b : ℚ) : ℝ))]
    have e2 : |((fastLog2 b : ℚ) : ℝ) * y| ≤ 124 := by
      rw [abs_le] at e1 hbound ⊢
      constructor <;> linarith [e1.1, e1.2, hbound.1, hbound.2]
    have e3 : |fastLog2 b * y| ≤ 124 := by
      have : ((|fastLog2 b * y| : ℚ) : ℝ) ≤ ((124 : ℚ) : ℝ) := by push_cast; exact e2
      exact Rat.cast_le.1 this
    have e4 := f32_err (fastLog2 b * y)
    generalize fastLog2 b * y = v at *
    have f2 : |f32 v - v| ≤ 1 := e4.trans (by rw [div_le_iff₀ (by norm_num)]; linarith)
    rw [abs_le] at f2 e3 ⊢
    constructor <;> linarith [f2.1, f2.2, e3.1, e3.2]
  have h2 := C41_pow_general b hb y hz
  have hpos : (0 : ℝ) < ((fastPow b y : ℚ) : ℝ) := by exact_mod_cast fastExp2_pos hz
  rw [← hlogX] at h2
  generalize ((fastPow b y : ℚ) : ℝ) = F at *
  have h3 : |Real.logb 2 F - Real.logb 2 X| ≤ 1 / 150 := h2.trans (by linarith)
  rw [abs_le] at h3
  have hF : F = 2 ^ Real.logb 2 F := (Real.rpow_logb (by norm_num) (by norm_num) hpos).symm
  have hXX : X = 2 ^ Real.logb 2 X := (Real.rpow_logb (by norm_num) (by norm_num) hX0).symm
  have up : F ≤ (1 + 5 / 1000) * X := by
    calc F = 2 ^ Real.logb 2 F := hF
      _ ≤ 2 ^ ((1 : ℝ) / 150 + Real.logb 2 X) :=
        Real.rpow_le_rpow_of_exponent_le (by norm_num) (by linarith)
      _ = 2 ^ ((1 : ℝ) / 150) * X := by rw [Real.rpow_add (by norm_num), ← hXX]
      _ ≤ _ := mul_le_mul_of_nonneg_right rpow_small_upper hX0.le
  have lo : (1 - 5 / 1000) * X ≤ F := by
    calc (1 - 5 / 1000) * X ≤ 2 ^ (-((1 : ℝ) / 150)) * X :=
          mul_le_mul_of_nonneg_right rpow_small_lower hX0.le
      _ = 2 ^ (-((1 : ℝ) / 150) + Real.logb 2 X) := by rw [Real.rpow_add (by norm_num), ← hXX]
      _ ≤ 2 ^ Real.logb 2 F := Real.rpow_le_rpow_of_exponent_le (by norm_num) (by linarith)
      _ = F := hF.symm
  rw [abs_le]
  constructor <;> linarith

/-- The documented 0.5% does not hold for all `y`: `FastPow(1, 40)` is more than 1.07 and
`FastPow(1, 1000)` is more than 7, while all powers of 1 are 1. -/
theorem C41_pow_violation :
    decode 0x3f800000 = 1 ∧ 107 / 100 < fastPow 0x3f800000 40 ∧ 7 < fastPow 0x3f800000 1000 := by
  decide +kernel

/-- **C41.** `FastTanh` is within `[-1, 1]`. -/
theorem C41_tanh_range (x : ℚ) : |fastTanh x| ≤ 1 := by
  unfold fastTanh
  split_ifs with h1 h2
  · norm_num
  · norm_num
  dsimp only
  have hc : tanhCutoff ≤ 10 := by decide +kernel
  have hx : |x| ≤ 10 := by push Not at h1 h2; rw [abs_le]; constructor <;> linarith
  have hz : |f32 (twoOverLn2 * x)| ≤ 126 := by
    have f := f32_err (twoOverLn2 * x)
    have : |twoOverLn2 * x| ≤ 30 := by
      rw [abs_mul]
      have : |twoOverLn2| ≤ 3 := by unfold twoOverLn2; norm_num
      nlinarith [abs_nonneg x, abs_nonneg twoOverLn2]
    generalize twoOverLn2 * x = v at *
    have f2 : |f32 v - v| ≤ 1 := f.trans (by rw [div_le_iff₀ (by norm_num)]; linarith)
    rw [abs_le] at *
    constructor <;> linarith [f2.1, f2.2, this.1, this.2]
  have hy := fastExp2_pos hz
  generalize fastExp2 (f32 (twoOverLn2 * x)) = y at hy
  have hB := f32_pos (q := y + 1) (by linarith)
  have u : f32 (y - 1) ≤ f32 (y + 1) := f32_mono (by linarith)
  have l : -f32 (y + 1) ≤ f32 (y - 1) := by rw [← f32_neg]; exact f32_mono (by linarith)
  have f1 : f32 1 = 1 := by decide +kernel
  have a : f32 (f32 (y - 1) / f32 (y + 1)) ≤ f32 1 := f32_mono (by rw [div_le_one hB]; exact u)
  have b : f32 (-1) ≤ f32 (f32 (y - 1) / f32 (y + 1)) :=
    f32_mono (by rw [le_div_iff₀ hB]; linarith)
  rw [f32_neg, f1] at b
  rw [f1] at a
  rw [abs_le]; exact ⟨b, a⟩

theorem tanh_eq (x : ℝ) : Real.tanh x = (Real.exp (2 * x) - 1) / (Real.exp (2 * x) + 1) := by
  rw [Real.tanh_eq_sinh_div_cosh, Real.sinh_eq, Real.cosh_eq]
  have h : Real.exp (2 * x) = Real.exp x * Real.exp x := by rw [← Real.exp_add]; congr 1; ring
  have h2 : Real.exp x * Real.exp (-x) = 1 := by rw [← Real.exp_add]; simp
  have p := Real.exp_pos x
  have q := Real.exp_pos (-x)
  rw [h]
  rw [div_eq_div_iff (by positivity) (by positivity)]
  linear_combination (-1) * Real.exp x * h2

/-- The error of the quotient computed by `FastTanh` from rounded operands. -/
theorem quotient_err {y : ℚ} (hy : 0 < y) :
    |f32 (f32 (y - 1) / f32 (y + 1)) - (y - 1) / (y + 1)| ≤ 1 / 2 ^ 21 := by
  have hB := f32_pos (q := y + 1) (by linarith)
  have eA := f32_err (y - 1)
  have eB := f32_err (y + 1)
  have e := f32_err (f32 (y - 1) / f32 (y + 1))
  have u : f32 (y - 1) ≤ f32 (y + 1) := f32_mono (by linarith)
  have l : -f32 (y + 1) ≤ f32 (y - 1) := by rw [← f32_neg]; exact f32_mono (by linarith)
  generalize f32 (y - 1) = A at *
  generalize f32 (y + 1) = B at *
  have hAB : |A / B| ≤ 1 := by
    rw [abs_div, abs_of_pos hB, div_le_one hB, abs_le]; exact ⟨l, u⟩
  have hy1 : |y - 1| ≤ y + 1 := by rw [abs_le]; constructor <;> linarith
  have hy2 : |y + 1| = y + 1 := abs_of_pos (by linarith)
  rw [hy2] at eB
  have eA' : |A - (y - 1)| ≤ (y + 1) / 2 ^ 24 :=
    eA.trans (div_le_div_of_nonneg_right hy1 (by norm_num))
  have q : |A / B - (y - 1) / (y + 1)| ≤ 4 / 2 ^ 24 := by
    have hBlow : (y + 1) / 2 ≤ B := by rw [abs_le] at eB; linarith [eB.1]
    have hy3 : 0 < y + 1 := by linarith
    have : A / B - (y - 1) / (y + 1) =
        ((A - (y - 1)) - (y - 1) / (y + 1) * (B - (y + 1))) / B := by
      field_simp; ring
    rw [this, abs_div, abs_of_pos hB, div_le_iff₀ hB]
    have r1 : |(y - 1) / (y + 1)| ≤ 1 := by rw [abs_div, hy2, div_le_one hy3]; exact hy1
    have r2 : |(y - 1) / (y + 1) * (B - (y + 1))| ≤ (y + 1) / 2 ^ 24 := by
      rw [abs_mul]
      refine (mul_le_mul_of_nonneg_right r1 (abs_nonneg _)).trans ?_
      rw [one_mul]; exact eB
    have r3 := abs_sub (A - (y - 1)) ((y - 1) / (y + 1) * (B - (y + 1)))
    calc _ ≤ |A - (y - 1)| + |(y - 1) / (y + 1) * (B - (y + 1))| := r3
      _ ≤ (y + 1) / 2 ^ 24 + (y + 1) / 2 ^ 24 := add_le_add eA' r2
      _ ≤ 4 / 2 ^ 24 * B := by norm_num; linarith
  have e' : |f32 (A / B) - A / B| ≤ 1 / 2 ^ 24 :=
    e.trans (div_le_div_of_nonneg_right hAB (by norm_num))
  rw [abs_le] at *
  norm_num at *
  constructor <;> linarith [e'.1, e'.2, q.1, q.2]

/-- **C41.** `FastTanh` is within 0.0008 of the hyperbolic tangent, for every argument. -/
theorem C41_tanh (x : ℚ) : |((fastTanh x : ℚ) : ℝ) - Real.tanh x| ≤ 8 / 10000 := by
  have big : ∀ t : ℝ, 9 ≤ t → |1 - Real.tanh t| ≤ 8 / 10000 := by
    intro t ht
    have h1 : (2 : ℝ) ^ 18 ≤ Real.exp (2 * t) := by
      calc (2 : ℝ) ^ 18 ≤ Real.exp 1 ^ 18 :=
            pow_le_pow_left₀ (by norm_num) (by have := Real.add_one_le_exp (1 : ℝ); linarith) _
        _ = Real.exp 18 := by rw [← Real.exp_nat_mul]; norm_num
        _ ≤ _ := Real.exp_le_exp.2 (by linarith)
    rw [tanh_eq]
    generalize Real.exp (2 * t) = Y at *
    have hY : 0 < Y + 1 := by linarith
    have : 1 - (Y - 1) / (Y + 1) = 2 / (Y + 1) := by field_simp; ring
    rw [this, abs_of_pos (by positivity), div_le_iff₀ hY]
    norm_num at h1
    linarith
  have hcut : 9 ≤ tanhCutoff ∧ tanhCutoff ≤ 10 := by decide +kernel
  unfold fastTanh
  split_ifs with h1 h2
  · have : (9 : ℝ) ≤ x := by exact_mod_cast hcut.1.trans h1
    push_cast
    exact big _ this
  · have : (9 : ℝ) ≤ -x := by
      have : (9 : ℚ) ≤ -x := by linarith [hcut.1]
      exact_mod_cast this
    have := big _ this
    rw [Real.tanh_neg] at this
    push_cast
    rw [← abs_neg]
    convert this using 2
    ring
  dsimp only
  have hx : |x| ≤ 10 := by push Not at h1 h2; rw [abs_le]; constructor <;> linarith [hcut.2]
  have hc : |twoOverLn2| ≤ 3 := by unfold twoOverLn2; norm_num
  have hv : |twoOverLn2 * x| ≤ 30 := by
    rw [abs_mul]
    nlinarith [abs_nonneg x, abs_nonneg twoOverLn2]
  have f := f32_err (twoOverLn2 * x)
  have hzv : |f32 (twoOverLn2 * x) - twoOverLn2 * x| ≤ 30 / 2 ^ 24 :=
    f.trans (div_le_div_of_nonneg_right hv (by norm_num))
  have hz : |f32 (twoOverLn2 * x)| ≤ 126 := by
    rw [abs_le] at *
    norm_num at hzv
    constructor <;> linarith [hzv.1, hzv.2, hv.1, hv.2]
  have hy := fastExp2_pos hz
  have hrel := fastExp2_rel hz
  have hzR : |((f32 (twoOverLn2 * x) : ℚ) : ℝ) - ((twoOverLn2 : ℚ) : ℝ) * x| ≤ 30 / 2 ^ 24 := by
    have : ((|f32 (twoOverLn2 * x) - twoOverLn2 * x| : ℚ) : ℝ) ≤ ((30 / 2 ^ 24 : ℚ) : ℝ) :=
      Rat.cast_le.2 hzv
    push_cast at this
    exact this
  generalize f32 (twoOverLn2 * x) = z at *
  have hquot := quotient_err hy
  have hquotR : |((f32 (f32 (fastExp2 z - 1) / f32 (fastExp2 z + 1)) : ℚ) : ℝ) -
      (((fastExp2 z : ℚ) : ℝ) - 1) / (((fastExp2 z : ℚ) : ℝ) + 1)| ≤ 1 / 2 ^ 21 := by
    have : ((|f32 (f32 (fastExp2 z - 1) / f32 (fastExp2 z + 1)) -
        (fastExp2 z - 1) / (fastExp2 z + 1)| : ℚ) : ℝ) ≤ ((1 / 2 ^ 21 : ℚ) : ℝ) :=
      Rat.cast_le.2 hquot
    push_cast at this
    exact this
  generalize ((f32 (f32 (fastExp2 z - 1) / f32 (fastExp2 z + 1)) : ℚ) : ℝ) = t at *
  generalize ((fastExp2 z : ℚ) : ℝ) = y at *
  -- the exact exponential
  have hxR : |(x : ℝ)| ≤ 10 := by exact_mod_cast hx
  have l1 := Real.log_two_gt_d9
  have l2 := Real.log_two_lt_d9
  have hdiff : |(z : ℝ) * Real.log 2 - 2 * x| ≤ 4 / 1000000 := by
    have e1 : |((twoOverLn2 : ℚ) : ℝ) * Real.log 2 - 2| ≤ 1 / 10000000 := by
      unfold twoOverLn2
      push_cast
      rw [abs_le]
      constructor <;> norm_num <;> linarith
    have e2 : (z : ℝ) * Real.log 2 - 2 * x =
        ((z : ℝ) - ((twoOverLn2 : ℚ) : ℝ) * x) * Real.log 2 +
        (((twoOverLn2 : ℚ) : ℝ) * Real.log 2 - 2) * x := by ring
    rw [e2]
    refine (abs_add_le _ _).trans ?_
    rw [abs_mul, abs_mul, abs_of_pos (show 0 < Real.log 2 by linarith)]
    have e3 : |((twoOverLn2 : ℚ) : ℝ) * Real.log 2 - 2| * |(x : ℝ)| ≤ 1 / 10000000 * 10 :=
      mul_le_mul e1 hxR (abs_nonneg _) (by norm_num)
    have e4 : |(z : ℝ) - ((twoOverLn2 : ℚ) : ℝ) * x| * Real.log 2 ≤ 30 / 2 ^ 24 * 1 :=
      mul_le_mul hzR (by linarith) (by linarith) (by norm_num)
    norm_num at e3 e4 ⊢
    linarith
  have h2z : (2 : ℝ) ^ (z : ℝ) =
      Real.exp (2 * x) * Real.exp ((z : ℝ) * Real.log 2 - 2 * x) := by
    rw [← Real.exp_add, Real.rpow_def_of_pos (by norm_num)]
    congr 1; ring
  rw [h2z] at hrel
  rw [tanh_eq]
  have hY := Real.exp_pos (2 * (x : ℝ))
  generalize Real.exp (2 * (x : ℝ)) = Y at *
  rw [abs_le] at hdiff
  have ed1 : 1 - 4 / 1000000 ≤ Real.exp ((z : ℝ) * Real.log 2 - 2 * x) := by
    have := Real.add_one_le_exp ((z : ℝ) * Real.log 2 - 2 * x)
    linarith [hdiff.1]
  have ed2 : Real.exp ((z : ℝ) * Real.log 2 - 2 * x) ≤ 1 + 5 / 1000000 := by
    have h3 := Real.add_one_le_exp (-((z : ℝ) * Real.log 2 - 2 * x))
    rw [Real.exp_neg] at h3
    have h4 : 1 - 4 / 1000000 ≤ (Real.exp ((z : ℝ) * Real.log 2 - 2 * x))⁻¹ := by
      linarith [hdiff.2]
    rw [le_inv_comm₀ (by norm_num) (Real.exp_pos _)] at h4
    exact h4.trans (by norm_num)
  generalize Real.exp ((z : ℝ) * Real.log 2 - 2 * x) = d at *
  have y1 : (1 - 141 / 100000) * Y ≤ y := by
    refine le_trans ?_ hrel.1
    nlinarith
  have y2 : y ≤ (1 + 141 / 100000) * Y := by
    refine hrel.2.trans ?_
    nlinarith
  have hy0 : 0 < y := by nlinarith
  have main : |(y - 1) / (y + 1) - (Y - 1) / (Y + 1)| ≤ 79 / 100000 := by
    have : (y - 1) / (y + 1) - (Y - 1) / (Y + 1) = 2 * (y - Y) / ((y + 1) * (Y + 1)) := by
      field_simp; ring
    rw [this, abs_div, abs_of_pos (show 0 < (y + 1) * (Y + 1) by positivity),
      div_le_iff₀ (by positivity), abs_mul, abs_of_pos (show (0 : ℝ) < 2 by norm_num)]
    have hd : |y - Y| ≤ 141 / 100000 * Y := by rw [abs_le]; constructor <;> linarith
    have hprod : (1 - 141 / 100000) * (4 * Y) ≤ (y + 1) * (Y + 1) := by
      nlinarith [mul_nonneg (show (0:ℝ) ≤ 1 - 141/100000 by norm_num) (sq_nonneg (Y - 1)),
        mul_pos hy0 hY]
    linarith
  have tot := abs_sub_le t ((y - 1) / (y + 1)) ((Y - 1) / (Y + 1))
  refine tot.trans ?_
  norm_num at hquotR main ⊢
  linarith

/-- `FastTanh` is not monotone, although `FastExp2` is: near 8.32 rounding makes it decrease. -/
theorem C41_tanh_not_monotone :
    (8519 / 1024 : ℚ) < 8520 / 1024 ∧ fastTanh (8520 / 1024) < fastTanh (8519 / 1024) := by
  decide +kernel

/-- Concrete cases of the hypotheses: `x = 2.5` (bits `0x40200000`), `y = -1/2`, as used by the
automatic gain control. -/
example : |((fastPow 0x40200000 (-1 / 2) : ℚ) : ℝ) -
    ((decode 0x40200000 : ℚ) : ℝ) ^ ((-1 / 2 : ℚ) : ℝ)| ≤
      5 / 1000 * ((decode 0x40200000 : ℚ) : ℝ) ^ ((-1 / 2 : ℚ) : ℝ) := by
  have e : ((decode 0x40200000 : ℚ) : ℝ) = 5 / 2 := by
    have : decode 0x40200000 = 5 / 2 := by decide +kernel
    rw [this]; norm_num
  apply C41_pow_partial _ (by norm_num) _ (by norm_num [abs_le])
  · rw [e]
    push_cast
    rw [Real.rpow_def_of_pos (by norm_num)]
    have h1 : Real.log (5 / 2) ≤ 2 := by
      have := Real.log_le_sub_one_of_pos (show (0 : ℝ) < 5 / 2 by norm_num); linarith
    have h2 := Real.add_one_le_exp (Real.log (5 / 2) * (-1 / 2 : ℝ) + 0)
    have : (10 : ℝ) ^ (-37 : ℤ) ≤ 1 / 4 := by norm_num
    have h3 : Real.log (5 / 2) ≤ 3 / 2 := by
      have := Real.log_le_sub_one_of_pos (show (0 : ℝ) < 5 / 2 by norm_num); linarith
    rw [add_zero] at h2
    linarith
  · rw [e]
    have : ((5 / 2 : ℝ)) ^ ((-1 / 2 : ℚ) : ℝ) ≤ 1 :=
      Real.rpow_le_one_of_one_le_of_nonpos (by norm_num) (by push_cast; norm_num)
    exact this.trans (by norm_num)

end Verif.FastFun
