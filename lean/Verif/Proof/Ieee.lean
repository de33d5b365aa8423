import Verif.Proof.Rounding
import Verif.Proof.Float32
import Mathlib.Data.Int.Log

/-! IEEE rounding is odd, monotone and the identity on representable numbers. -/

namespace Verif.Rounding

theorem rhe_cases (q : ℝ) :
    (roundHalfEven q = ⌊q⌋ ∧ q - ⌊q⌋ ≤ 1 / 2) ∨ (roundHalfEven q = ⌊q⌋ + 1 ∧ 1 / 2 ≤ q - ⌊q⌋) := by
  unfold roundHalfEven
  dsimp only
  split_ifs with h1 h2 h3
  · left; exact ⟨rfl, h1.le⟩
  · right; exact ⟨rfl, h2.le⟩
  · left; exact ⟨rfl, by linarith⟩
  · right; exact ⟨rfl, by linarith⟩

theorem rhe_int (n : ℤ) : roundHalfEven n = n := by
  unfold roundHalfEven
  dsimp only
  rw [if_pos (by simp)]
  simp

theorem rhe_mono {p q : ℝ} (h : p ≤ q) : roundHalfEven p ≤ roundHalfEven q := by
  have hf : ⌊p⌋ ≤ ⌊q⌋ := Int.floor_le_floor h
  rcases hf.lt_or_eq with hlt | heq
  · have a : roundHalfEven p ≤ ⌊p⌋ + 1 := by
      rcases rhe_cases p with ⟨h, -⟩ | ⟨h, -⟩ <;> omega
    have b : ⌊q⌋ ≤ roundHalfEven q := by
      rcases rhe_cases q with ⟨h, -⟩ | ⟨h, -⟩ <;> omega
    omega
  · unfold roundHalfEven
    dsimp only
    rw [heq]
    split_ifs <;> first | omega | (exfalso; linarith)

theorem rhe_neg (q : ℝ) : roundHalfEven (-q) = -roundHalfEven q := by
  have h1 := Int.floor_le q
  have h2 := Int.lt_floor_add_one q
  rcases h1.lt_or_eq with hlt | heq
  · have hf : ⌊-q⌋ = -⌊q⌋ - 1 := by
      rw [Int.floor_eq_iff]; push_cast; constructor <;> linarith
    unfold roundHalfEven
    dsimp only
    rw [hf]
    push_cast
    split_ifs <;> first | omega | (exfalso; linarith)
  · rw [← heq, ← Int.cast_neg, rhe_int, rhe_int]

theorem ieee_neg (p : ℕ) (emin : ℤ) (x : ℝ) : ieee p emin (-x) = -ieee p emin x := by
  unfold ieee
  dsimp only
  rw [abs_neg, neg_div, rhe_neg]
  push_cast
  ring

theorem ieee_zero (p : ℕ) (emin : ℤ) : ieee p emin 0 = 0 := by simp [ieee, roundHalfEven]

/-- If `x ≤ m ulp` for an integer `m` then so is the rounded value. -/
theorem ieee_le_mul {p : ℕ} {emin : ℤ} {x : ℝ} {m : ℤ}
    (h : x ≤ m * (2 : ℝ) ^ max (Int.log 2 |x| + 1 - p) emin) :
    ieee p emin x ≤ m * (2 : ℝ) ^ max (Int.log 2 |x| + 1 - p) emin := by
  unfold ieee
  dsimp only
  have hu : (0 : ℝ) < 2 ^ max (Int.log 2 |x| + 1 - p) emin := zpow_pos (by norm_num) _
  generalize (2 : ℝ) ^ max (Int.log 2 |x| + 1 - p) emin = v at *
  have := rhe_mono ((div_le_iff₀ hu).2 h)
  rw [rhe_int] at this
  exact mul_le_mul_of_nonneg_right (by exact_mod_cast this) hu.le

/-- The same from below. -/
theorem mul_le_ieee {p : ℕ} {emin : ℤ} {x : ℝ} {m : ℤ}
    (h : m * (2 : ℝ) ^ max (Int.log 2 |x| + 1 - p) emin ≤ x) :
    m * (2 : ℝ) ^ max (Int.log 2 |x| + 1 - p) emin ≤ ieee p emin x := by
  unfold ieee
  dsimp only
  have hu : (0 : ℝ) < 2 ^ max (Int.log 2 |x| + 1 - p) emin := zpow_pos (by norm_num) _
  generalize (2 : ℝ) ^ max (Int.log 2 |x| + 1 - p) emin = v at *
  have := rhe_mono ((le_div_iff₀ hu).2 h)
  rw [rhe_int] at this
  exact mul_le_mul_of_nonneg_right (by exact_mod_cast this) hu.le

theorem two_zpow_split {e E : ℤ} (h : E ≤ e) : (2 : ℝ) ^ e = ((2 ^ (e - E).toNat : ℤ) : ℝ) * 2 ^ E := by
  push_cast
  rw [← zpow_natCast, Int.toNat_of_nonneg (by omega), ← zpow_add₀ (by norm_num)]
  congr 1
  omega

theorem log_lower {x : ℝ} (h : 0 < x) : (2 : ℝ) ^ Int.log 2 x ≤ x := by
  have := Int.zpow_log_le_self (b := 2) (by norm_num) h
  simpa using this

theorem log_upper (x : ℝ) : x < (2 : ℝ) ^ (Int.log 2 x + 1) := by
  have := Int.lt_zpow_succ_log_self (b := 2) (by norm_num) x
  simpa using this

theorem ieee_mono_pos {p : ℕ} (hp : 1 ≤ p) {emin : ℤ} {x y : ℝ} (hx : 0 < x) (h : x ≤ y) :
    ieee p emin x ≤ ieee p emin y := by
  have hy : 0 < y := hx.trans_le h
  have hl : Int.log 2 |x| ≤ Int.log 2 |y| := by
    rw [abs_of_pos hx, abs_of_pos hy]
    exact Int.log_mono_right hx h
  by_cases e : max (Int.log 2 |x| + 1 - p) emin = max (Int.log 2 |y| + 1 - p) emin
  · unfold ieee
    dsimp only
    rw [e]
    have hu : (0 : ℝ) < 2 ^ max (Int.log 2 |y| + 1 - p) emin := zpow_pos (by norm_num) _
    apply mul_le_mul_of_nonneg_right _ hu.le
    exact_mod_cast rhe_mono (div_le_div_of_nonneg_right h hu.le)
  · have hE : max (Int.log 2 |y| + 1 - p) emin = Int.log 2 |y| + 1 - p := by omega
    have s1 := two_zpow_split (e := Int.log 2 |y|) (E := max (Int.log 2 |x| + 1 - p) emin) (by omega)
    have s2 := two_zpow_split (e := Int.log 2 |y|) (E := max (Int.log 2 |y| + 1 - p) emin) (by omega)
    have a : x ≤ 2 ^ Int.log 2 |y| := by
      have := log_upper |x|
      rw [abs_of_pos hx] at this
      refine this.le.trans (zpow_le_zpow_right₀ (by norm_num) ?_)
      rw [abs_of_pos hx] at e hl
      omega
    have b : 2 ^ Int.log 2 |y| ≤ y := by
      rw [abs_of_pos hy]; exact log_lower hy
    rw [s1] at a
    rw [s2] at b
    have c := ieee_le_mul a
    have d := mul_le_ieee b
    rw [← s1] at c
    rw [← s2] at d
    exact c.trans d

theorem ieee_nonneg {p : ℕ} {emin : ℤ} {x : ℝ} (h : 0 ≤ x) : 0 ≤ ieee p emin x := by
  have := mul_le_ieee (p := p) (emin := emin) (x := x) (m := 0) (by simpa using h)
  simpa using this

theorem ieee_mono {p : ℕ} (hp : 1 ≤ p) (emin : ℤ) : Monotone (ieee p emin) := by
  intro x y h
  rcases lt_trichotomy x 0 with hx | rfl | hx
  · rcases le_or_gt 0 y with hy | hy
    · have := ieee_nonneg (p := p) (emin := emin) (x := -x) (by linarith)
      rw [ieee_neg] at this
      have := ieee_nonneg (p := p) (emin := emin) hy
      linarith
    · have := ieee_mono_pos hp (emin := emin) (x := -y) (y := -x) (by linarith) (by linarith)
      rw [ieee_neg, ieee_neg] at this
      linarith
  · rw [ieee_zero]; exact ieee_nonneg h
  · exact ieee_mono_pos hp hx h

/-- `v` has `p` significant bits and is a multiple of the smallest subnormal number. -/
def Representable (p : ℕ) (emin : ℤ) (v : ℝ) : Prop := ∃ m e : ℤ, |m| ≤ 2 ^ p ∧ emin ≤ e ∧ v = m * 2 ^ e

theorem ieee_representable (p : ℕ) (emin : ℤ) (x : ℝ) : Representable p emin (ieee p emin x) := by
  refine ⟨_, _, ?_, le_max_right _ _, rfl⟩
  have hu : (0 : ℝ) < 2 ^ max (Int.log 2 |x| + 1 - p) emin := zpow_pos (by norm_num) _
  have b : |x| ≤ ((2 ^ p : ℤ) : ℝ) * 2 ^ max (Int.log 2 |x| + 1 - p) emin := by
    refine (log_upper |x|).le.trans ?_
    push_cast
    rw [← zpow_natCast, ← zpow_add₀ (by norm_num)]
    exact zpow_le_zpow_right₀ (by norm_num) (by omega)
  have b' := abs_le.1 b
  rw [abs_le]
  constructor
  · have := rhe_mono (p := ((-(2 ^ p) : ℤ) : ℝ)) (q := x / 2 ^ max (Int.log 2 |x| + 1 - p) emin)
      ((le_div_iff₀ hu).2 (by push_cast at b' ⊢; linarith [b'.1]))
    rwa [rhe_int] at this
  · have := rhe_mono (p := x / 2 ^ max (Int.log 2 |x| + 1 - p) emin) (q := ((2 ^ p : ℤ) : ℝ))
      ((div_le_iff₀ hu).2 b'.2)
    rwa [rhe_int] at this

theorem ieee_of_representable {p : ℕ} (hp : 1 ≤ p) {emin : ℤ} {v : ℝ} (h : Representable p emin v) :
    ieee p emin v = v := by
  obtain ⟨m, e, hm, he, rfl⟩ := h
  have key : ∀ {v : ℝ} {k : ℤ}, v = k * 2 ^ max (Int.log 2 |v| + 1 - p) emin → ieee p emin v = v := by
    intro v k h
    exact le_antisymm ((ieee_le_mul h.le).trans h.ge) (h.le.trans (mul_le_ieee h.ge))
  by_cases h0 : m = 0
  · subst h0; simp [ieee_zero]
  have hv : (0 : ℝ) < |(m : ℝ) * 2 ^ e| := abs_pos.2 (mul_ne_zero (by exact_mod_cast h0) (zpow_pos (by norm_num) _).ne')
  by_cases hE : max (Int.log 2 |(m : ℝ) * 2 ^ e| + 1 - p) emin ≤ e
  · refine key (k := m * 2 ^ (e - max (Int.log 2 |(m : ℝ) * 2 ^ e| + 1 - p) emin).toNat) ?_
    have := two_zpow_split hE
    push_cast at this ⊢
    rw [mul_assoc, ← this]
  · have l1 := log_lower hv
    have l2 : |(m : ℝ) * 2 ^ e| ≤ 2 ^ (e + p) := by
      rw [abs_mul, abs_of_pos (zpow_pos (by norm_num : (0 : ℝ) < 2) e), zpow_add₀ (by norm_num), mul_comm, zpow_natCast]
      apply mul_le_mul_of_nonneg_left _ (zpow_pos (by norm_num) _).le
      exact_mod_cast hm
    have l3 : (2 : ℝ) ^ (e + p) ≤ 2 ^ Int.log 2 |(m : ℝ) * 2 ^ e| := zpow_le_zpow_right₀ (by norm_num) (by omega)
    have l4 : (2 : ℝ) ^ Int.log 2 |(m : ℝ) * 2 ^ e| = 2 ^ (e + p) := le_antisymm (l1.trans l2) l3
    have l5 : Int.log 2 |(m : ℝ) * 2 ^ e| = e + p := zpow_right_injective₀ (by norm_num) (by norm_num) l4
    have l6 : |(m : ℝ) * 2 ^ e| = 2 ^ (e + p) := le_antisymm l2 (l4 ▸ l1)
    have s := two_zpow_split (e := e + p) (E := max (Int.log 2 |(m : ℝ) * 2 ^ e| + 1 - p) emin) (by omega)
    rcases abs_cases ((m : ℝ) * 2 ^ e) with ⟨c, -⟩ | ⟨c, -⟩
    · exact key (by rw [← s, ← l6, c])
    · refine key (k := -2 ^ (e + p - max (Int.log 2 |(m : ℝ) * 2 ^ e| + 1 - p) emin).toNat) ?_
      push_cast at s ⊢
      rw [neg_mul, ← s, ← l6, c, neg_neg]

theorem ieee_idem {p : ℕ} (hp : 1 ≤ p) (emin : ℤ) (x : ℝ) : ieee p emin (ieee p emin x) = ieee p emin x :=
  ieee_of_representable hp (ieee_representable p emin x)

/-- The properties of rounding used besides `Accurate`. -/
structure Regular (rnd : ℝ → ℝ) : Prop where
  mono : Monotone rnd
  idem : ∀ x, rnd (rnd x) = rnd x
  neg : ∀ x, rnd (-x) = -rnd x
  one : rnd 1 = 1

theorem ieee_regular {p : ℕ} (hp : 1 ≤ p) {emin : ℤ} (h : emin ≤ 0) : Regular (ieee p emin) :=
  ⟨ieee_mono hp emin, ieee_idem hp emin, ieee_neg p emin,
    ieee_of_representable hp ⟨1, 0, by simpa using one_le_pow₀ (by norm_num), h, by simp⟩⟩

theorem binary32_regular : Regular binary32 := ieee_regular (by norm_num) (by norm_num)

theorem binary64_regular : Regular binary64 := ieee_regular (by norm_num) (by norm_num)

theorem Regular.zero {rnd : ℝ → ℝ} (h : Regular rnd) : rnd 0 = 0 := by
  have := h.neg 0
  rw [neg_zero] at this
  linarith

theorem Regular.nonneg {rnd : ℝ → ℝ} (h : Regular rnd) {x : ℝ} (hx : 0 ≤ x) : 0 ≤ rnd x := by
  have := h.mono hx
  rwa [h.zero] at this

/-- The bits of a normal `float`. -/
theorem exists_bits {v : ℝ} (h : binary32 v = v) (h1 : (2 : ℝ) ^ (-126 : ℤ) ≤ v) (h2 : v < 2 ^ (128 : ℤ)) :
    ∃ b, b < 255 * 2 ^ 23 ∧ ((Float32.decode b : ℚ) : ℝ) = v := by
  have h0 : 0 < v := (zpow_pos (by norm_num) _).trans_le h1
  have l1 := log_lower h0
  have l2 := log_upper v
  have e1 : -126 ≤ Int.log 2 v := by
    have : (2 : ℝ) ^ (-126 : ℤ) < 2 ^ (Int.log 2 v + 1) := h1.trans_lt l2
    have := (zpow_lt_zpow_iff_right₀ (by norm_num : (1 : ℝ) < 2)).1 this
    omega
  have e2 : Int.log 2 v ≤ 127 := by
    have : (2 : ℝ) ^ Int.log 2 v < 2 ^ (128 : ℤ) := l1.trans_lt h2
    have := (zpow_lt_zpow_iff_right₀ (by norm_num : (1 : ℝ) < 2)).1 this
    omega
  unfold binary32 ieee at h
  dsimp only at h
  rw [abs_of_pos h0, max_eq_left (by push_cast; omega)] at h
  generalize Int.log 2 v = E at *
  generalize roundHalfEven (v / 2 ^ (E + 1 - ((24 : ℕ) : ℤ))) = m at h
  have s1 := two_zpow_split (e := E) (E := E + 1 - ((24 : ℕ) : ℤ)) (by push_cast; omega)
  have s2 := two_zpow_split (e := E + 1) (E := E + 1 - ((24 : ℕ) : ℤ)) (by push_cast; omega)
  have p : (0 : ℝ) < 2 ^ (E + 1 - ((24 : ℕ) : ℤ)) := zpow_pos (by norm_num) _
  rw [show (E - (E + 1 - ((24 : ℕ) : ℤ))).toNat = 23 by omega] at s1
  rw [show (E + 1 - (E + 1 - ((24 : ℕ) : ℤ))).toNat = 24 by omega] at s2
  have m1 : 2 ^ 23 ≤ m := by
    have : ((2 ^ 23 : ℤ) : ℝ) * 2 ^ (E + 1 - ((24 : ℕ) : ℤ)) ≤ m * 2 ^ (E + 1 - ((24 : ℕ) : ℤ)) := by rw [← s1, h]; exact l1
    exact_mod_cast le_of_mul_le_mul_right this p
  have m2 : m < 2 ^ 24 := by
    have : (m : ℝ) * 2 ^ (E + 1 - ((24 : ℕ) : ℤ)) < ((2 ^ 24 : ℤ) : ℝ) * 2 ^ (E + 1 - ((24 : ℕ) : ℤ)) := by rw [← s2, h]; exact l2
    exact_mod_cast lt_of_mul_lt_mul_right this p.le
  obtain ⟨f, hf⟩ : ∃ f : ℕ, m = 2 ^ 23 + f := ⟨(m - 2 ^ 23).toNat, by omega⟩
  obtain ⟨e, he⟩ : ∃ e : ℕ, E = e - 127 := ⟨(E + 127).toNat, by omega⟩
  refine ⟨e * 2 ^ 23 + f, by omega, ?_⟩
  rw [Float32.decode_mk (by omega) (by omega), ← h, hf, ← he]
  push_cast at s1 ⊢
  have : (2 : ℝ) ^ (E + 1 - 24) = 2 ^ E / 2 ^ 23 := by rw [s1]; ring
  rw [this]
  ring

theorem rhe_eq {q : ℝ} {m : ℤ} (h : |q - m| < 1 / 2 ∨ |q - m| ≤ 1 / 2 ∧ m % 2 = 0) : roundHalfEven q = m := by
  have h1 := Int.floor_le q
  have h2 := Int.lt_floor_add_one q
  have hc : |q - m| ≤ 1 / 2 := h.elim le_of_lt And.left
  rw [abs_le] at hc
  have b1 : ⌊q⌋ < m + 1 := by
    have : (⌊q⌋ : ℝ) < (m + 1 : ℤ) := by push_cast; linarith
    exact_mod_cast this
  have b2 : m - 1 < ⌊q⌋ + 1 := by
    have : ((m - 1 : ℤ) : ℝ) < (⌊q⌋ + 1 : ℤ) := by push_cast; linarith
    exact_mod_cast this
  unfold roundHalfEven
  dsimp only
  obtain e | e : ⌊q⌋ = m ∨ ⌊q⌋ = m - 1 := by omega
  · rw [e]
    split_ifs with c1 c2 c3
    · rfl
    · linarith
    · rfl
    · rcases h with h | ⟨-, h⟩
      · rw [abs_lt] at h; linarith
      · omega
  · rw [e]
    push_cast
    split_ifs with c1 c2 c3
    · linarith
    · omega
    · rcases h with h | ⟨-, h⟩
      · rw [abs_lt] at h; push_cast at *; linarith
      · omega
    · omega

/-- Evaluation of the rounding function. -/
theorem ieee_eq {p : ℕ} {emin e m : ℤ} {x : ℝ} (h1 : (2 : ℝ) ^ (e + p - 1) ≤ x) (h2 : x < (2 : ℝ) ^ (e + p)) (he : emin ≤ e)
    (h : |x / 2 ^ e - m| < 1 / 2 ∨ |x / 2 ^ e - m| ≤ 1 / 2 ∧ m % 2 = 0) : ieee p emin x = m * 2 ^ e := by
  have x0 : 0 < x := (zpow_pos (by norm_num) _).trans_le h1
  have hl : Int.log 2 |x| = e + p - 1 := by
    rw [abs_of_pos x0]
    have a : (2 : ℝ) ^ Int.log 2 x < 2 ^ (e + p) := (log_lower x0).trans_lt h2
    have b : (2 : ℝ) ^ (e + p - 1) < 2 ^ (Int.log 2 x + 1) := h1.trans_lt (log_upper x)
    have a' := (zpow_lt_zpow_iff_right₀ (by norm_num : (1 : ℝ) < 2)).1 a
    have b' := (zpow_lt_zpow_iff_right₀ (by norm_num : (1 : ℝ) < 2)).1 b
    omega
  unfold ieee
  dsimp only
  rw [hl, show max (e + p - 1 + 1 - (p : ℤ)) emin = e by omega, rhe_eq h]

end Verif.Rounding
