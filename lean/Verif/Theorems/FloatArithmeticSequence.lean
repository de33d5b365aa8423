import Verif.Proof.FloatArithmeticSequence
import Verif.Proof.FloatMelOverflow

/-!
# C113: `ArithmeticSequence` in double arithmetic

"Our design goal is: if B, S, L are within 4 epsilon relative difference of some B', S', L' for which (L' - B') / S' is
integer, we want to compute the sequence size N to be that integer" (number_util.cc:141-143, number_util.h:83-91).

* `C113_intended_size`: the goal is met by the rounded computation of the code, for both signs of the step and for all
  sizes up to `INT_MAX`, if the step is at least three times the documented tolerance: the constructor does not abort,
  the size is N, and all elements are within 6 epsilon of the intended ones, relative to the magnitude of the sequence.
* `C113_bracket`: for arbitrary arguments with such a step the constructor does not abort and the documented inequality
  for the size holds up to 2.5 epsilon.
* `C113_abort_violation`: for smaller steps the documentation only says that "results are unreliable"; in fact the
  constructor aborts the program for the one-element sequences from 1 to 1 with step 2^-54, 2^-55, ...

The arguments must not be so small that the computation underflows, and not so large that it overflows (overflow is not
modelled).
-/

namespace Verif.FloatArithmeticSequence
open Verif.ArithmeticSequence Verif.Rounding

/-- Machine epsilon of `double`. -/
noncomputable abbrev epsilon : ℝ := 1 / 2 ^ 52

/-- The documented tolerance, when the step is not small, number_util.h:89. -/
noncomputable def tolerance (base limit : ℝ) : ℝ := epsilon * (5 * (|base| + |limit|) + 7 * |limit - base|)

/-- No underflow. -/
def InRange (base step limit : ℝ) : Prop := 1 + |step| ≤ 2 ^ 960 * (|base| + |limit|)

theorem tolerance_eq (B L : ℝ) : tolerance B L = T (1 / 2 ^ 53) B L := by
  unfold tolerance T epsilon
  ring

theorem underflow {B S L : ℝ} (h : InRange B S L) :
    (1 / 2 ^ 1075 : ℝ) * (1 + |S|) ≤ (1 / 2 ^ 53) ^ 2 * (|B| + |L|) := by
  unfold InRange at h
  have h1 := mul_le_mul_of_nonneg_left h (by positivity : (0 : ℝ) ≤ 1 / 2 ^ 1075)
  refine h1.trans ?_
  rw [← mul_assoc]
  refine mul_le_mul_of_nonneg_right ?_ (by positivity)
  rw [one_div_mul_eq_div, div_le_iff₀ (by positivity)]
  rw [show ((2 : ℝ) ^ 1075) = 2 ^ 960 * 2 ^ 115 by rw [← pow_add]]
  have h2 : (0 : ℝ) < 2 ^ 960 := by positivity
  generalize (2 : ℝ) ^ 960 = w at *
  norm_num
  linarith

theorem InRange.pos {B S L : ℝ} (h : InRange B S L) : 0 < |B| + |L| := by
  unfold InRange at h
  by_contra h1
  have : |B| + |L| ≤ 0 := by linarith
  have h2 := mul_nonpos_of_nonneg_of_nonpos (by positivity : (0 : ℝ) ≤ 2 ^ 960) this
  have h3 := h.trans h2
  linarith only [abs_nonneg S, h3]

/-- The constructor in doubles. -/
theorem constructed64 {B S L : ℝ} (hS : S ≠ 0) (hr : InRange B S L) (hS3 : 3 * tolerance B L ≤ |S|)
    (hn : sign S * (L - B) + 2 * tolerance B L < (2 ^ 31 - 1) * |S|) (hn' : -(2 ^ 31) * |S| ≤ sign S * (L - B)) :
    ∃ s m, make binary64 epsilon B S L = some s ∧ s.size = max 0 m ∧ s.base = B ∧ (m = 1 → s.limit = B) ∧
      (1 < m → s.step = S ∧ (s.limit = L ∨ s.limit = binary64 (B + binary64 (S * ((m - 1 : ℤ) : ℝ))))) ∧
      sign S * (B + (m - 1) * S) ≤ sign S * L + tolerance B L + 1 / 2 ^ 53 * (4 * |L - B| + 1 / 2 * (|B| + |L|)) ∧
      sign S * L + tolerance B L - 1 / 2 ^ 53 * (4 * |L - B| + 1 / 2 * (|B| + |L|)) < sign S * (B + m * S) := by
  rw [tolerance_eq] at *
  have := constructed binary64_accurate binary64_regular
    (fun k hk => FloatMel.binary64_int k (hk.trans (by norm_num))) (by positivity) (by norm_num) hr.pos hS (underflow hr)
    hS3 hn hn'
  rwa [show (2 : ℝ) * (1 / 2 ^ 53) = epsilon by unfold epsilon; norm_num] at this

theorem sign_cases {S : ℝ} (hS : S ≠ 0) : (sign S = 1 ∧ |S| = S) ∨ (sign S = -1 ∧ |S| = -S) := by
  unfold sign
  rcases lt_or_gt_of_ne hS with h | h
  · right; rw [if_neg (by linarith), abs_of_neg h]; exact ⟨rfl, rfl⟩
  · left; rw [if_pos h, abs_of_pos h]; exact ⟨rfl, rfl⟩

/-- C113: arguments that are within 4 epsilon of a sequence from B' to L' with N elements produce N elements close to
the intended ones; the program is not aborted. -/
theorem C113_intended_size {B S L B' S' L' : ℝ} {N : ℤ} (h1 : 1 ≤ N) (h2 : N ≤ 2 ^ 31 - 1)
    (hN : B' + (N - 1) * S' = L') (hS0 : S ≠ 0)
    (hB : |B - B'| ≤ 4 * epsilon * |B'|) (hS : |S - S'| ≤ 4 * epsilon * |S'|) (hL : |L - L'| ≤ 4 * epsilon * |L'|)
    (hr : InRange B S L) (h3 : 3 * tolerance B L ≤ |S|) :
    ∃ s, make binary64 epsilon B S L = some s ∧ s.size = N ∧
      ∀ i : ℤ, 0 ≤ i → i < N → ∃ x, get binary64 s i = some x ∧
        |x - (B' + S' * i)| ≤ 6 * epsilon * (|B'| + |L'| + |L' - B'|) := by
  have he : ∀ x : ℝ, 4 * epsilon * x = 8 * (1 / 2 ^ 53) * x := fun x => by unfold epsilon; ring
  rw [he] at hB hS hL
  have hp := perturbed (by positivity) (by norm_num) hB hS hL hN
  have hm := magnitude (by positivity) (by norm_num) hB hL
  have hT : tolerance B L = 1 / 2 ^ 53 * (10 * (|B| + |L|) + 14 * |L - B|) := by unfold tolerance epsilon; ring
  have hw := hr.pos
  have hd := abs_nonneg (L - B)
  have hu : (0 : ℝ) < 1 / 2 ^ 53 := by positivity
  have hp' : |B + (N - 1) * S - L| ≤ 1 / 2 ^ 53 * (9 * (|B| + |L|) + 9 * |L - B|) := by
    refine hp.trans ?_
    rw [show (8 : ℝ) * (1 / 2 ^ 53) = 1 / 2 ^ 53 * 8 by ring, mul_assoc]
    refine mul_le_mul_of_nonneg_left ?_ hu.le
    linarith
  have hη1 : (1 / 2 ^ 1075 : ℝ) ≤ (1 / 2 ^ 53) ^ 2 * (|B| + |L|) := by
    refine le_trans ?_ (underflow hr)
    exact le_mul_of_one_le_right (by positivity) (by linarith [abs_nonneg S])
  have key : ∀ k : ℝ, 0 ≤ k → k ≤ N - 1 →
      |binary64 (B + binary64 (S * k)) - (B' + S' * k)| ≤ 6 * epsilon * (|B'| + |L'| + |L' - B'|) := by
    intro k hk0 hk1
    have := element_error binary64_accurate (by positivity) (by norm_num) hη1 hB hS hL hN hk0 hk1
    refine this.trans (le_of_eq ?_)
    unfold epsilon; ring
  have hLfin : |L - L'| ≤ 6 * epsilon * (|B'| + |L'| + |L' - B'|) := by
    refine hL.trans ?_
    rw [show 6 * epsilon * (|B'| + |L'| + |L' - B'|) = 12 * (1 / 2 ^ 53) * (|B'| + |L'| + |L' - B'|) by
      unfold epsilon; ring]
    exact mul_le_mul (by linarith) (by linarith [abs_nonneg B', abs_nonneg (L' - B')]) (abs_nonneg _) (by positivity)
  have hBfin : |B - B'| ≤ 6 * epsilon * (|B'| + |L'| + |L' - B'|) := by
    refine hB.trans ?_
    rw [show 6 * epsilon * (|B'| + |L'| + |L' - B'|) = 12 * (1 / 2 ^ 53) * (|B'| + |L'| + |L' - B'|) by
      unfold epsilon; ring]
    exact mul_le_mul (by linarith) (by linarith [abs_nonneg L', abs_nonneg (L' - B')]) (abs_nonneg _) (by positivity)
  have hc := constructed64 hS0 hr h3
  clear hp hm he hη1 hB hS hL
  generalize (1 / 2 ^ 53 : ℝ) = u at *
  have hNr : (1 : ℝ) ≤ N := by exact_mod_cast h1
  have hNr2 : (N : ℝ) ≤ 2 ^ 31 - 1 := by exact_mod_cast h2
  have p1 := mul_pos hu hw
  have p2 := mul_nonneg hu.le hd
  obtain ⟨a1, a2⟩ := abs_le.1 hp'
  have hSp : 0 < |S| := abs_pos.2 hS0
  have b1 := mul_le_mul_of_nonneg_right hNr2 hSp.le
  have b2 := mul_le_mul_of_nonneg_right hNr hSp.le
  have hex : ∃ s, make binary64 epsilon B S L = some s ∧ s.size = max 0 N ∧ s.base = B ∧ (N = 1 → s.limit = B) ∧
      (1 < N → s.step = S ∧ (s.limit = L ∨ s.limit = binary64 (B + binary64 (S * ((N - 1 : ℤ) : ℝ))))) := by
    rcases sign_cases hS0 with ⟨e1, e2⟩ | ⟨e1, e2⟩
    · rw [e1, e2] at hc
      rw [e2] at h3 b1 b2 hSp
      obtain ⟨s, m, g1, g2, g3, g4, g5, c1, c2⟩ := hc (by linarith) (by linarith)
      have u1 : ((m : ℝ) - 1) * S < N * S := by linarith
      have u2 : ((N : ℝ) - 1) * S < m * S := by linarith
      have v1 := lt_of_mul_lt_mul_right u1 hSp.le
      have v2 := lt_of_mul_lt_mul_right u2 hSp.le
      have v1' : m - 1 < N := by exact_mod_cast v1
      have v2' : N - 1 < m := by exact_mod_cast v2
      obtain rfl : m = N := by omega
      exact ⟨s, g1, g2, g3, g4, g5⟩
    · rw [e1, e2] at hc
      rw [e2] at h3 b1 b2 hSp
      obtain ⟨s, m, g1, g2, g3, g4, g5, c1, c2⟩ := hc (by linarith) (by linarith)
      have u1 : ((m : ℝ) - 1) * (-S) < N * (-S) := by linarith
      have u2 : ((N : ℝ) - 1) * (-S) < m * (-S) := by linarith
      have v1 := lt_of_mul_lt_mul_right u1 hSp.le
      have v2 := lt_of_mul_lt_mul_right u2 hSp.le
      have v1' : m - 1 < N := by exact_mod_cast v1
      have v2' : N - 1 < m := by exact_mod_cast v2
      obtain rfl : m = N := by omega
      exact ⟨s, g1, g2, g3, g4, g5⟩
  obtain ⟨s, g1, g2, g3, g4, g5⟩ := hex
  rw [max_eq_right (by omega)] at g2
  refine ⟨s, g1, g2, fun i i0 i1 => ?_⟩
  unfold get
  rw [if_pos ⟨i0, by omega⟩]
  refine ⟨_, rfl, ?_⟩
  have hi0 : (0 : ℝ) ≤ i := by exact_mod_cast i0
  have hi1 : (i : ℝ) ≤ N - 1 := by
    have : i ≤ N - 1 := by omega
    exact_mod_cast this
  split_ifs with hi
  · rw [g3, (g5 (by omega)).1]
    exact key i hi0 hi1
  · have hiN : i = N - 1 := by omega
    subst hiN
    push_cast
    rcases eq_or_lt_of_le h1 with h | h
    · rw [g4 h.symm, ← h]
      simpa using hBfin
    · rcases (g5 h).2 with h' | h'
      · rw [h', show B' + S' * ((N : ℝ) - 1) = L' by linarith]
        exact hLfin
      · rw [h']
        push_cast
        exact key _ (by linarith) le_rfl

/-- C113: the documented inequality for the size, up to 2.5 epsilon relative to the magnitude of the arguments, for
arbitrary arguments that do not describe more than `INT_MAX` elements. -/
theorem C113_bracket {B S L : ℝ} (hS : S ≠ 0) (hr : InRange B S L) (h3 : 3 * tolerance B L ≤ |S|)
    (hn : |L - B| ≤ (2 ^ 31 - 2) * |S|) :
    ∃ s, make binary64 epsilon B S L = some s ∧ 0 ≤ s.size ∧
      (0 < s.size → sign S * (B + S * (s.size - 1)) ≤
        sign S * L + tolerance B L + epsilon * (2 * |L - B| + 1 / 4 * (|B| + |L|))) ∧
      sign S * L + tolerance B L - epsilon * (2 * |L - B| + 1 / 4 * (|B| + |L|)) < sign S * (B + S * s.size) := by
  have hT : 0 < tolerance B L := by
    unfold tolerance epsilon
    have := hr.pos
    positivity
  have hc := constructed64 hS hr h3
  have e : epsilon * (2 * |L - B| + 1 / 4 * (|B| + |L|)) = 1 / 2 ^ 53 * (4 * |L - B| + 1 / 2 * (|B| + |L|)) := by
    unfold epsilon; ring
  rw [e]
  have hLB := le_abs_self (L - B)
  have hLB' := neg_abs_le (L - B)
  rcases sign_cases hS with ⟨e1, e2⟩ | ⟨e1, e2⟩
  all_goals
    have hSp : 0 < |S| := abs_pos.2 hS
    rw [e1, e2] at hc
    rw [e2] at h3 hn hSp
    rw [e1]
    obtain ⟨s, m, g1, g2, -, -, -, c1, c2⟩ := hc (by linarith) (by linarith)
    refine ⟨s, g1, by rw [g2]; exact le_max_left _ _, fun h => ?_, ?_⟩
    · rw [g2] at h ⊢
      rw [max_eq_right (by omega)]
      linarith
    · rw [g2]
      rcases le_or_gt m 0 with h | h
      · rw [max_eq_left h]
        have : (m : ℝ) ≤ 0 := by exact_mod_cast h
        push_cast
        nlinarith
      · rw [max_eq_right h.le]
        linarith

/-- C113: the constructor aborts the program for the valid arguments 1, 2^-k, 1. -/
theorem C113_abort_violation {k : ℕ} (h1 : 54 ≤ k) (h2 : k ≤ 1000) :
    make binary64 epsilon 1 (1 / 2 ^ k) 1 = none := by
  have hk : (0 : ℝ) < 1 / 2 ^ k := by positivity
  have r0 : binary64 0 = 0 := binary64_regular.zero
  have hz : ((1 : ℤ) : ℝ) * 2 ^ (-(k : ℤ)) = 1 / 2 ^ k := by
    rw [zpow_neg, zpow_natCast]; simp
  have rk : binary64 (1 / 2 ^ k) = 1 / 2 ^ k := by
    rw [← hz]
    exact FloatMel.binary64_of 1 _ (by norm_num) (by omega)
  have rk2 : binary64 (1 / 2 ^ k / 2) = 1 / 2 ^ k / 2 := by
    have : ((1 : ℤ) : ℝ) * 2 ^ (-(k : ℤ) - 1) = 1 / 2 ^ k / 2 := by
      rw [zpow_sub₀ (by norm_num), zpow_neg, zpow_natCast]; simp
    rw [← this]
    exact FloatMel.binary64_of 1 _ (by norm_num) (by omega)
  have r12 : binary64 (1 / 2) = 1 / 2 := by
    have := FloatMel.binary64_of 1 (-1) (by norm_num) (by norm_num)
    norm_num at this ⊢
    exact this
  have hsmall : (1 : ℝ) / 2 ^ k ≤ 1 / 2 ^ 54 :=
    one_div_le_one_div_of_le (by positivity) (pow_le_pow_right₀ (by norm_num) h1)
  have rsum : binary64 (1 + 1 / 2 ^ k) = 1 := by
    have : binary64 (1 + 1 / 2 ^ k) = ((2 ^ 52 : ℤ) : ℝ) * 2 ^ (-52 : ℤ) := by
      generalize (1 : ℝ) / 2 ^ k = x at *
      apply ieee_eq
      · norm_num; linarith
      · norm_num at hsmall ⊢; linarith
      · norm_num
      · left
        rw [abs_lt]
        norm_num at hsmall ⊢
        constructor <;> linarith
    rw [this]; norm_num
  have ht : 0 ≤ tol binary64 epsilon 1 (1 / 2 ^ k) 1 ∧
      tol binary64 epsilon 1 (1 / 2 ^ k) 1 ≤ 1 / 2 ^ k / 2 ∧
      binary64 (tol binary64 epsilon 1 (1 / 2 ^ k) 1) = tol binary64 epsilon 1 (1 / 2 ^ k) 1 := by
    have hS : Small binary64 epsilon 1 (1 / 2 ^ k) 1 := by
      have i2 : binary64 2 = 2 := by simpa using FloatMel.binary64_int 2 (by norm_num)
      have i10 : binary64 10 = 10 := by simpa using FloatMel.binary64_int 10 (by norm_num)
      have t10 : binary64 (epsilon * 10) = 10 / 2 ^ 52 := by
        have := FloatMel.binary64_of 10 (-52) (by norm_num) (by norm_num)
        norm_num [epsilon] at this ⊢
        exact this
      have t30 : binary64 (3 * (10 / 2 ^ 52)) = 30 / 2 ^ 52 := by
        have := FloatMel.binary64_of 30 (-52) (by norm_num) (by norm_num)
        norm_num at this ⊢
        exact this
      unfold Small tol0
      rw [abs_one, sub_self, r0, abs_zero, mul_zero, r0, show (1 : ℝ) + 1 = 2 by norm_num, i2,
        show (5 : ℝ) * 2 = 10 by norm_num, i10, add_zero, i10, t10, t30, abs_of_pos hk]
      refine hsmall.trans_lt ?_
      norm_num
    unfold tol
    rw [if_pos hS, abs_of_pos hk]
    refine ⟨binary64_regular.nonneg (by positivity), ?_, binary64_regular.idem _⟩
    rw [← rk2]
    exact binary64_regular.mono (by linarith)
  have hs : sized binary64 epsilon 1 (1 / 2 ^ k) 1 = 1 := by
    unfold sized
    have e1 : sign (1 / 2 ^ k) = 1 := by unfold sign; rw [if_pos hk]
    rw [e1, sub_self, r0, zero_add, one_mul, ht.2.2]
    have q0 : 0 ≤ binary64 (tol binary64 epsilon 1 (1 / 2 ^ k) 1 / (1 / 2 ^ k)) :=
      binary64_regular.nonneg (div_nonneg ht.1 hk.le)
    have q1 : binary64 (tol binary64 epsilon 1 (1 / 2 ^ k) 1 / (1 / 2 ^ k)) ≤ 1 / 2 := by
      rw [← r12]
      refine binary64_regular.mono ?_
      rw [div_le_iff₀ hk]
      linarith [ht.2.1]
    have : ⌊binary64 (tol binary64 epsilon 1 (1 / 2 ^ k) 1 / (1 / 2 ^ k))⌋ = 0 := by
      rw [Int.floor_eq_zero_iff]
      exact ⟨q0, by linarith⟩
    rw [this]
    simpa using binary64_regular.one
  unfold make
  simp only [if_neg hk.ne', hs, Int.floor_one]
  rw [if_neg (by norm_num), if_neg (by norm_num)]
  split_ifs with c1 c2 c3 c4 c5
  all_goals first
    | rfl
    | (exfalso
       simp only [Int.cast_one, mul_one, rk, rsum, lt_irrefl] at c2)

/-- The documented example `ArithmeticSequence(5.0, 0.1, 6.0)` has 11 elements, also for the double nearest to 0.1. -/
example : ∃ s, make binary64 epsilon 5 (binary64 (1 / 10)) 6 = some s ∧ s.size = 11 := by
  have h : binary64 (1 / 10) = (7205759403792794 : ℤ) * (2 : ℝ) ^ (-56 : ℤ) := by
    apply ieee_eq <;> first | (left; norm_num [abs_lt]; done) | norm_num
  obtain ⟨s, h1, h2, -⟩ := C113_intended_size (B := 5) (S := binary64 (1 / 10)) (L := 6) (B' := 5) (S' := 1 / 10)
    (L' := 6) (N := 11) (by norm_num) (by norm_num) (by norm_num) (by rw [h]; norm_num)
    (by simp [epsilon]) (by rw [h]; norm_num [abs_le, epsilon]) (by simp [epsilon])
    (by
      unfold InRange
      rw [h]
      have : (2 : ℝ) ^ 1 ≤ 2 ^ 960 := pow_le_pow_right₀ (by norm_num) (by norm_num)
      generalize (2 : ℝ) ^ 960 = w at *
      norm_num [abs_of_pos] at this ⊢
      linarith)
    (by rw [h]; unfold tolerance epsilon; norm_num [abs_of_pos])
  exact ⟨s, h1, h2⟩

end Verif.FloatArithmeticSequence
