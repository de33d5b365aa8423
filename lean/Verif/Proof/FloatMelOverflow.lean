import Verif.Model.FloatMel
import Verif.Proof.Ieee
import Verif.Proof.Mel
import Mathlib.Analysis.SpecialFunctions.Log.Deriv
import Mathlib.Tactic.NormNum.BigOperators
import Mathlib.Tactic.Linarith

/-! The mel filterbank from 0 Hz to 7000 Hz with 40 channels in double arithmetic (C112). -/

namespace Verif.FloatMel
open Verif.Rounding Verif.Mfcc Finset

theorem log_two_bounds : |Real.log 2 - 6931471805599453094172321 / 10 ^ 25| ≤ 1 / 10 ^ 22 := by
  have h := Real.sum_range_sub_log_div_le (x := 1 / 3) (by norm_num [abs_lt]) 24
  rw [show ((1 : ℝ) + 1 / 3) / (1 - 1 / 3) = 2 by norm_num, abs_of_pos (by norm_num : (0 : ℝ) < 1 / 3)] at h
  simp only [sum_range_succ, sum_range_zero] at h
  rw [abs_le] at h ⊢
  obtain ⟨h1, h2⟩ := h
  norm_num at h1 h2 ⊢
  constructor <;> linarith

theorem log_ratio_bounds : |Real.log (11 / 8) - 3184537311185346158102472 / 10 ^ 25| ≤ 1 / 10 ^ 22 := by
  have h := Real.sum_range_sub_log_div_le (x := 3 / 19) (by norm_num [abs_lt]) 14
  rw [show ((1 : ℝ) + 3 / 19) / (1 - 3 / 19) = 11 / 8 by norm_num, abs_of_pos (by norm_num : (0 : ℝ) < 3 / 19)] at h
  simp only [sum_range_succ, sum_range_zero] at h
  rw [abs_le] at h ⊢
  obtain ⟨h1, h2⟩ := h
  norm_num at h1 h2 ⊢
  constructor <;> linarith

theorem log_eleven_bounds : |Real.log 11 - 23978952727983705440619435 / 10 ^ 25| ≤ 4 / 10 ^ 22 := by
  have e : Real.log 11 = 3 * Real.log 2 + Real.log (11 / 8) := by
    rw [show (3 : ℝ) * Real.log 2 = Real.log (2 ^ 3) by rw [Real.log_pow]; norm_num,
      ← Real.log_mul (by norm_num) (by norm_num)]
    norm_num
  have h1 := log_two_bounds
  have h2 := log_ratio_bounds
  rw [abs_le] at h1 h2 ⊢
  rw [e]
  norm_num at h1 h2 ⊢
  constructor <;> linarith [h1.1, h1.2, h2.1, h2.2]

/-- Small integers times powers of two are doubles. -/
theorem binary64_of (m e : ℤ) (hm : |m| ≤ 2 ^ 53) (he : -1074 ≤ e) : binary64 (m * (2 : ℝ) ^ e) = m * (2 : ℝ) ^ e :=
  ieee_of_representable (by norm_num) ⟨m, e, hm, he, rfl⟩

theorem binary64_int (m : ℤ) (hm : |m| ≤ 2 ^ 53) : binary64 m = m := by
  have := binary64_of m 0 hm (by norm_num)
  simpa using this

theorem round_log : binary64 (Real.log 11) = (5399580128524108 : ℤ) * (2 : ℝ) ^ (-51 : ℤ) := by
  have h := log_eleven_bounds
  rw [abs_le] at h
  norm_num at h
  apply ieee_eq
  · norm_num; linarith [h.1]
  · norm_num; linarith [h.2]
  · norm_num
  · left
    rw [abs_lt]
    norm_num
    constructor <;> linarith [h.1, h.2]

theorem round_mel : binary64 (1127 * ((5399580128524108 : ℤ) * (2 : ℝ) ^ (-51 : ℤ))) =
    (5942701957858076 : ℤ) * (2 : ℝ) ^ (-41 : ℤ) := by
  apply ieee_eq <;> first | (left; norm_num [abs_lt]; done) | norm_num

theorem round_spacing : binary64 ((5942701957858076 : ℤ) * (2 : ℝ) ^ (-41 : ℤ) / 41) =
    (4638206406133132 : ℤ) * (2 : ℝ) ^ (-46 : ℤ) := by
  apply ieee_eq <;> first | (left; norm_num [abs_lt]; done) | norm_num

theorem round_quotient : binary64 ((5942701957858076 : ℤ) * (2 : ℝ) ^ (-41 : ℤ) /
    ((4638206406133132 : ℤ) * (2 : ℝ) ^ (-46 : ℤ))) = (5770237022568449 : ℤ) * (2 : ℝ) ^ (-47 : ℤ) := by
  apply ieee_eq <;> first | (left; norm_num [abs_lt]; done) | norm_num

theorem round_position : binary64 ((5770237022568449 : ℤ) * (2 : ℝ) ^ (-47 : ℤ) - 1) =
    (5629499534213121 : ℤ) * (2 : ℝ) ^ (-47 : ℤ) := by
  rw [show (5770237022568449 : ℤ) * (2 : ℝ) ^ (-47 : ℤ) - 1 = (5629499534213121 : ℤ) * (2 : ℝ) ^ (-47 : ℤ) by norm_num]
  exact binary64_of _ _ (by norm_num) (by norm_num)

theorem mel_zero : freqToMel .ideal 0 = 0 := by
  have h0 : binary64 0 = 0 := by simpa using binary64_int 0 (by norm_num)
  have h1 : binary64 1 = 1 := by simpa using binary64_int 1 (by norm_num)
  unfold freqToMel Machine.ideal
  simp [h0, h1]

theorem mel_7000 : freqToMel .ideal 7000 = (5942701957858076 : ℤ) * (2 : ℝ) ^ (-41 : ℤ) := by
  have h0 : binary64 10 = 10 := by simpa using binary64_int 10 (by norm_num)
  have h1 : binary64 11 = 11 := by simpa using binary64_int 11 (by norm_num)
  unfold freqToMel Machine.ideal
  dsimp only
  rw [show (7000 : ℝ) / 700 = 10 by norm_num, h0, show (1 : ℝ) + 10 = 11 by norm_num, h1, round_log, round_mel]

theorem round_mel_again : binary64 ((5942701957858076 : ℤ) * (2 : ℝ) ^ (-41 : ℤ)) =
    (5942701957858076 : ℤ) * (2 : ℝ) ^ (-41 : ℤ) := binary64_of _ _ (by norm_num) (by norm_num)

theorem addAtIf_error (M : Machine) {b : Bool} {v : List ℝ} {c : ℤ} {x : ℝ} {e : Err} (h : addAtIf M b v c x = .error e) :
    e = .oob := by
  unfold addAtIf addAt at h
  split_ifs at h <;> first | (cases h; rfl) | cases h

theorem addAtIf_length (M : Machine) {b : Bool} {v v' : List ℝ} {c : ℤ} {x : ℝ} (h : addAtIf M b v c x = .ok v') :
    v'.length = v.length := by
  unfold addAtIf addAt at h
  split_ifs at h <;> cases h <;> simp

theorem accumulate_error (M : Machine) {n start stop : ℤ} {bin : ℕ → ℤ × ℝ} {l : List ℝ} {i : ℕ} {e : Err}
    (h : accumulate M n start stop bin l i = .error e) : e = .oob := by
  unfold accumulate at h
  split_ifs at h
  simp only [bind, Except.bind] at h
  split at h
  · cases h; exact addAtIf_error M ‹_›
  · exact addAtIf_error M h

theorem accumulate_length (M : Machine) {n start stop : ℤ} {bin : ℕ → ℤ × ℝ} {l l' : List ℝ} {i : ℕ}
    (h : accumulate M n start stop bin l i = .ok l') : l'.length = l.length := by
  unfold accumulate at h
  split_ifs at h
  · cases h; rfl
  · simp only [bind, Except.bind] at h
    split at h
    · cases h
    · rw [addAtIf_length M h, addAtIf_length M ‹_›]

/-- A used bin whose channel is `n` makes the loop fail. -/
theorem loop_oob (M : Machine) (n : ℕ) (start stop : ℤ) (bin : ℕ → ℤ × ℝ) (is : List ℕ) (k : ℕ) (hk : k ∈ is)
    (h1 : start ≤ k) (h2 : k ≤ stop) (hc : (n : ℤ) ≤ (bin k).1) (l : List ℝ) (hl : l.length = n) :
    is.foldlM (accumulate M n start stop bin) l = .error .oob := by
  induction is generalizing l with
  | nil => simp at hk
  | cons i is ih =>
    rw [List.foldlM_cons]
    cases hs : accumulate M n start stop bin l i with
    | error e' => rw [accumulate_error M hs]; rfl
    | ok l' =>
      rcases List.mem_cons.1 hk with rfl | hk'
      · exfalso
        unfold accumulate at hs
        rw [if_neg (by omega)] at hs
        rw [addAtIf, if_neg (by simp; omega)] at hs
        simp only [bind, Except.bind] at hs
        rw [addAtIf, if_pos (by simp; omega), addAt, if_neg (by omega)] at hs
        cases hs
      · exact ih hk' l' (by rw [accumulate_length M hs, hl])

end Verif.FloatMel
