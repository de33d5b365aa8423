import Verif.Proof.Resampler
import Verif.Model.RationalFactorResampler

/-!
# The deprecated resampler runs the algorithm of `QResampler`
-/

namespace Verif.RationalFactorResampler

open Finset
open Verif.Resampler (St makeQ)

universe u

variable {R M : Type u} [Semiring R] [AddCommMonoid M] [Module R M]

theorem zipWith_sum : ∀ (f : List R) (x : List M), f.length = x.length →
    (List.zipWith (· • ·) f x).sum = ∑ t ∈ range f.length, f.getD t 0 • x.getD t 0
  | [], [], _ => by simp
  | a :: f, y :: x, h => by
    have h' : f.length = x.length := by simpa using h
    rw [List.zipWith_cons_cons, List.sum_cons, zipWith_sum f x h', List.length_cons, sum_range_succ']
    simp [add_comm]

theorem segment_some {α : Type*} {x : List α} {i n : ℕ} (h : i + n ≤ x.length) :
    segment x i n = some ((x.drop i).take n) := if_pos h

theorem getD_seg {α : Type*} (x : List α) (z : α) {i n t : ℕ} (ht : t < n) :
    ((x.drop i).take n).getD t z = x.getD (i + t) z := by
  rw [List.getD_eq_getElem?_getD, List.getD_eq_getElem?_getD, List.getElem?_take_of_lt ht,
    List.getElem?_drop]

theorem dot_seg (f : List R) (x : List M) {i o n : ℕ} (h1 : i + n ≤ f.length) (h2 : o + n ≤ x.length) :
    dot ((f.drop i).take n) ((x.drop o).take n) =
      some (∑ t ∈ range n, f.getD (i + t) 0 • x.getD (o + t) 0) := by
  have l1 : ((f.drop i).take n).length = n := by simp; omega
  have l2 : ((x.drop o).take n).length = n := by simp; omega
  rw [dot, if_pos (l1.trans l2.symm), zipWith_sum _ _ (l1.trans l2.symm), l1]
  congr 1
  refine sum_congr rfl fun t ht => ?_
  rw [mem_range] at ht
  rw [getD_seg f 0 ht, getD_seg x 0 ht]

/-- The filter of a phase. -/
def filt (h : ℚ → R) (b r p : ℕ) : List R :=
  (List.range (2 * r + 1)).map fun t : ℕ => h ((p : ℚ) / (b : ℚ) + ((r : ℚ) - (t : ℚ)))

theorem filters_get (h : ℚ → R) {a b r p : ℕ} (hp : p < b) :
    (init h a b r).filters[p]? = some (filt h b r p) := by
  simp [init, filt, List.getElem?_range hp]

theorem filt_length (h : ℚ → R) (b r p : ℕ) : (filt h b r p).length = 2 * r + 1 := by simp [filt]

theorem filt_getD (h : ℚ → R) {b r p t : ℕ} (hp : p < b) (ht : t < 2 * r + 1) :
    (filt h b r p).getD t 0 = (Resampler.makeFilters h b r).getD (p * (2 * r + 1) + t) 0 := by
  rw [Resampler.makeFilters_getD h hp ht, filt, List.getD_eq_getElem?_getD, List.getElem?_map,
    List.getElem?_range ht]
  rfl

theorem coeffs_le (h : ℚ → R) {b r p : ℕ} (hp : p < b) :
    p * (2 * r + 1) + (2 * r + 1) ≤ (Resampler.makeFilters h b r).length := by
  rw [Resampler.makeFilters_length, ← Nat.succ_mul]; exact Nat.mul_le_mul_right _ hp

theorem advance_lt (h : ℚ → R) {a b r p : ℕ} (i : ℕ) (hp : p < b) :
    (Resampler.advance (makeQ h a b r) i p).2 < b := by
  have : a % b < b := Nat.mod_lt _ (by omega)
  rw [Resampler.advance]
  show (if p + a % b ≥ b then (i + a / b + 1, p + a % b - b) else (i + a / b, p + a % b)).2 < b
  split
  · show p + a % b - b < b
    omega
  · show p + a % b < b
    omega

theorem straddle_eq (h : ℚ → R) {a b r : ℕ} (delayed input : List M) {iEnd : ℕ}
    (hE : iEnd + (2 * r + 1) ≤ delayed.length + input.length + 1) (h3 : delayed.length ≤ 2 * r + 1) :
    ∀ (left i p : ℕ), p < b →
      straddleLoop (init h a b r) delayed input iEnd left i p =
        Resampler.straddleLoop (makeQ h a b r) delayed input iEnd left i p
  | 0, i, p, hp => by rw [straddleLoop, Resampler.straddleLoop]
  | left + 1, i, p, hp => by
    rw [straddleLoop, Resampler.straddleLoop]
    split_ifs with hi
    · have e : (init h a b r).taps = 2 * r + 1 := rfl
      have e' : (makeQ h a b r).taps = 2 * r + 1 := rfl
      have ec : (makeQ h a b r).coeffs = Resampler.makeFilters h b r := rfl
      have hc := coeffs_le h (r := r) hp
      have hl := filt_length h b r p
      have ih := fun i p hp => straddle_eq h (a := a) (b := b) delayed input hE h3 left i p hp
      have hadv : advance (init h a b r) i p = Resampler.advance (makeQ h a b r) i p := rfl
      obtain ⟨n, hn⟩ : ∃ n, delayed.length - i = n := ⟨_, rfl⟩
      have D1 := Resampler.dotLoop_eq_sum (Resampler.makeFilters h b r) delayed n (p * (2 * r + 1)) i 0
        (by omega) (by omega)
      simp only [hn, e, e', ec, filters_get h hp, Option.bind_eq_bind, Option.bind_some,
        segment_some (show 0 + n ≤ (filt h b r p).length by omega),
        segment_some (show delayed.length - n + n ≤ delayed.length by omega),
        segment_some (show (filt h b r p).length - (2 * r + 1 - n) + (2 * r + 1 - n) ≤ (filt h b r p).length by omega),
        segment_some (show 0 + (2 * r + 1 - n) ≤ input.length by omega),
        dot_seg (filt h b r p) delayed (show 0 + n ≤ (filt h b r p).length by omega)
          (show delayed.length - n + n ≤ delayed.length by omega),
        dot_seg (filt h b r p) input
          (show (filt h b r p).length - (2 * r + 1 - n) + (2 * r + 1 - n) ≤ (filt h b r p).length by omega)
          (show 0 + (2 * r + 1 - n) ≤ input.length by omega), D1, hadv,
        ih _ _ (advance_lt h i hp)]
      rw [Resampler.dotLoop_eq_sum (Resampler.makeFilters h b r) input _ _ _ _ (by omega) (by omega)]
      simp only [Option.bind_some]
      have s1 : ∑ t ∈ range n, (filt h b r p).getD (0 + t) 0 • delayed.getD (delayed.length - n + t) 0
          = ∑ t ∈ range n, (Resampler.makeFilters h b r).getD (p * (2 * r + 1) + t) 0 • delayed.getD (i + t) 0 := by
        refine sum_congr rfl fun t ht => ?_
        rw [mem_range] at ht
        rw [zero_add, filt_getD h hp (by omega), show delayed.length - n = i by omega]
      have s2 : ∑ t ∈ range (2 * r + 1 - n),
            (filt h b r p).getD ((filt h b r p).length - (2 * r + 1 - n) + t) 0 • input.getD (0 + t) 0
          = ∑ t ∈ range (2 * r + 1 - n),
            (Resampler.makeFilters h b r).getD (p * (2 * r + 1) + n + t) 0 • input.getD (0 + t) 0 := by
        refine sum_congr rfl fun t ht => ?_
        rw [mem_range] at ht
        rw [filt_getD h hp (by omega), hl, show 2 * r + 1 - (2 * r + 1 - n) = n by omega, add_assoc]
      rw [s1, s2, zero_add]
    · rfl

theorem input_eq (h : ℚ → R) {a b r : ℕ} (input : List M) {iEnd : ℕ}
    (hE : iEnd ≤ input.length + 1 - (2 * r + 1)) :
    ∀ (left i p : ℕ), p < b →
      inputLoop (init h a b r) input iEnd left i p =
        Resampler.inputLoop (makeQ h a b r) input iEnd left i p
  | 0, i, p, hp => by rw [inputLoop, Resampler.inputLoop]
  | left + 1, i, p, hp => by
    rw [inputLoop, Resampler.inputLoop]
    split_ifs with hi
    · have e : (init h a b r).taps = 2 * r + 1 := rfl
      have e' : (makeQ h a b r).taps = 2 * r + 1 := rfl
      have ec : (makeQ h a b r).coeffs = Resampler.makeFilters h b r := rfl
      have hc := coeffs_le h (r := r) hp
      have hl := filt_length h b r p
      have ih := fun i p hp => input_eq h (a := a) (b := b) input hE left i p hp
      have hadv : advance (init h a b r) i p = Resampler.advance (makeQ h a b r) i p := rfl
      have D1 := Resampler.dotLoop_eq_sum (Resampler.makeFilters h b r) input (2 * r + 1) (p * (2 * r + 1)) i 0
        (by omega) (by omega)
      have D2 := dot_seg (filt h b r p) input (i := 0) (o := i) (n := 2 * r + 1) (by omega) (by omega)
      rw [List.drop_zero, List.take_of_length_le hl.le] at D2
      simp only [e, e', ec, filters_get h hp, Option.bind_eq_bind, Option.bind_some,
        segment_some (show i + (2 * r + 1) ≤ input.length by omega), D1, D2, hadv,
        ih _ _ (advance_lt h i hp)]
      have s1 : ∑ t ∈ range (2 * r + 1), (filt h b r p).getD (0 + t) 0 • input.getD (i + t) 0
          = 0 + ∑ t ∈ range (2 * r + 1),
            (Resampler.makeFilters h b r).getD (p * (2 * r + 1) + t) 0 • input.getD (i + t) 0 := by
        rw [zero_add]
        refine sum_congr rfl fun t ht => ?_
        rw [mem_range] at ht
        rw [zero_add, filt_getD h hp (by omega)]
      rw [s1]
    · rfl

theorem outputSize_eq (h : ℚ → R) {a b r : ℕ} (ha : 0 < a) (s : St M) (n : ℕ) :
    outputSize (init h a b r) s n = some (Resampler.nextOutputSize (makeQ h a b r) s n) := by
  rw [outputSize, Resampler.nextOutputSize]
  have e : (init h a b r).taps = 2 * r + 1 := rfl
  have e' : (makeQ h a b r).taps = 2 * r + 1 := rfl
  have e2 : (init h a b r).num = a := rfl
  simp only [e, e', e2, show s.delayed.length + n + 1 = 1 + n + s.delayed.length by ring]
  split_ifs
  · rfl
  · omega
  · rfl

/-- The phase after a loop is a phase. -/
theorem straddle_phase (h : ℚ → R) {a b r : ℕ} (delayed input : List M) {iEnd : ℕ} :
    ∀ (left i p : ℕ) (z : List M × ℕ × ℕ × ℕ), p < b →
      Resampler.straddleLoop (makeQ h a b r) delayed input iEnd left i p = some z → z.2.2.1 < b
  | 0, i, p, z, hp, hz => by
    rw [Resampler.straddleLoop] at hz
    split_ifs at hz
    · cases hz; exact hp
  | left + 1, i, p, z, hp, hz => by
    rw [Resampler.straddleLoop] at hz
    split_ifs at hz
    · simp only [Option.bind_eq_bind, Option.bind_eq_some_iff] at hz
      obtain ⟨_, _, _, _, ⟨ys, w⟩, h3, h4⟩ := hz
      have := straddle_phase h delayed input left _ _ _ (advance_lt h i hp) h3
      cases h4
      exact this
    · cases hz; exact hp

theorem processEigen_eq (h : ℚ → R) {a b r : ℕ} (ha : 0 < a) (s : St M) (input output : List M)
    {z : List M × St M} (hz : Resampler.process (makeQ h a b r) s input = some z) :
    processEigen (init h a b r) s input output =
      some (if s.delayed.length + input.length < 2 * r + 1 then output else z.1, z.2) := by
  have e : (init h a b r).taps = 2 * r + 1 := rfl
  have e' : (makeQ h a b r).taps = 2 * r + 1 := rfl
  have ef : (init h a b r).filters.length = b := by simp [init]
  have ed : (makeQ h a b r).den = b := rfl
  rw [Resampler.process] at hz
  rw [processEigen]
  simp only [e, e', ef, ed, outputSize_eq h ha] at hz ⊢
  split_ifs at hz ⊢ with h1 h2 h3
  · cases hz
    rfl
  · have hp : s.phase < b := h2
    simp only [Option.bind_eq_bind, Option.bind_eq_some_iff] at hz
    obtain ⟨⟨ys, i, p, left⟩, k1, k2⟩ := hz
    rw [straddle_eq h s.delayed input (by omega) (by omega) _ _ _ hp, k1]
    have hp' : p < b := straddle_phase h s.delayed input _ _ _ _ hp k1
    simp only [Option.bind_eq_bind, Option.bind_some] at k2 ⊢
    split_ifs at k2 ⊢ with g1 g2 g3
    · cases k2; rfl
    · exact absurd (by assumption : _ ∧ _).1 g2
    · simp only [Option.bind_eq_some_iff] at k2
      obtain ⟨⟨zs, j, q, l⟩, k3, k4⟩ := k2
      rw [input_eq h input (by omega) _ _ _ hp', k3]
      simp only [Option.bind_some] at k4 ⊢
      split_ifs at k4 with g2
      rw [if_pos ⟨g2.1, g2.2.1⟩]
      cases k4; rfl

end Verif.RationalFactorResampler
