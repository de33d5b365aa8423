import Verif.Theorems.Resampler
import Verif.Model.IntResampler
import Verif.Spec.IntResampler

/-!
# The checked `int` arithmetic of the resampler agrees with the exact one
-/

namespace Verif.IntResampler
open Verif.Resampler

universe u

variable {R M : Type u} [Zero R] [Zero M] [Mac R M]

theorem toInt_eq {x : ℕ} (h : x < 2 ^ 31) : toInt x = x := by unfold toInt; omega

theorem advance_eq {c : Cfg R} {i phase k : ℕ} (hd : 2 * c.den ≤ 2 ^ 31) (d0 : 0 < c.den) (hp : phase < c.den) (hi : i < k)
    (hk : k + c.num / c.den + 1 ≤ 2 ^ 31) :
    advance c i phase = some (Resampler.advance c i phase) ∧ (Resampler.advance c i phase).2 < c.den := by
  have := Nat.mod_lt c.num d0
  unfold advance Resampler.advance Fits
  generalize c.num % c.den = q at *
  generalize c.num / c.den = f at *
  dsimp only
  rw [if_neg (by omega), if_neg (by omega)]
  split_ifs <;> first | omega | (refine ⟨rfl, ?_⟩; dsimp only; omega)

theorem straddle_eq {c : Cfg R} (delayed input : List M) {iEnd : ℕ} (hd : 2 * c.den ≤ 2 ^ 31) (d0 : 0 < c.den)
    (hc : c.den * c.taps < 2 ^ 31) (hk : iEnd + c.num / c.den + 1 ≤ 2 ^ 31) (left : ℕ) :
    ∀ i phase, phase < c.den → straddleLoop c delayed input iEnd left i phase =
      Resampler.straddleLoop c delayed input iEnd left i phase ∧
      ∀ r, Resampler.straddleLoop c delayed input iEnd left i phase = some r → r.2.2.1 < c.den := by
  induction left with
  | zero =>
    intro i phase hp
    unfold straddleLoop Resampler.straddleLoop
    refine ⟨rfl, fun r h => ?_⟩
    split_ifs at h
    simp only [Option.some.injEq] at h
    subst h; exact hp
  | succ left ih =>
    intro i phase hp
    unfold straddleLoop Resampler.straddleLoop
    by_cases h : i < delayed.length ∧ i < iEnd
    · have f : phase * c.taps < 2 ^ 31 := lt_of_le_of_lt (Nat.mul_le_mul_right _ hp.le) hc
      obtain ⟨a1, a2⟩ := advance_eq hd d0 hp h.2 hk
      obtain ⟨b1, b2⟩ := ih (Resampler.advance c i phase).1 _ a2
      rw [if_pos h, if_pos h]
      simp only [Fits, f, not_true_eq_false, if_false, a1, Option.bind_eq_bind, Option.bind_some, b1, true_and]
      intro r hr
      simp only [Option.bind_eq_some_iff] at hr
      obtain ⟨_, _, _, _, p, hp2, hr⟩ := hr
      have := b2 p hp2
      simp only [pure, Option.some.injEq] at hr
      subst hr
      exact this
    · rw [if_neg h, if_neg h]
      refine ⟨rfl, fun r hr => ?_⟩
      simp only [Option.some.injEq] at hr
      subst hr; exact hp

theorem input_eq {c : Cfg R} (input : List M) {iEnd : ℕ} (hd : 2 * c.den ≤ 2 ^ 31) (d0 : 0 < c.den)
    (hc : c.den * c.taps < 2 ^ 31) (hk : iEnd + c.num / c.den + 1 ≤ 2 ^ 31) (left : ℕ) :
    ∀ i phase, phase < c.den → inputLoop c input iEnd left i phase = Resampler.inputLoop c input iEnd left i phase := by
  induction left with
  | zero => intro i phase _; unfold inputLoop Resampler.inputLoop; rfl
  | succ left ih =>
    intro i phase hp
    unfold inputLoop Resampler.inputLoop
    by_cases h : i < iEnd
    · have f : phase * c.taps < 2 ^ 31 := lt_of_le_of_lt (Nat.mul_le_mul_right _ hp.le) hc
      obtain ⟨a1, a2⟩ := advance_eq hd d0 hp h hk
      rw [if_pos h, if_pos h]
      simp only [Fits, f, not_true_eq_false, if_false, a1, Option.bind_eq_bind, Option.bind_some, ih _ _ a2]
    · rw [if_neg h, if_neg h]

theorem next_eq {c : Cfg R} (hw : c.Wf) {s : St M} (hs : StateOk c s) {n : ℕ} (h1 : 1 + n + s.delayed.length < 2 ^ 31)
    (hd : c.den < 2 ^ 31) (hn : c.num < 2 ^ 62) (ho : Resampler.nextOutputSize c s n < 2 ^ 31) :
    nextOutputSize c s n = some (Resampler.nextOutputSize c s n : ℤ) := by
  have hp := hs.2
  have d0 := hw.den_pos
  have n0 := hw.num_pos
  unfold nextOutputSize
  unfold Resampler.nextOutputSize at *
  dsimp only at *
  rw [if_neg (by unfold Fits; omega), if_neg (by unfold Fits; omega)]
  by_cases h : 1 + n + s.delayed.length - c.taps = 0
  · rw [if_pos h, if_pos (by omega)]; rfl
  · rw [if_neg h] at ho ⊢
    obtain ⟨m, hm⟩ : ∃ m : ℕ, 1 + n + s.delayed.length = c.taps + m := ⟨1 + n + s.delayed.length - c.taps, by omega⟩
    have e : (1 : ℤ) + n + s.delayed.length - c.taps = m := by omega
    have e' : 1 + n + s.delayed.length - c.taps = m := by omega
    rw [e'] at ho h ⊢
    have m1 : m < 2 ^ 31 := by omega
    have b : m * c.den ≤ 2 ^ 31 * 2 ^ 31 := Nat.mul_le_mul m1.le hd.le
    have b' : c.den ≤ m * c.den := Nat.le_mul_of_pos_left _ (by omega)
    rw [e, if_neg (by omega), if_neg (by rw [not_not, ← Int.natCast_mul]; generalize m * c.den = w at *; omega)]
    have : (((m : ℤ) * c.den - s.phase + c.num - 1) / c.num) = (((m * c.den - s.phase + c.num - 1) / c.num : ℕ) : ℤ) := by
      rw [Int.natCast_div]
      congr 1
      have : (m * c.den - s.phase + c.num - 1 : ℕ) + s.phase + 1 = m * c.den + c.num := by omega
      have : (((m * c.den - s.phase + c.num - 1 : ℕ) : ℤ)) + s.phase + 1 = m * c.den + c.num := by exact_mod_cast this
      linarith
    rw [this, toInt_eq ho]

theorem process_eq' {h : ℚ → R} {a b r maxInput : ℕ} (hG : GoodFactor a b r) (hR : InRange a b r maxInput)
    {s : St M} (hs : StateOk (makeC h a b r) s) {x : List M} (hx : x.length ≤ maxInput) :
    process (makeC h a b r) s x = Resampler.process (makeC h a b r) s x := by
  have hw : (makeC h a b r).Wf := Built.wf (Or.inl rfl) hG
  have hl := hs.1
  have hp := hs.2
  have t : (makeC h a b r).taps = 2 * r + 1 := rfl
  have hi := hR.input
  have hfl : a / b ≤ 2 * r + 1 := Nat.div_le_of_le_mul (by rw [Nat.mul_comm]; exact hG.2.2)
  have ha : a < 2 ^ 62 := by
    have := hG.2.2
    have := hR.coefficients
    rw [Nat.mul_comm] at this
    omega
  have ho : Resampler.nextOutputSize (makeC h a b r) s x.length < 2 ^ 31 := by
    rw [nextOutputSize_eq hw]
    refine lt_of_le_of_lt (Nat.div_le_div_right ?_) hR.output
    have e : (s.delayed.length + x.length + 1 - (makeC h a b r).taps) * b ≤ maxInput * b :=
      Nat.mul_le_mul_right _ (by omega)
    simp only [makeC] at e ⊢
    omega
  unfold process Resampler.process
  by_cases c1 : s.delayed.length + x.length < (makeC h a b r).taps
  · simp only [hl, hp, c1, not_true_eq_false, if_false, if_true]
    rw [if_neg (by unfold Fits; omega)]
  · have n1 := next_eq hw hs (n := x.length) (by omega) (by have := hR.phases; simp only [makeC]; omega) ha ho
    have hk : s.delayed.length + x.length - (makeC h a b r).taps + 1 + (makeC h a b r).num / (makeC h a b r).den + 1 ≤ 2 ^ 31 := by
      simp only [makeC] at *
      omega
    simp only [hl, hp, c1, not_true_eq_false, if_false]
    rw [if_neg (by unfold Fits; omega), n1]
    simp only [Option.bind_eq_bind, Option.bind_some, Int.toNat_natCast]
    obtain ⟨s1, s2⟩ := straddle_eq (c := makeC h a b r) s.delayed x hR.phases hw.den_pos hR.coefficients hk
      (Resampler.nextOutputSize (makeC h a b r) s x.length) 0 s.phase hp
    rw [s1]
    cases hz : Resampler.straddleLoop (makeC h a b r) s.delayed x
      (s.delayed.length + x.length - (makeC h a b r).taps + 1) (Resampler.nextOutputSize (makeC h a b r) s x.length) 0
      s.phase with
    | none => rfl
    | some q =>
      obtain ⟨ys, i, phase, left⟩ := q
      have := s2 _ hz
      simp only [Option.bind_some]
      rw [input_eq (c := makeC h a b r) x hR.phases hw.den_pos hR.coefficients (by omega) _ _ _ this]

theorem made {alloc : ℕ → Bool} {h : ℚ → R} {a b r maxInput : ℕ} (hG : GoodFactor a b r)
    (hR : InRange a b r (max maxInput (2 * r))) {o : Obj R} (ho : make alloc h a b r maxInput = .object o) :
    o.cfg = makeC h a b r ∧ o.maxInput = max maxInput (2 * r) ∧ o.capacity = (max maxInput (2 * r) * b + a - 1) / a := by
  obtain ⟨h1, h2, h3, h4⟩ := hR
  have m : (if 2 * r + 1 - 1 > maxInput then 2 * r + 1 - 1 else maxInput) = max maxInput (2 * r) := by split_ifs <;> omega
  unfold make at ho
  dsimp only at ho
  rw [m] at ho
  generalize max maxInput (2 * r) = w at *
  have a0 := hG.1
  have e : ((w : ℤ) * b + a - 1) / a = (((w * b + a - 1) / a : ℕ) : ℤ) := by
    rw [Int.natCast_div]
    congr 1
    have : (w * b + a - 1) + 1 = w * b + a := by omega
    have : ((w * b + a - 1 : ℕ) : ℤ) + 1 = w * b + a := by exact_mod_cast this
    linarith
  rw [e, toInt_eq h4] at ho
  have s : toSize (((w * b + a - 1) / a : ℕ) : ℤ) = (w * b + a - 1) / a := by
    unfold toSize; generalize (w * b + a - 1) / a = q at *; omega
  rw [s] at ho
  split_ifs at ho
  simp only [Made.object.injEq] at ho
  subst ho
  refine ⟨rfl, rfl, ?_⟩
  dsimp only
  generalize (w * b + a - 1) / a = q at *; omega

theorem processC_eq {h : ℚ → R} {a b r maxInput : ℕ} (hG : GoodFactor a b r)
    (hR : InRange a b r (max maxInput (2 * r))) {o : Obj R} (c1 : o.cfg = makeC h a b r) (c2 : o.maxInput = max maxInput (2 * r))
    (c3 : o.capacity = (max maxInput (2 * r) * b + a - 1) / a) {s : St M} (hs : StateOk (makeC h a b r) s) (x : List M) :
    processC o s x = Resampler.processC (makeC h a b r) o.maxInput s x ∧
      ∃ ys s', processC o s x = some (ys, s') ∧ StateOk (makeC h a b r) s' := by
  have hw : (makeC h a b r).Wf := Built.wf (Or.inl rfl) hG
  rw [← c2] at hR c3
  have key : ∀ (s : St M) (x : List M), StateOk (makeC h a b r) s → x.length ≤ o.maxInput →
      ∃ ys s', process (makeC h a b r) s x = some (ys, s') ∧ Resampler.process (makeC h a b r) s x = some (ys, s') ∧
        ys.length ≤ o.capacity ∧ StateOk (makeC h a b r) s' := by
    intro s x hs hx
    refine ⟨_, _, ?_, process_eq hw s x hs.1 hs.2, ?_, stateFrom_ok hw _⟩
    · rw [process_eq' hG hR hs hx, process_eq hw s x hs.1 hs.2]
    · rw [c3]
      simp only [outFrom, outs_length, List.length_append, num, cnt]
      apply Nat.div_le_div_right
      have e : (s.delayed.length + x.length + 1 - (makeC h a b r).taps) * (makeC h a b r).den
          ≤ o.maxInput * (makeC h a b r).den := Nat.mul_le_mul_right _ (by have := hs.1; omega)
      simp only [makeC] at e ⊢
      omega
  have cap : maxOutputFrames (makeC h a b r) o.maxInput = o.capacity := c3.symm
  unfold processC Resampler.processC
  rw [c1, cap]
  dsimp only
  by_cases hx : x.length - o.maxInput > 0
  · obtain ⟨ys, s', k1, k2, k3, k4⟩ := key (reset (makeC h a b r)) (x.drop (x.length - o.maxInput)) (reset_ok hw)
      (by rw [List.length_drop]; omega)
    rw [if_pos hx]
    simp only [k1, k2, Option.bind_eq_bind, Option.bind_some, k3, if_true, true_and]
    exact ⟨ys, s', rfl, k4⟩
  · obtain ⟨ys, s', k1, k2, k3, k4⟩ := key s x hs (by omega)
    rw [if_neg hx]
    simp only [k1, k2, Option.bind_eq_bind, Option.bind_some, k3, if_true, true_and]
    exact ⟨ys, s', rfl, k4⟩

end Verif.IntResampler
