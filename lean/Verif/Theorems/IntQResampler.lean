import Verif.Model.IntQResampler
import Verif.Theorems.Resampler

/-!
# C118: the size functions of `QResampler` in 32-bit arithmetic

C10 is about sizes that are natural numbers. Here they are `int`s, as in the code.
-/

namespace Verif.IntQResampler
open Verif.Resampler (Cfg St Mac GoodFactor StateOk Built makeQ reset resetFullyPrimed process)
open Verif.IntResampler (toInt)

universe u

variable {R M : Type u}

theorem addInt_eq {x y : ℤ} (h0 : -2 ^ 31 ≤ x + y) (h1 : x + y < 2 ^ 31) : addInt x y = some (x + y) := if_pos ⟨h0, h1⟩

theorem toInt_nat {n : ℕ} (h : n < 2 ^ 31) : toInt (n : ℤ) = n := by unfold toInt; omega

theorem toInt_tdiv {x : ℤ} {p q : ℕ} (hx : x = p) (h : p / q < 2 ^ 31) : toInt (x.tdiv q) = ((p / q : ℕ) : ℤ) := by
  rw [hx, ← Int.ofNat_tdiv, toInt_nat h]

theorem maxOutput_eq (c : Cfg R) (hn : 0 < c.num) {n : ℕ} (h : Resampler.maxOutputFrames c n < 2 ^ 31) :
    maxOutputFrames c n = Resampler.maxOutputFrames c n := by
  unfold maxOutputFrames
  refine toInt_tdiv ?_ h
  rw [Nat.cast_sub (by omega)]
  push_cast
  ring

theorem nextOutputSize_pos (c : Cfg R) (s : St M) {n k : ℕ} (hk : 1 + n + s.delayed.length - c.taps = k) (h0 : k ≠ 0) :
    Resampler.nextOutputSize c s n = (k * c.den - s.phase + c.num - 1) / c.num := by
  unfold Resampler.nextOutputSize
  simp only [hk, if_neg h0]

theorem sums {x y z : ℤ} (hx : 0 ≤ x) (hy : 0 ≤ y) (hz : 0 ≤ z) (h : 1 + x + y < 2 ^ 31) (hz' : z < 2 ^ 31) :
    addInt 1 x = some (1 + x) ∧ addInt (1 + x) y = some (1 + x + y) ∧ addInt (1 + x + y) (-z) = some (1 + x + y + -z) :=
  ⟨addInt_eq (by linarith) (by linarith), addInt_eq (by linarith) (by linarith), addInt_eq (by linarith) (by linarith)⟩

theorem nextOutput_eq (c : Cfg R) (hn : 0 < c.num) (s : St M) (hs : StateOk c s) {n : ℕ}
    (hr : 1 + n + s.delayed.length < 2 ^ 31) (ht : c.taps < 2 ^ 31) (h : Resampler.nextOutputSize c s n < 2 ^ 31) :
    nextNumOutputFrames c s n = some (Resampler.nextOutputSize c s n : ℤ) := by
  obtain ⟨a1, a2, a3⟩ := sums (x := n) (y := s.delayed.length) (z := c.taps) (by positivity) (by positivity) (by positivity)
    (by exact_mod_cast hr) (by exact_mod_cast ht)
  have h2 := hs.2
  unfold nextNumOutputFrames
  rw [a1, Option.bind_some, a2, Option.bind_some, a3, Option.bind_some]
  dsimp only
  obtain ⟨k, hk⟩ : ∃ k, 1 + n + s.delayed.length - c.taps = k := ⟨_, rfl⟩
  have e1 : max (1 + (n : ℤ) + s.delayed.length + -c.taps) 0 = (k : ℤ) := by clear h hr ht; omega
  rw [e1]
  clear a1 a2 a3 hr ht
  by_cases e : k = 0
  · have : Resampler.nextOutputSize c s n = 0 := by simp [Resampler.nextOutputSize, hk, e]
    simp [this, e]
  · rw [nextOutputSize_pos c s hk e] at h ⊢
    rw [if_neg (by clear h; omega)]
    have : c.den ≤ k * c.den := Nat.le_mul_of_pos_left _ (Nat.pos_of_ne_zero e)
    have e2 : ((k : ℤ) * c.den - s.phase + c.num - 1) = ((k * c.den - s.phase + c.num - 1 : ℕ) : ℤ) := by
      clear h
      rw [Nat.cast_sub (by omega), Nat.cast_add, Nat.cast_sub (by omega)]; push_cast; ring
    rw [toInt_tdiv e2 h]

theorem maxInput_eq (c : Cfg R) (hd : 0 < c.den) {m : ℕ} (h : Resampler.maxInputFramesToProduce c m < 2 ^ 31) :
    maxInputFramesToProduce c m = some (Resampler.maxInputFramesToProduce c m : ℤ) := by
  unfold maxInputFramesToProduce
  unfold Resampler.maxInputFramesToProduce at h ⊢
  by_cases e : m = 0
  · rw [if_pos (by omega), if_pos e]; rfl
  · rw [if_neg e] at h ⊢
    rw [if_neg (by omega), toInt_tdiv (p := (m - 1) * c.num + c.den - 1) ?_ (by omega)]
    · generalize ((m - 1) * c.num + c.den - 1) / c.den = z at *
      rw [addInt_eq (by omega) (by omega)]
      push_cast; rfl
    · rw [Nat.cast_sub (by omega)]
      push_cast [Nat.cast_sub (show 1 ≤ m by omega)]
      ring

theorem nextInput_eq (c : Cfg R) (s : St M) (hs : StateOk c s) {m : ℕ}
    (h : Resampler.maxInputFramesToProduce c m < 2 ^ 31) :
    nextNumInputFramesToProduce c s m = some (Resampler.nextNumInputFramesToProduce c s m : ℤ) := by
  unfold nextNumInputFramesToProduce
  unfold Resampler.maxInputFramesToProduce at h
  unfold Resampler.nextNumInputFramesToProduce
  by_cases e : m = 0
  · rw [if_pos (by omega), if_pos e]; rfl
  · rw [if_neg e] at h ⊢
    have h1 := hs.1
    have h2 := hs.2
    have hle : ((m - 1) * c.num + s.phase) / c.den ≤ ((m - 1) * c.num + c.den - 1) / c.den :=
      Nat.div_le_div_right (by omega)
    rw [if_neg (by omega), toInt_tdiv (p := (m - 1) * c.num + s.phase) ?_ (by omega)]
    · generalize ((m - 1) * c.num + s.phase) / c.den = z at *
      generalize ((m - 1) * c.num + c.den - 1) / c.den = z' at *
      rw [addInt_eq (by omega) (by omega)]
      simp only [Option.bind_eq_bind, Option.bind_some]
      rw [addInt_eq (by omega) (by omega)]
      congr 1
      omega
    · push_cast [Nat.cast_sub (show 1 ≤ m by omega)]
      ring

section Main

variable [Semiring R] [AddCommMonoid M] [Module R M]

/-- **C118 (the full statement would omit the conditions `hn`, `ht` and `hM` on the sizes).** For a resampler with the factor
`a / b` in any state and an input `x` for which the bound on the output is representable: `NextNumOutputFrames` is defined, it is
the number of frames that `ProcessSamples` makes, and it is at most `MaxOutputFrames`, which is the least integer not smaller
than `n b / a`. -/
theorem C118_output_size_partial {h : ℚ → R} {a b r : ℕ} (hG : GoodFactor a b r) (s : St M) (hs : StateOk (makeQ h a b r) s)
    (x : List M) (ht : 2 * r + 1 < 2 ^ 31) (hn : 1 + x.length + s.delayed.length < 2 ^ 31)
    (hM : ⌈((x.length * b : ℕ) : ℚ) / a⌉ < 2 ^ 31) :
    ∃ ys s', process (makeQ h a b r) s x = some (ys, s') ∧
      nextNumOutputFrames (makeQ h a b r) s x.length = some (ys.length : ℤ) ∧
      (ys.length : ℤ) ≤ maxOutputFrames (makeQ h a b r) x.length ∧
      maxOutputFrames (makeQ h a b r) x.length = ⌈((x.length * b : ℕ) : ℚ) / a⌉ := by
  have hB : Built (makeQ h a b r) h a b r := Or.inr rfl
  obtain ⟨ys, s', e, l⟩ := Resampler.C10_size_exact hB hG s hs x
  have hb := Resampler.C10_size_bound hB hG s hs x.length
  have hc : (Resampler.maxOutputFrames (makeQ h a b r) x.length : ℤ) = ⌈((x.length * b : ℕ) : ℚ) / a⌉ := by
    have ha : (0 : ℚ) < a := by exact_mod_cast hG.1
    symm
    rw [Int.ceil_eq_iff]
    change ((((x.length * b + a - 1) / a : ℕ) : ℤ) : ℚ) - 1 < _ ∧ _ ≤ ((((x.length * b + a - 1) / a : ℕ) : ℤ) : ℚ)
    have h1 := Nat.div_add_mod (x.length * b + a - 1) a
    have h2 := Nat.mod_lt (x.length * b + a - 1) hG.1
    generalize (x.length * b + a - 1) / a = q at *
    generalize (x.length * b + a - 1) % a = t at *
    have h3 : a * q + t + 1 = x.length * b + a := by have := hG.1; omega
    have h3 : (a : ℚ) * q + t + 1 = ((x.length * b : ℕ) : ℚ) + a := by exact_mod_cast h3
    have h4 : (t : ℚ) + 1 ≤ a := by exact_mod_cast h2
    have h5 : (0 : ℚ) ≤ t := Nat.cast_nonneg _
    generalize ((x.length * b : ℕ) : ℚ) = y at *
    constructor
    · rw [lt_div_iff₀ ha]; push_cast; nlinarith
    · rw [div_le_iff₀ ha]; push_cast; nlinarith
  have hM' : Resampler.maxOutputFrames (makeQ h a b r) x.length < 2 ^ 31 := by rw [← hc] at hM; exact_mod_cast hM
  have e1 := maxOutput_eq (makeQ h a b r) hG.1 hM'
  refine ⟨ys, s', e, ?_, ?_, ?_⟩
  · rw [nextOutput_eq _ hG.1 s hs hn ht (lt_of_le_of_lt hb hM'), l]
  · rw [e1, l]; exact_mod_cast hb
  · rw [e1, hc]

/-- **C118 (the full statement would omit the conditions on the sizes).** `NextNumInputFramesToProduce(m)` is defined, is at
most `MaxInputFramesToProduce(m)`, and is the least number of frames for which `NextNumOutputFrames` is at least `m`. -/
theorem C118_input_size_partial {h : ℚ → R} {a b r : ℕ} (hG : GoodFactor a b r) (s : St M) (hs : StateOk (makeQ h a b r) s)
    (m : ℕ) (ht : 2 * r + 1 < 2 ^ 31) (hm : ⌈(((m - 1) * a : ℕ) : ℚ) / b⌉ + (2 * r + 1) < 2 ^ 31) :
    ∃ k w : ℕ, nextNumInputFramesToProduce (makeQ h a b r) s m = some (k : ℤ) ∧
      maxInputFramesToProduce (makeQ h a b r) m = some (w : ℤ) ∧ k ≤ w ∧
      ∀ n : ℕ, 1 + n + s.delayed.length < 2 ^ 31 → ⌈((n * b : ℕ) : ℚ) / a⌉ < 2 ^ 31 →
        ∃ out : ℕ, nextNumOutputFrames (makeQ h a b r) s n = some (out : ℤ) ∧ (m ≤ out ↔ k ≤ n) := by
  have hB : Built (makeQ h a b r) h a b r := Or.inr rfl
  have hW : Resampler.maxInputFramesToProduce (makeQ h a b r) m < 2 ^ 31 := by
    change (if m = 0 then 0 else ((m - 1) * a + b - 1) / b + (2 * r + 1)) < 2 ^ 31
    split_ifs
    · norm_num
    · have hb : (0 : ℚ) < b := by exact_mod_cast hG.2.1
      have h0 : ((((m - 1) * a + b - 1) / b : ℕ) : ℤ) ≤ ⌈(((m - 1) * a : ℕ) : ℚ) / b⌉ := by
        apply Int.le_ceil_iff.mpr
        rw [lt_div_iff₀ hb]
        have h1 := Nat.div_mul_le_self ((m - 1) * a + b - 1) b
        generalize ((m - 1) * a + b - 1) / b = q at *
        have h2 : q * b + 1 ≤ (m - 1) * a + b := by have := hG.2.1; omega
        have h2 : (q : ℚ) * b + 1 ≤ (((m - 1) * a : ℕ) : ℚ) + b := by exact_mod_cast h2
        push_cast at h2 ⊢
        linarith
      have h1 : ((((m - 1) * a + b - 1) / b : ℕ) : ℤ) + (2 * r + 1) < 2 ^ 31 := by linarith
      exact_mod_cast h1
  refine ⟨_, _, nextInput_eq _ s hs hW, maxInput_eq _ hG.2.1 hW, Resampler.C10_input_bound s hs m, fun n hn hM => ?_⟩
  obtain ⟨ys, s', e, l⟩ := Resampler.C10_size_exact hB hG s hs (List.replicate n 0)
  obtain ⟨zs, t, e', l1, -, -⟩ := C118_output_size_partial hG s hs (List.replicate n 0) ht (by simpa using hn) (by simpa using hM)
  rw [e] at e'
  cases Option.some.inj e'
  rw [List.length_replicate] at l l1
  exact ⟨_, l1, by rw [l]; exact Resampler.C10_least_input hB hG s hs m n⟩

end Main

/-- A stereo resampler from 44.1 kHz to 48 kHz, at the beginning, with a block of a million frames. -/
example (h : ℚ → ℚ) (x : List ℚ) (hx : x.length = 1000000) :
    ∃ ys s', process (makeQ h 147 160 17) (reset (makeQ h 147 160 17)) x = some (ys, s') ∧
      nextNumOutputFrames (makeQ h 147 160 17) (reset (makeQ h 147 160 17) : St ℚ) x.length = some (ys.length : ℤ) ∧
      (ys.length : ℤ) ≤ maxOutputFrames (makeQ h 147 160 17) x.length ∧
      maxOutputFrames (makeQ h 147 160 17) x.length = ⌈((x.length * 160 : ℕ) : ℚ) / (147 : ℕ)⌉ :=
  C118_output_size_partial (by decide) _ ⟨by simp [reset, makeQ, Cfg.taps], by simp [reset, makeQ]⟩ x (by norm_num)
    (by simp [reset, makeQ, hx]) (by rw [hx]; exact lt_of_le_of_lt (Int.ceil_le.mpr (show _ ≤ ((2000000 : ℤ) : ℚ) by norm_num)) (by norm_num))

/-- **Violation of the full C118.** The documentation says that `NextNumOutputFrames(n) <= MaxOutputFrames(n)` always holds. With
the factor 1/3 (from 16 kHz to 48 kHz) and 11 taps, at the beginning and with `n = 715827883`, the number of output frames is
`2147483634`, but `MaxOutputFrames` is negative. -/
theorem C118_bound_violation (h : ℚ → ℚ) :
    nextNumOutputFrames (makeQ h 1 3 5) (reset (makeQ h 1 3 5) : St ℚ) 715827883 = some 2147483634 ∧
      maxOutputFrames (makeQ h 1 3 5) 715827883 = -2147483647 := by
  simp [nextNumOutputFrames, maxOutputFrames, addInt, toInt, reset, makeQ, Cfg.taps]

/-- With five more frames `NextNumOutputFrames` is negative too, and for the largest `int` its sum overflows. -/
theorem C118_overflow_violation (h : ℚ → ℚ) :
    nextNumOutputFrames (makeQ h 1 3 5) (reset (makeQ h 1 3 5) : St ℚ) 715827888 = some (-2147483647) ∧
      Resampler.nextOutputSize (makeQ h 1 3 5) (reset (makeQ h 1 3 5) : St ℚ) 715827888 = 2147483649 ∧
      nextNumOutputFrames (makeQ h 1 3 5) (reset (makeQ h 1 3 5) : St ℚ) 2147483647 = none := by
  simp [nextNumOutputFrames, Resampler.nextOutputSize, addInt, toInt, reset, makeQ, Cfg.taps]

end Verif.IntQResampler
