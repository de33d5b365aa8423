import Verif.Model.Phasor
import Mathlib.Tactic.Linarith
import Mathlib.Tactic.FieldSimp

/-!
# C42: phasor rotator and phasor vectors
-/

namespace Verif.Phasor

/-- Everything between two calls of `Next`: the phasor is the rotator to the power of the number of
steps, and the renormalisation counter counts modulo 1000. -/
theorem iterate_next (frequency rate : ℝ) (n : ℕ) :
    next^[n] (init frequency rate) =
      { rotator0 := Real.cos (2 * Real.pi * frequency / rate)
        rotator1 := Real.sin (2 * Real.pi * frequency / rate)
        phasor0 := Real.cos (n * (2 * Real.pi * frequency / rate))
        phasor1 := Real.sin (n * (2 * Real.pi * frequency / rate))
        counter := n % 1000 } := by
  induction n with
  | zero => simp [init]
  | succ n ih =>
    rw [Function.iterate_succ_apply', ih]
    generalize 2 * Real.pi * frequency / rate = t
    have hc : Real.cos t * Real.cos (n * t) - Real.sin t * Real.sin (n * t) =
        Real.cos ((n + 1 : ℕ) * t) := by
      rw [← Real.cos_add]; congr 1; push_cast; ring
    have hs : Real.sin t * Real.cos (n * t) + Real.cos t * Real.sin (n * t) =
        Real.sin ((n + 1 : ℕ) * t) := by
      rw [← Real.sin_add]; congr 1; push_cast; ring
    unfold next
    dsimp only
    rw [hc, hs]
    have hlt : n % 1000 < 1000 := Nat.mod_lt _ (by norm_num)
    split_ifs with h
    · unfold renormalize
      dsimp only
      have e : Real.cos ((n + 1 : ℕ) * t) * Real.cos ((n + 1 : ℕ) * t) +
          Real.sin ((n + 1 : ℕ) * t) * Real.sin ((n + 1 : ℕ) * t) = 1 := by
        rw [← sq, ← sq, Real.cos_sq_add_sin_sq]
      rw [e, Real.sqrt_one, div_one, mul_one, mul_one]
      have e2 : 0 = (n + 1) % 1000 := by omega
      rw [← e2]
    · have e2 : n % 1000 + 1 = (n + 1) % 1000 := by omega
      rw [← e2]

/-- **C42.** After `n` steps, for all `n`, frequencies and sample rates, the oscillator returns the
cosine and the sine of `n` times the angle per sample. -/
theorem C42_rotator (frequency rate : ℝ) (n : ℕ) :
    cos (next^[n] (init frequency rate)) = Real.cos (2 * Real.pi * frequency * n / rate) ∧
    sin (next^[n] (init frequency rate)) = Real.sin (2 * Real.pi * frequency * n / rate) := by
  rw [iterate_next]
  unfold cos sin
  have e : n * (2 * Real.pi * frequency / rate) = 2 * Real.pi * frequency * n / rate := by ring
  rw [e]
  exact ⟨rfl, rfl⟩

/-- **C42.** Amplitude errors do not accumulate: whatever nonzero phasor and whatever rotator of unit
magnitude the object holds (e.g. after rounding errors), after at most 1000 further steps the phasor
has been scaled back to magnitude 1, without changing its angle. -/
theorem C42_renormalize (o : Rotator) (hr : o.rotator0 ^ 2 + o.rotator1 ^ 2 = 1)
    (hp : 0 < o.phasor0 ^ 2 + o.phasor1 ^ 2) (hc : o.counter < 1000) :
    ∃ n, n ≤ 1000 ∧ 0 < n ∧ cos (next^[n] o) ^ 2 + sin (next^[n] o) ^ 2 = 1 ∧
      (⟨cos (next^[n] o), sin (next^[n] o)⟩ : ℂ) * (√(o.phasor0 ^ 2 + o.phasor1 ^ 2) : ℝ) =
        ⟨o.phasor0, o.phasor1⟩ * (⟨o.rotator0, o.rotator1⟩ : ℂ) ^ n := by
  have key : ∀ (k : ℕ) (o : Rotator), o.counter + k = 999 → o.rotator0 ^ 2 + o.rotator1 ^ 2 = 1 →
      0 < o.phasor0 ^ 2 + o.phasor1 ^ 2 →
      cos (next^[k + 1] o) ^ 2 + sin (next^[k + 1] o) ^ 2 = 1 ∧
      (⟨cos (next^[k + 1] o), sin (next^[k + 1] o)⟩ : ℂ) *
          (√(o.phasor0 ^ 2 + o.phasor1 ^ 2) : ℝ) =
        ⟨o.phasor0, o.phasor1⟩ * (⟨o.rotator0, o.rotator1⟩ : ℂ) ^ (k + 1) := by
    intro k
    induction k with
    | zero =>
      intro o hk hr hp
      have hn : (o.rotator0 * o.phasor0 - o.rotator1 * o.phasor1) *
          (o.rotator0 * o.phasor0 - o.rotator1 * o.phasor1) +
          (o.rotator1 * o.phasor0 + o.rotator0 * o.phasor1) *
          (o.rotator1 * o.phasor0 + o.rotator0 * o.phasor1) = o.phasor0 ^ 2 + o.phasor1 ^ 2 := by
        linear_combination (o.phasor0 ^ 2 + o.phasor1 ^ 2) * hr
      simp only [zero_add, Function.iterate_one, pow_one]
      unfold next
      dsimp only
      rw [if_pos (by omega)]
      unfold renormalize cos sin
      dsimp only
      rw [hn]
      have hs : 0 < √(o.phasor0 ^ 2 + o.phasor1 ^ 2) := Real.sqrt_pos.2 hp
      have hsq : √(o.phasor0 ^ 2 + o.phasor1 ^ 2) ^ 2 = o.phasor0 ^ 2 + o.phasor1 ^ 2 :=
        Real.sq_sqrt hp.le
      generalize √(o.phasor0 ^ 2 + o.phasor1 ^ 2) = s at hs hsq
      constructor
      · field_simp
        rw [hsq]
        linear_combination hn
      · apply Complex.ext
        · simp; field_simp
        · simp; field_simp
    | succ k ih =>
      intro o hk hr hp
      have hnext : next o = { o with
          phasor1 := o.rotator1 * o.phasor0 + o.rotator0 * o.phasor1
          phasor0 := o.rotator0 * o.phasor0 - o.rotator1 * o.phasor1
          counter := o.counter + 1 } := by
        unfold next; dsimp only; rw [if_neg (by omega)]
      have hn : (o.rotator0 * o.phasor0 - o.rotator1 * o.phasor1) ^ 2 +
          (o.rotator1 * o.phasor0 + o.rotator0 * o.phasor1) ^ 2 = o.phasor0 ^ 2 + o.phasor1 ^ 2 := by
        linear_combination (o.phasor0 ^ 2 + o.phasor1 ^ 2) * hr
      have := ih (next o) (by rw [hnext]; dsimp only; omega) (by rw [hnext]; exact hr)
        (by rw [hnext]; dsimp only; rw [hn]; exact hp)
      rw [Function.iterate_succ_apply next (k + 1) o]
      refine ⟨this.1, ?_⟩
      have h2 := this.2
      have e1 : (next o).phasor0 ^ 2 + (next o).phasor1 ^ 2 = o.phasor0 ^ 2 + o.phasor1 ^ 2 := by
        rw [hnext]; exact hn
      rw [e1] at h2
      rw [h2, pow_succ _ (k + 1), mul_comm _ (⟨o.rotator0, o.rotator1⟩ : ℂ), ← mul_assoc, hnext]
      congr 1
      apply Complex.ext
      · simp; ring
      · simp; ring
  refine ⟨999 - o.counter + 1, by omega, by omega, ?_⟩
  exact key _ o (by omega) hr hp

theorem exp_mk (t : ℝ) : Complex.exp ⟨0, t⟩ = Complex.exp (t * Complex.I) := by
  congr 1; apply Complex.ext <;> simp

theorem phasorLoop_eq (r : ℂ) : ∀ (n : ℕ) (p : ℂ),
    phasorLoop r n p = (List.range n).map fun k : ℕ => p * r ^ k
  | 0, _ => rfl
  | n + 1, p => by
    rw [phasorLoop, phasorLoop_eq r n, List.range_succ_eq_map, List.map_cons, List.map_map]
    congr 1
    · simp
    · apply List.map_congr_left
      intro k _
      simp only [Function.comp]
      rw [pow_succ]; ring

theorem sineLoop_eq (r : ℂ) : ∀ (n : ℕ) (p : ℂ),
    sineLoop r n p = (phasorLoop r n p).map Complex.im
  | 0, _ => rfl
  | n + 1, p => by rw [sineLoop, sineLoop_eq r n]; rfl

/-- **C42.** `ComputePhasorVector` returns `exp(i n step)` for `n = 0, 1, ...`. -/
theorem C42_phasor_vector (step : ℝ) (n : ℕ) :
    phasorVector step n = (List.range n).map fun k : ℕ => Complex.exp (k * step * Complex.I) := by
  unfold phasorVector
  rw [phasorLoop_eq]
  apply List.map_congr_left
  intro k _
  rw [one_mul, exp_mk, ← Complex.exp_nat_mul]
  congr 1; ring

/-- **C42.** `ComputeSineWaveVector` returns `sin(2π f n / rate + phase)` for `n = 0, 1, ...`. -/
theorem C42_sine_wave (frequency rate phase : ℝ) (n : ℕ) :
    sineWave frequency rate phase n =
      (List.range n).map fun k : ℕ => Real.sin (2 * Real.pi * frequency * k / rate + phase) := by
  unfold sineWave
  dsimp only
  rw [sineLoop_eq, phasorLoop_eq, List.map_map]
  apply List.map_congr_left
  intro k _
  simp only [Function.comp]
  rw [exp_mk, exp_mk, ← Complex.exp_nat_mul, ← Complex.exp_add]
  have e : (phase : ℂ) * Complex.I + k * (((2 * Real.pi * frequency / rate : ℝ) : ℂ) * Complex.I) =
      ((2 * Real.pi * frequency * k / rate + phase : ℝ) : ℂ) * Complex.I := by
    push_cast; ring
  rw [e, Complex.exp_ofReal_mul_I_im]

/-- Hypotheses of `C42_renormalize` are met by a drifted oscillator. -/
example : ∃ n, n ≤ 1000 ∧ 0 < n ∧ cos (next^[n] ⟨0, 1, 2, 0, 17⟩) ^ 2 +
    sin (next^[n] ⟨0, 1, 2, 0, 17⟩) ^ 2 = 1 := by
  obtain ⟨n, h1, h2, h3, -⟩ := C42_renormalize ⟨0, 1, 2, 0, 17⟩ (by norm_num) (by norm_num)
    (by norm_num)
  exact ⟨n, h1, h2, h3⟩

end Verif.Phasor
