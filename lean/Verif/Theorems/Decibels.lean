import Verif.Model.Decibels
import Mathlib.Analysis.SpecialFunctions.Pow.Real

/-!
# Property theorems: decibels (C74)
-/

namespace Verif.Decibels
open Verif.Drc

theorem log10_pos : 0 < Real.log 10 := Real.log_pos (by norm_num)

/-- **C74**. The decibel value `d` of an amplitude ratio `x > 0` is the one with `10^(d/20) = x`, and of a power
ratio the one with `10^(d/10) = x`. -/
theorem C74_to_db (x : ℝ) (hx : 0 < x) (d : ℝ) :
    (amplitudeToDbScalar x = d ↔ (10 : ℝ) ^ (d / 20) = x) ∧ (powerToDbScalar x = d ↔ (10 : ℝ) ^ (d / 10) = x) := by
  unfold amplitudeToDbScalar powerToDbScalar
  constructor
  · rw [← Real.logb_eq_iff_rpow_eq (by norm_num) (by norm_num) hx]
    constructor <;> intro h <;> linarith
  · rw [← Real.logb_eq_iff_rpow_eq (by norm_num) (by norm_num) hx]
    constructor <;> intro h <;> linarith

example : amplitudeToDbScalar 10 = 20 := (C74_to_db 10 (by norm_num) 20).1.mpr (by norm_num)

/-- **C74**. The ratio of `d` decibels is `10^(d/20)` for amplitudes and `10^(d/10)` for powers. -/
theorem C74_from_db (d : ℝ) :
    dbToAmplitudeScalar d = (10 : ℝ) ^ (d / 20) ∧ dbToPowerScalar d = (10 : ℝ) ^ (d / 10) := by
  unfold dbToAmplitudeScalar dbToPowerScalar
  constructor
  · rw [Real.rpow_def_of_pos (by norm_num)]
    congr 1
    ring
  · rw [Real.rpow_def_of_pos (by norm_num)]
    congr 1
    ring

/-- **C74**. The conversions are inverse to each other. -/
theorem C74_round_trip (d : ℝ) {x : ℝ} (hx : 0 < x) :
    amplitudeToDbScalar (dbToAmplitudeScalar d) = d ∧ dbToAmplitudeScalar (amplitudeToDbScalar x) = x ∧
      powerToDbScalar (dbToPowerScalar d) = d ∧ dbToPowerScalar (powerToDbScalar x) = x := by
  obtain ⟨h1, h2⟩ := C74_from_db d
  refine ⟨?_, ?_, ?_, ?_⟩
  · exact ((C74_to_db _ (Real.exp_pos _) d).1).mpr h1.symm
  · rw [(C74_from_db _).1]
    exact ((C74_to_db x hx _).1).mp rfl
  · exact ((C74_to_db _ (Real.exp_pos _) d).2).mpr h2.symm
  · rw [(C74_from_db _).2]
    exact ((C74_to_db x hx _).2).mp rfl

/-- **C74**. The array versions agree with the scalar ones at every element. -/
theorem C74_arrays (xs : List ℝ) :
    amplitudeToDbArray xs = xs.map amplitudeToDbScalar ∧ dbToAmplitudeArray xs = xs.map dbToAmplitudeScalar ∧
      powerToDbArray xs = xs.map powerToDbScalar ∧ dbToPowerArray xs = xs.map dbToPowerScalar := by
  refine ⟨List.map_congr_left fun x _ => ?_, rfl, List.map_congr_left fun x _ => ?_, rfl⟩
  · unfold amplitudeToDb amplitudeToDbScalar Real.logb
    ring
  · unfold powerToDb powerToDbScalar Real.logb
    ring

/-- **C74**. Products become sums, the power of an amplitude is its square, and larger ratios have more decibels. -/
theorem C74_algebra {x y : ℝ} (hx : 0 < x) (hy : 0 < y) :
    amplitudeToDbScalar (x * y) = amplitudeToDbScalar x + amplitudeToDbScalar y ∧
      powerToDbScalar (x * y) = powerToDbScalar x + powerToDbScalar y ∧
      powerToDbScalar (x ^ 2) = amplitudeToDbScalar x ∧
      (x < y ↔ amplitudeToDbScalar x < amplitudeToDbScalar y) ∧ (x < y ↔ powerToDbScalar x < powerToDbScalar y) := by
  unfold amplitudeToDbScalar powerToDbScalar
  have hm := Real.logb_mul (b := 10) hx.ne' hy.ne'
  have hl := Real.logb_lt_logb_iff (b := 10) (by norm_num) hx hy
  refine ⟨by rw [hm]; ring, by rw [hm]; ring, ?_, ?_, ?_⟩
  · rw [Real.logb_pow]
    push_cast
    ring
  · rw [← hl]
    constructor <;> intro h <;> linarith
  · rw [← hl]
    constructor <;> intro h <;> linarith

example : amplitudeToDbScalar (10 * 10) = 20 + 20 := by
  rw [(C74_algebra (by norm_num) (by norm_num)).1, (C74_to_db 10 (by norm_num) 20).1.mpr (by norm_num)]

end Verif.Decibels
