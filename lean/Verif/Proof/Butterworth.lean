import Verif.Proof.PoleZero3
import Mathlib.RingTheory.Polynomial.Cyclotomic.Basic
import Mathlib.RingTheory.RootsOfUnity.Complex
import Mathlib.Analysis.SpecialFunctions.Trigonometric.Bounds

/-!
# The Butterworth polynomial
-/

namespace Verif.PoleZero
open Verif.BiquadCascade Verif.FilterDesign Spec
open scoped ComplexConjugate
open Finset

/-- `u^N + v^N` splits into linear factors over the odd powers of `e^{iπ/N}`. -/
theorem pow_add_pow_prod (N : ℕ) (hN : 0 < N) (u v : ℂ) :
    u ^ N + v ^ N = ∏ k ∈ range N, (u - Complex.exp ((Real.pi * (2 * k + 1) / N : ℝ) * Complex.I) * v) := by
  have hN0 : (N : ℂ) ≠ 0 := by exact_mod_cast hN.ne'
  have hζ := Complex.isPrimitiveRoot_exp N hN.ne'
  obtain ⟨ζ, hζd⟩ : ∃ ζ, ζ = Complex.exp (2 * Real.pi * Complex.I / N) := ⟨_, rfl⟩
  rw [← hζd] at hζ
  have hα : (Complex.exp ((Real.pi / N : ℝ) * Complex.I)) ^ N = -1 := by
    rw [← Complex.exp_nat_mul, ← Complex.exp_pi_mul_I]
    congr 1
    push_cast
    field_simp
  have h := hζ.pow_sub_pow_eq_prod_sub_mul u (Complex.exp ((Real.pi / N : ℝ) * Complex.I) * v) hN
  rw [mul_pow, hα, neg_one_mul, sub_neg_eq_add] at h
  rw [h]
  symm
  refine Finset.prod_nbij (fun k => ζ ^ k) ?_ ?_ ?_ ?_
  · intro k _
    show ζ ^ k ∈ _
    rw [Polynomial.mem_nthRootsFinset hN, ← pow_mul, mul_comm, pow_mul, hζ.pow_eq_one, one_pow]
  · intro a ha b hb hab
    simp only [Finset.coe_range, Set.mem_Iio] at ha hb
    exact hζ.pow_inj ha hb hab
  · intro x hx
    have hx' := (Polynomial.mem_nthRootsFinset hN _).1 hx
    have : NeZero N := ⟨hN.ne'⟩
    obtain ⟨i, hi, rfl⟩ := hζ.eq_pow_of_pow_eq_one hx'
    exact ⟨i, by simpa using hi, rfl⟩
  · intro k _
    rw [← mul_assoc, hζd, ← Complex.exp_nat_mul, ← Complex.exp_add]
    congr 3
    push_cast
    field_simp

theorem list_prod_range (n : ℕ) (f : ℕ → ℂ) : ((List.range n).map f).prod = ∏ i ∈ range n, f i := by
  induction n with
  | zero => simp
  | succ n ih => rw [List.range_succ, List.map_append, List.prod_append, ih, Finset.prod_range_succ]; simp

theorem pow_add_pow_pairs (N : ℕ) (hN : 0 < N) (u v : ℂ) :
    u ^ N + v ^ N = (∏ k ∈ range (N / 2), (u ^ 2 - 2 * Real.cos (Real.pi * (2 * k + 1) / N) * u * v + v ^ 2)) *
      (if N % 2 = 1 then u + v else 1) := by
  rw [pow_add_pow_prod N hN]
  have hN0 : (N : ℝ) ≠ 0 := by exact_mod_cast hN.ne'
  obtain ⟨g, hg⟩ : ∃ g : ℕ → ℂ, g = fun k : ℕ =>
    u - Complex.exp ((Real.pi * (2 * k + 1) / N : ℝ) * Complex.I) * v := ⟨_, rfl⟩
  have pair : ∀ k, k < N → g k * g (N - 1 - k)
      = u ^ 2 - 2 * Real.cos (Real.pi * (2 * k + 1) / N) * u * v + v ^ 2 := by
    intro k hk
    rw [hg]
    have e1 : Real.pi * (2 * ((N - 1 - k : ℕ) : ℝ) + 1) / N = 2 * Real.pi - Real.pi * (2 * k + 1) / N := by
      rw [Nat.cast_sub (by omega), Nat.cast_sub (by omega)]
      field_simp
      push_cast
      ring
    simp only [e1]
    generalize Real.pi * (2 * (k : ℝ) + 1) / N = t
    have e2 : Complex.exp (((2 * Real.pi - t : ℝ) : ℂ) * Complex.I) = Complex.exp (-(t * Complex.I)) := by
      rw [Complex.exp_eq_exp_iff_exists_int]
      exact ⟨1, by push_cast; ring⟩
    have e3 : Complex.exp (t * Complex.I) * Complex.exp (-(t * Complex.I)) = 1 := by
      rw [← Complex.exp_add]; simp
    have e4 : Complex.exp (t * Complex.I) + Complex.exp (-(t * Complex.I)) = 2 * (Real.cos t : ℝ) := by
      rw [Complex.ofReal_cos, Complex.cos]
      ring_nf
    rw [e2]
    linear_combination v ^ 2 * e3 - u * v * e4
  have split : ∏ k ∈ range N, g k = (∏ k ∈ range (N / 2), g k * g (N - 1 - k)) * (if N % 2 = 1 then g (N / 2) else 1) := by
    obtain ⟨M, hM⟩ : ∃ M, M = N / 2 := ⟨_, rfl⟩
    rw [← hM, Finset.prod_mul_distrib]
    have refl : ∏ k ∈ range M, g (N - 1 - k) = ∏ k ∈ range M, g (N - M + k) := by
      rw [← Finset.prod_range_reflect (fun k => g (N - M + k))]
      apply Finset.prod_congr rfl
      intro k hk
      have := Finset.mem_range.1 hk
      congr 1
      omega
    rw [refl]
    split_ifs with hodd
    · rw [show N = (M + 1) + M by omega, Finset.prod_range_add, Finset.prod_range_succ,
        show M + 1 + M - M = M + 1 by omega]
      ring
    · rw [mul_one]
      conv_lhs => rw [show N = M + M by omega, Finset.prod_range_add]
      rw [show N - M = M by omega]
  have mid : N % 2 = 1 → g (N / 2) = u + v := by
    intro hodd
    rw [hg]
    have : Real.pi * (2 * ((N / 2 : ℕ) : ℝ) + 1) / N = Real.pi := by
      have h2 : (2 * ((N / 2 : ℕ) : ℝ) + 1) = N := by
        have : 2 * (N / 2) + 1 = N := by omega
        exact_mod_cast this
      rw [h2]; field_simp
    simp only [this]
    rw [Complex.exp_pi_mul_I]; ring
  rw [← hg, split, Finset.prod_congr rfl fun k hk => pair k (by have := Finset.mem_range.1 hk; omega)]
  congr 1
  split_ifs with hodd
  · exact mid hodd
  · rfl

/-- The angle of a Butterworth pole. -/
noncomputable def bwAngle (N i : ℕ) : ℝ :=
  Real.pi - Real.pi / N * ((i : ℝ) + 1 - (if N % 2 = 1 then 0 else 1) * (1 / 2))

theorem butterworthPole_eq (N i : ℕ) : butterworthPole N i = ⟨Real.cos (bwAngle N i), Real.sin (bwAngle N i)⟩ := rfl

/-- Distance of the angle from `π`. -/
theorem bwAngle_bounds {N i : ℕ} (hi : i < N / 2) :
    Real.pi / (2 * N) ≤ Real.pi - bwAngle N i ∧ Real.pi - bwAngle N i < Real.pi / 2 := by
  have hN : (0 : ℝ) < N := by
    have : 0 < N := by omega
    exact_mod_cast this
  have hpi := Real.pi_pos
  have key : ∀ t : ℝ, 1 / 2 ≤ t → t < N / 2 → Real.pi / (2 * N) ≤ Real.pi / N * t ∧ Real.pi / N * t < Real.pi / 2 := by
    intro t h1 h2
    constructor
    · have : Real.pi / (2 * N) = Real.pi / N * (1 / 2) := by field_simp
      rw [this]
      exact mul_le_mul_of_nonneg_left h1 (by positivity)
    · have : Real.pi / 2 = Real.pi / N * (N / 2) := by field_simp
      rw [this]
      exact mul_lt_mul_of_pos_left h2 (by positivity)
  have hi' : ((2 * (i + 1) : ℕ) : ℝ) ≤ N := by
    have : 2 * (i + 1) ≤ N := by omega
    exact_mod_cast this
  push_cast at hi'
  have hi0 : (0 : ℝ) ≤ i := Nat.cast_nonneg _
  unfold bwAngle
  rw [sub_sub_cancel]
  apply key
  · split_ifs <;> linarith
  · split_ifs with h
    · have : ((2 * (i + 1) : ℕ) : ℝ) < N := by
        have : 2 * (i + 1) < N := by omega
        exact_mod_cast this
      push_cast at this
      linarith
    · linarith

theorem bw_re_neg {N i : ℕ} (hi : i < N / 2) : Real.cos (bwAngle N i) < 0 := by
  obtain ⟨h1, h2⟩ := bwAngle_bounds hi
  have hN : (0 : ℝ) < N := by
    have : 0 < N := by omega
    exact_mod_cast this
  have h3 : 0 < Real.pi / (2 * N) := div_pos Real.pi_pos (by linarith)
  rw [← neg_neg (Real.cos _), ← Real.cos_pi_sub]
  have := Real.cos_pos_of_mem_Ioo (x := Real.pi - bwAngle N i) ⟨by linarith, by linarith⟩
  linarith

theorem bw_double {N i : ℕ} (hi : i < N / 2) :
    Real.cos (2 * bwAngle N i) = -Real.cos (Real.pi * (2 * (N / 2 - 1 - i : ℕ) + 1) / N) := by
  have hN : (N : ℝ) ≠ 0 := by
    have : N ≠ 0 := by omega
    exact_mod_cast this
  have e : 2 * bwAngle N i = 2 * Real.pi - (Real.pi - Real.pi * (2 * ((N / 2 - 1 - i : ℕ) : ℝ) + 1) / N) := by
    unfold bwAngle
    rw [Nat.cast_sub (by omega), Nat.cast_sub (by omega)]
    have hM : ((N / 2 : ℕ) : ℝ) = ((N : ℝ) - (if N % 2 = 1 then 1 else 0)) / 2 := by
      have : (2 * (N / 2) + (if N % 2 = 1 then 1 else 0) : ℕ) = N := by split_ifs <;> omega
      have h2 : ((2 * (N / 2) + (if N % 2 = 1 then 1 else 0) : ℕ) : ℝ) = (N : ℝ) := by exact_mod_cast this
      push_cast at h2
      linarith
    rw [hM]
    push_cast
    split_ifs <;> field_simp <;> ring
  rw [e, Real.cos_two_pi_sub, Real.cos_pi_sub]

theorem butter_norm (N i : ℕ) : butterworthPole N i * conj (butterworthPole N i) = 1 := by
  rw [Complex.mul_conj, butterworthPole_eq, Complex.normSq_mk]
  norm_cast
  nlinarith [Real.cos_sq_add_sin_sq (bwAngle N i)]

/-- The product over the poles of the Butterworth prototype. -/
noncomputable def bw (N : ℕ) (x y : ℂ) : ℂ :=
  rootProd (fun r => x - r * y) (butterworth N).lonePoles (butterworth N).pairedPoles

theorem bw_expand (N : ℕ) (x y : ℂ) : bw N x y = (if N % 2 = 1 then x + y else 1) *
    ∏ i ∈ range (N / 2), ((x - butterworthPole N i * y) * (x - conj (butterworthPole N i) * y)) := by
  unfold bw rootProd butterworth PZ.normalizeGain
  dsimp only
  rw [List.map_map, list_prod_range]
  congr 1
  split_ifs <;> simp

theorem bw_mul (N : ℕ) (hN : 0 < N) (x y : ℂ) : bw N x y * bw N (-x) y = (-x ^ 2) ^ N + (y ^ 2) ^ N := by
  rw [pow_add_pow_pairs N hN, bw_expand, bw_expand]
  have h1 : ∀ i ∈ range (N / 2), ((x - butterworthPole N i * y) * (x - conj (butterworthPole N i) * y)) *
      ((-x - butterworthPole N i * y) * (-x - conj (butterworthPole N i) * y))
      = (-x ^ 2) ^ 2 - 2 * Real.cos (Real.pi * (2 * (N / 2 - 1 - i : ℕ) + 1) / N) * (-x ^ 2) * y ^ 2 + (y ^ 2) ^ 2 := by
    intro i hi
    have hn := butter_norm N i
    have hs : butterworthPole N i ^ 2 + conj (butterworthPole N i) ^ 2
        = 2 * Real.cos (2 * bwAngle N i) := by
      have : butterworthPole N i + conj (butterworthPole N i) = 2 * (Real.cos (bwAngle N i) : ℝ) := by
        rw [Complex.add_conj, butterworthPole_eq]
        push_cast
        rfl
      have e : butterworthPole N i ^ 2 + conj (butterworthPole N i) ^ 2
          = (butterworthPole N i + conj (butterworthPole N i)) ^ 2 - 2 * (butterworthPole N i * conj (butterworthPole N i)) := by
        ring
      rw [e, this, hn, Real.cos_two_mul]
      push_cast
      ring
    rw [bw_double (Finset.mem_range.1 hi)] at hs
    push_cast at hs ⊢
    generalize butterworthPole N i = p at *
    generalize conj p = q at *
    linear_combination (-x ^ 2 * y ^ 2) * hs + y ^ 4 * (p * q + 1) * hn
  have h2 : (∏ i ∈ range (N / 2), ((x - butterworthPole N i * y) * (x - conj (butterworthPole N i) * y))) *
      (∏ i ∈ range (N / 2), ((-x - butterworthPole N i * y) * (-x - conj (butterworthPole N i) * y)))
      = ∏ k ∈ range (N / 2), ((-x ^ 2) ^ 2 - 2 * Real.cos (Real.pi * (2 * k + 1) / N) * (-x ^ 2) * y ^ 2 + (y ^ 2) ^ 2) := by
    rw [← Finset.prod_mul_distrib, Finset.prod_congr rfl h1]
    exact Finset.prod_range_reflect (fun k : ℕ => (-x ^ 2) ^ 2 - 2 * (Real.cos (Real.pi * (2 * k + 1) / N) : ℂ) * (-x ^ 2) * y ^ 2 + (y ^ 2) ^ 2) (N / 2)
  rw [← h2]
  split_ifs <;> ring

theorem bw_conj (N : ℕ) (x y : ℂ) : conj (bw N x y) = bw N (conj x) (conj y) := by
  rw [bw_expand, bw_expand, map_mul, _root_.map_prod]
  congr 1
  · split_ifs <;> simp
  · apply Finset.prod_congr rfl
    intro i _
    simp only [map_mul, map_sub, Complex.conj_conj]
    ring

/-- On the imaginary axis. -/
theorem bw_normSq (N : ℕ) (hN : 0 < N) (X Y : ℝ) :
    Complex.normSq (bw N (X * Complex.I) Y) = X ^ (2 * N) + Y ^ (2 * N) := by
  have h : ((Complex.normSq (bw N (X * Complex.I) Y) : ℝ) : ℂ) = ((X ^ (2 * N) + Y ^ (2 * N) : ℝ) : ℂ) := by
    rw [← Complex.mul_conj, bw_conj]
    have : conj ((X : ℂ) * Complex.I) = -(X * Complex.I) := by simp
    rw [this, Complex.conj_ofReal, bw_mul N hN, mul_pow, Complex.I_sq, pow_mul, pow_mul]
    push_cast
    ring
  exact_mod_cast h

theorem butterworth_degree (N : ℕ) : (butterworth N).relativeDegree = N := by
  unfold PZ.relativeDegree PZ.polesDegree PZ.zerosDegree butterworth PZ.normalizeGain PZ.empty
  dsimp only
  rw [List.length_map, List.length_range]
  split_ifs <;> simp <;> omega

theorem bw_zero_one (N : ℕ) : bw N 0 1 = 1 := by
  rw [bw_expand]
  rw [Finset.prod_congr rfl (g := fun _ => (1 : ℂ))]
  · split_ifs <;> simp
  · intro i _
    rw [zero_sub, zero_sub, mul_one, mul_one, neg_mul_neg, butter_norm]

theorem butterworth_gain (N : ℕ) : (butterworth N).gain = 1 := by
  have h : ∀ lone paired, rootProd (fun r => r - (0 : ℂ)) lone paired
      = (-1) ^ (lone.length + 2 * paired.length) * rootProd (fun r => 0 - r * 1) lone paired := by
    intro lone paired
    rw [← rootProd_neg]
    congr 1; funext r; ring
  have h1 : rootProd (fun r => 0 - r * 1) (butterworth N).lonePoles (butterworth N).pairedPoles = 1 := bw_zero_one N
  show 1 / ‖PZ.eval _ 0‖ = 1
  rw [eval_eq, h]
  simp only [butterworth, PZ.normalizeGain] at h1
  rw [h _ (List.map _ _), h1]
  simp [PZ.empty, rootProd]

theorem butterworth_hom (N : ℕ) (x y : ℂ) : hom (butterworth N) x y = y ^ N / bw N x y := by
  unfold hom
  rw [butterworth_gain, butterworth_degree]
  have : rootProd (fun r => x - r * y) (butterworth N).loneZeros (butterworth N).pairedZeros = 1 := by
    simp [butterworth, PZ.normalizeGain, PZ.empty, rootProd]
  rw [this]
  simp [bw]

theorem butterworth_prototype (N : ℕ) : Prototype (butterworth N) where
  gain := by rw [butterworth_gain]; exact zero_le_one
  degree := by rw [butterworth_degree]; omega
  lonePoles := by
    intro p hp
    simp only [butterworth, PZ.normalizeGain] at hp
    split_ifs at hp <;> simp at hp
    rw [hp]; norm_num
  loneZeros := by intro p hp; simp [butterworth, PZ.normalizeGain, PZ.empty] at hp
  pairedPoles := by
    intro p hp
    simp only [butterworth, PZ.normalizeGain] at hp
    obtain ⟨i, hi, rfl⟩ := List.mem_map.1 hp
    exact bw_re_neg (List.mem_range.1 hi)
  pairedZeros := by intro p hp; simp [butterworth, PZ.normalizeGain, PZ.empty] at hp

end Verif.PoleZero
