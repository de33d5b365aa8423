import Verif.Model.VectorUtil
import Mathlib.Tactic.Linarith
import Mathlib.Tactic.FieldSimp
import Mathlib.Tactic.NormNum.BigOperators
import Mathlib.Algebra.Order.BigOperators.Group.List

/-!
# C45: statistics of vectors
-/

namespace Verif.VectorUtil

section
variable {K : Type} [RCLike K]

theorem foldl_stats (x : List K) (a : K) (b : ℝ) :
    x.foldl (fun (s : K × ℝ) v => (s.1 + v, s.2 + RCLike.normSq v)) (a, b) =
      (a + x.sum, b + (x.map fun v => RCLike.normSq v).sum) := by
  induction x generalizing a b with
  | nil => simp
  | cons v x ih => simp only [List.foldl_cons, ih, List.sum_cons, List.map_cons]; ext <;> simp <;> ring

theorem sum_normSq_sub (x : List K) (m : K) :
    (x.map fun v => ‖v - m‖ ^ 2).sum = (x.map fun v => RCLike.normSq v).sum
      + x.length * RCLike.normSq m - 2 * RCLike.re (x.sum * starRingEnd K m) := by
  induction x with
  | nil => simp
  | cons v x ih =>
    simp only [List.map_cons, List.sum_cons, ih, List.length_cons]
    rw [← RCLike.normSq_eq_def', RCLike.normSq_sub, add_mul, map_add]
    push_cast
    ring

/-- **C45.** `ComputeSecondOrderStats` accepts exactly the non-empty vectors; its one-pass result is the
arithmetic mean and the mean squared distance to it. -/
theorem C45_stats (x : List K) :
    (x = [] → secondOrderStats x = .error .check) ∧
    (x ≠ [] → secondOrderStats x = .ok (x.sum / x.length,
      (x.map fun v => ‖v - x.sum / x.length‖ ^ 2).sum / x.length)) := by
  constructor
  · rintro rfl; simp [secondOrderStats]
  · intro hx
    have hn : 0 < x.length := List.length_pos_iff.2 hx
    have hn' : (0 : ℝ) < x.length := by exact_mod_cast hn
    have hK : (x.length : K) ≠ 0 := by exact_mod_cast hn.ne'
    unfold secondOrderStats
    dsimp only
    rw [if_neg (not_not.2 hn'), foldl_stats]
    simp only [zero_add, RCLike.ofReal_natCast]
    congr 2
    rw [sum_normSq_sub]
    have h1 : x.sum * starRingEnd K (x.sum / x.length)
        = ((x.length * RCLike.normSq (x.sum / x.length : K) : ℝ) : K) := by
      obtain ⟨m, hm⟩ : ∃ m : K, m = x.sum / x.length := ⟨_, rfl⟩
      rw [← hm]
      have : x.sum = x.length * m := by rw [hm]; field_simp
      rw [this, mul_assoc, RCLike.mul_conj, RCLike.normSq_eq_def']
      push_cast
      rfl
    rw [h1, RCLike.ofReal_re]
    field_simp
    ring

example : secondOrderStats [1, 2, (6 : ℝ)] = .ok (3, 14 / 3) := by
  rw [(C45_stats _).2 (by simp)]
  norm_num

/-- **C45.** The variance is never negative, and zero only for a constant vector. -/
theorem C45_variance (x : List K) (m : K) (v : ℝ) (h : secondOrderStats x = .ok (m, v)) :
    0 ≤ v ∧ (v = 0 ↔ ∀ y ∈ x, y = m) := by
  by_cases hx : x = []
  · rw [(C45_stats x).1 hx] at h; cases h
  · rw [(C45_stats x).2 hx] at h
    obtain ⟨rfl, rfl⟩ := Prod.ext_iff.1 (Except.ok.inj h)
    dsimp only
    have hn : (0 : ℝ) < x.length := by exact_mod_cast List.length_pos_iff.2 hx
    have h0 : 0 ≤ (x.map fun y => ‖y - x.sum / x.length‖ ^ 2).sum := by
      apply List.sum_nonneg
      intro a ha
      obtain ⟨y, -, rfl⟩ := List.mem_map.1 ha
      positivity
    refine ⟨by positivity, ?_⟩
    rw [div_eq_zero_iff, or_iff_left hn.ne']
    generalize x.sum / (x.length : K) = m
    clear h h0 hn hx
    induction x with
    | nil => simp
    | cons y ys ih =>
      have h1 : 0 ≤ (ys.map fun y => ‖y - m‖ ^ 2).sum := by
        apply List.sum_nonneg
        intro a ha
        obtain ⟨y, -, rfl⟩ := List.mem_map.1 ha
        positivity
      rw [List.map_cons, List.sum_cons, add_eq_zero_iff_of_nonneg (by positivity) h1, ih]
      simp [sub_eq_zero]

/-- **C45.** `SumSquaredMagnitudes` is the squared Euclidean norm. -/
theorem C45_energy (x : List K) : sumSquaredMagnitudes x = (x.map fun v => ‖v‖ ^ 2).sum := by
  have : ∀ (x : List K) (a : ℝ),
      x.foldl (fun s v => s + (RCLike.re v * RCLike.re v + RCLike.im v * RCLike.im v)) a =
        a + (x.map fun v => ‖v‖ ^ 2).sum := by
    intro x
    induction x with
    | nil => simp
    | cons v x ih =>
      intro a
      rw [List.foldl_cons, ih, List.map_cons, List.sum_cons, ← RCLike.normSq_eq_def', RCLike.normSq_apply]
      ring
  rw [sumSquaredMagnitudes, this, zero_add]

/-- **C45.** `RootMeanSquareError` rejects different sizes, has no value for two empty vectors, and is
otherwise the root of the mean squared distance. -/
theorem C45_rmse (x y : List K) :
    (x.length ≠ y.length → rootMeanSquareError x y = .error .check) ∧
    (x = [] → y = [] → rootMeanSquareError x y = .error .nan) ∧
    (x.length = y.length → x ≠ [] → rootMeanSquareError x y =
      .ok (√((∑ i ∈ Finset.range x.length, ‖x.getD i 0 - y.getD i 0‖ ^ 2) / x.length))) := by
  refine ⟨fun h => by simp [rootMeanSquareError, h], ?_, ?_⟩
  · rintro rfl rfl; simp [rootMeanSquareError]
  · intro h hx
    have hfold : ∀ (x y : List K) (a : ℝ), x.length = y.length →
        (x.zip y).foldl (fun s (p : K × K) =>
          s + ((RCLike.re p.1 - RCLike.re p.2) * (RCLike.re p.1 - RCLike.re p.2) +
          (RCLike.im p.1 - RCLike.im p.2) * (RCLike.im p.1 - RCLike.im p.2))) a =
        a + ∑ i ∈ Finset.range x.length, ‖x.getD i 0 - y.getD i 0‖ ^ 2 := by
      intro x
      induction x with
      | nil => intro y a _; simp
      | cons v x ih =>
        intro y a hy
        cases y with
        | nil => simp at hy
        | cons w y =>
          rw [List.zip_cons_cons, List.foldl_cons, ih y _ (by simpa using hy), List.length_cons,
            Finset.sum_range_succ']
          simp only [List.getD_cons_succ, List.getD_cons_zero]
          rw [← RCLike.normSq_eq_def' (v - w), RCLike.normSq_apply]
          simp only [map_sub]
          ring
    unfold rootMeanSquareError
    rw [if_neg (not_not.2 h)]
    dsimp only
    rw [if_neg (by simpa using hx), hfold x y 0 h, zero_add]

example : rootMeanSquareError [0, (3 : ℝ)] [4, 0] = .ok (√(25 / 2)) := by
  rw [(C45_rmse [0, (3 : ℝ)] [4, 0]).2.2 rfl (by simp)]
  norm_num [Finset.sum_range_succ]

/-- **C45.** `ZScoreNormalize` with a non-negative floor makes the mean zero and the variance
`σ² / (floor + σ)²`; in particular 1 for floor 0. -/
theorem C45_zscore (floor : ℝ) (x : List K) (hf : 0 ≤ floor) (m : K) (v : ℝ)
    (h : secondOrderStats x = .ok (m, v)) (hd : floor ≠ 0 ∨ v ≠ 0) :
    ∃ y, zScoreNormalize floor x = .ok y ∧ y.length = x.length ∧
      secondOrderStats y = .ok (0, v / (floor + √v) ^ 2) := by
  have hv := (C45_variance x m v h).1
  have hx : x ≠ [] := by
    rintro rfl
    simp [secondOrderStats] at h
  have hden : 0 < floor + √v := by
    rcases hd with hd | hd
    · have := lt_of_le_of_ne hf (Ne.symm hd)
      have := Real.sqrt_nonneg v
      linarith
    · have := Real.sqrt_pos.2 (lt_of_le_of_ne hv (Ne.symm hd))
      linarith
  refine ⟨x.map fun y => (y - m) / ((floor + √v : ℝ) : K), ?_, by simp, ?_⟩
  · unfold zScoreNormalize
    rw [if_neg (by simpa using hx), h]
    dsimp only
    rw [if_neg hden.ne']
  · have h' := h
    rw [(C45_stats x).2 hx] at h'
    obtain ⟨hm, hvv⟩ := Prod.ext_iff.1 (Except.ok.inj h')
    dsimp only at hm hvv
    rw [(C45_stats _).2 (by simpa using hx)]
    have hn : (x.length : K) ≠ 0 := by simpa using hx
    have hsum : (x.map fun y => (y - m) / ((floor + √v : ℝ) : K)).sum = 0 := by
      have : ∀ (x : List K) (d : K), (x.map fun y => (y - m) / d).sum = (x.sum - x.length * m) / d := by
        intro x d
        induction x with
        | nil => simp
        | cons y ys ih => simp only [List.map_cons, List.sum_cons, ih, List.length_cons]; push_cast; ring
      rw [this, ← hm]
      field_simp
      simp
    rw [hsum, List.length_map, zero_div, List.map_map]
    congr 2
    rw [hm] at hvv
    have hsc : ∀ x : List K, (x.map ((fun v => ‖v - 0‖ ^ 2) ∘ fun y => (y - m) / ((floor + √v : ℝ) : K))).sum
        = (x.map fun y => ‖y - m‖ ^ 2).sum / (floor + √v) ^ 2 := by
      intro x
      induction x with
      | nil => simp
      | cons y ys ih =>
        rw [List.map_cons, List.sum_cons, ih, List.map_cons, List.sum_cons, Function.comp, sub_zero,
          norm_div, RCLike.norm_ofReal, abs_of_pos hden, div_pow, add_div]
    rw [hsc, div_right_comm, hvv]

example : ∃ y, zScoreNormalize 0 [1, (3 : ℝ)] = .ok y ∧ secondOrderStats y = .ok (0, 1) := by
  have h : secondOrderStats [1, (3 : ℝ)] = .ok (2, 1) := by
    rw [(C45_stats _).2 (by simp)]; norm_num
  obtain ⟨y, h1, -, h3⟩ := C45_zscore 0 _ le_rfl 2 1 h (Or.inr one_ne_zero)
  exact ⟨y, h1, by simpa using h3⟩

end

/-! ### Maxima -/

theorem maxElement_spec {K : Type} [LinearOrder K] (x : List K) :
    (x = [] → maxElement x = none) ∧
    (x ≠ [] → ∃ i m, maxElement x = some (i, m) ∧ x[i]? = some m ∧ (∀ y ∈ x, y ≤ m) ∧
      ∀ j y, j < i → x[j]? = some y → y < m) := by
  constructor
  · rintro rfl; rfl
  · induction x with
    | nil => simp
    | cons v x ih =>
      intro _
      by_cases hx : x = []
      · subst hx
        exact ⟨0, v, rfl, rfl, by simp, by simp⟩
      · obtain ⟨i, m, h1, h2, h3, h4⟩ := ih hx
        by_cases hv : v < m
        · refine ⟨i + 1, m, by simp [maxElement, h1, hv], by simpa using h2, ?_, ?_⟩
          · intro y hy
            rcases List.mem_cons.1 hy with rfl | hy
            · exact hv.le
            · exact h3 y hy
          · intro j y hj hy
            cases j with
            | zero => simp at hy; rw [← hy]; exact hv
            | succ j => exact h4 j y (by omega) (by simpa using hy)
        · refine ⟨0, v, by simp [maxElement, h1, hv], rfl, ?_, by simp⟩
          intro y hy
          rcases List.mem_cons.1 hy with rfl | hy
          · exact le_rfl
          · exact (h3 y hy).trans (not_lt.1 hv)

/-- **C45.** `FindMaxIndexAndValue` rejects the empty container and otherwise finds the first of the
largest elements. -/
theorem C45_find_max {K : Type} [LinearOrder K] (x : List K) :
    (x = [] → findMaxIndexAndValue x = .error .check) ∧
    (x ≠ [] → ∃ i m, findMaxIndexAndValue x = .ok (i, m) ∧ x[i]? = some m ∧ (∀ y ∈ x, y ≤ m) ∧
      ∀ j y, j < i → x[j]? = some y → y < m) := by
  constructor
  · rintro rfl; rfl
  · intro hx
    obtain ⟨i, m, h1, h2⟩ := (maxElement_spec x).2 hx
    exact ⟨i, m, by simp [findMaxIndexAndValue, h1], h2⟩

example : findMaxIndexAndValue [3, 7, 2, (7 : ℤ)] = .ok (1, 7) := by decide +kernel

/-- **C45.** `ComputeMaxMagnitude` of real elements: an upper bound of the magnitudes that is attained,
and zero for the empty container. -/
theorem C45_max_magnitude {K : Type} [Field K] [LinearOrder K] [IsStrictOrderedRing K] (x : List K) :
    (x = [] → maxMagnitude x = 0) ∧ (∀ y ∈ x, |y| ≤ maxMagnitude x) ∧
    (x ≠ [] → ∃ y ∈ x, maxMagnitude x = |y|) := by
  by_cases hx : x = []
  · subst hx
    exact ⟨fun _ => rfl, by simp, fun h => absurd rfl h⟩
  · obtain ⟨i, hi, h1, h2, h3, -⟩ := (maxElement_spec x).2 hx
    obtain ⟨j, lo, g1, g2, g3, -⟩ := (maxElement_spec (K := Kᵒᵈ) (x.map OrderDual.toDual)).2 (by simpa using hx)
    have hlo : ∀ y ∈ x, OrderDual.ofDual lo ≤ y := fun y hy =>
      g3 (OrderDual.toDual y) (List.mem_map_of_mem hy)
    have hmlo : OrderDual.ofDual lo ∈ x := by
      have := List.mem_of_getElem? g2
      obtain ⟨y, hy, rfl⟩ := List.mem_map.1 this
      exact hy
    have hmhi : hi ∈ x := List.mem_of_getElem? h2
    have hval : maxMagnitude x = max (-(OrderDual.ofDual lo)) hi := by
      unfold maxMagnitude
      rw [h1, g1]
    generalize OrderDual.ofDual lo = l at hlo hmlo hval
    have hle : l ≤ hi := h3 _ hmlo
    refine ⟨fun h => absurd h hx, ?_, ?_⟩
    · intro y hy
      rw [hval, abs_le']
      exact ⟨(h3 y hy).trans (le_max_right _ _), (neg_le_neg (hlo y hy)).trans (le_max_left _ _)⟩
    · intro _
      rw [hval]
      rcases le_total (-l) hi with h | h
      · refine ⟨hi, hmhi, ?_⟩
        rw [max_eq_right h, abs_of_nonneg (by linarith)]
      · refine ⟨l, hmlo, ?_⟩
        rw [max_eq_left h, abs_of_nonpos (by linarith)]

example : maxMagnitude [2, -5, (3 : ℚ)] = 5 := by decide +kernel

/-- **C45.** `ComputeMaxMagnitude` of complex elements: an upper bound of the magnitudes that is
attained, and zero for the empty container. -/
theorem C45_max_magnitude_complex (x : List ℂ) :
    (x = [] → maxMagnitudeComplex x = 0) ∧ (∀ y ∈ x, ‖y‖ ≤ maxMagnitudeComplex x) ∧
    (x ≠ [] → ∃ y ∈ x, maxMagnitudeComplex x = ‖y‖) := by
  have key : ∀ (x : List ℂ) (a : ℝ), 0 ≤ a →
      a ≤ x.foldl (fun m v => max m (v.re * v.re + v.im * v.im)) a ∧
      (∀ y ∈ x, ‖y‖ ^ 2 ≤ x.foldl (fun m v => max m (v.re * v.re + v.im * v.im)) a) ∧
      (x.foldl (fun m v => max m (v.re * v.re + v.im * v.im)) a = a ∨
        ∃ y ∈ x, x.foldl (fun m v => max m (v.re * v.re + v.im * v.im)) a = ‖y‖ ^ 2) := by
    intro x
    induction x with
    | nil => intro a ha; exact ⟨le_rfl, by simp, Or.inl rfl⟩
    | cons v x ih =>
      intro a ha
      obtain ⟨h1, h2, h3⟩ := ih (max a (v.re * v.re + v.im * v.im)) (ha.trans (le_max_left _ _))
      have hv : ‖v‖ ^ 2 = v.re * v.re + v.im * v.im := by
        rw [← Complex.normSq_eq_norm_sq, Complex.normSq_apply]
      rw [List.foldl_cons]
      refine ⟨(le_max_left _ _).trans h1, ?_, ?_⟩
      · intro y hy
        rcases List.mem_cons.1 hy with rfl | hy
        · rw [hv]; exact (le_max_right _ _).trans h1
        · exact h2 y hy
      · rcases h3 with h3 | ⟨y, hy, h3⟩
        · rcases le_total (v.re * v.re + v.im * v.im) a with h | h
          · left; rw [h3, max_eq_left h]
          · right; exact ⟨v, by simp, by rw [h3, max_eq_right h, hv]⟩
        · right; exact ⟨y, by simp [hy], h3⟩
  obtain ⟨h1, h2, h3⟩ := key x 0 le_rfl
  refine ⟨?_, ?_, ?_⟩
  · rintro rfl; simp [maxMagnitudeComplex]
  · intro y hy
    rw [maxMagnitudeComplex]
    exact Real.le_sqrt_of_sq_le (h2 y hy)
  · intro hx
    rw [maxMagnitudeComplex]
    rcases h3 with h3 | ⟨y, hy, h3⟩
    · obtain ⟨y, hy⟩ := List.exists_mem_of_ne_nil x hx
      refine ⟨y, hy, ?_⟩
      have := h2 y hy
      rw [h3] at this ⊢
      have h0 : ‖y‖ = 0 := by
        have := norm_nonneg y
        nlinarith
      rw [h0, Real.sqrt_zero]
    · exact ⟨y, hy, by rw [h3, Real.sqrt_sq (norm_nonneg y)]⟩

/-- **C45.** `ElementwiseMax` and `MultiplyComplexVectorByConjugate` element by element. -/
theorem C45_elementwise {K : Type} [LinearOrder K] (x y : List K) (z w : List ℂ) (h : x.length = y.length)
    (h' : z.length = w.length) :
    elementwiseMax x y = .ok (List.zipWith max x y) ∧
    multiplyByConjugate z w = .ok (List.zipWith (fun b a => a * starRingEnd ℂ b) z w) := by
  constructor
  · unfold elementwiseMax
    rw [if_neg (not_not.2 h)]
    congr 2
    funext a b
    split_ifs with hab
    · exact (max_eq_left hab.le).symm
    · exact (max_eq_right (not_lt.1 hab)).symm
  · unfold multiplyByConjugate
    rw [if_neg (by omega), List.zipWith_comm]
    congr 2
    funext a b
    apply Complex.ext <;> simp <;> ring

/-- **C45.** `ZScoreNormalize` with floor 0 has no value on a constant vector: the hypothesis
`floor ≠ 0 ∨ v ≠ 0` of `C45_zscore` cannot be dropped. -/
theorem C45_zscore_constant (v : ℝ) : zScoreNormalize 0 [v, v] = .error .nan := by
  have : secondOrderStats [v, v] = .ok (v, 0) := by
    rw [(C45_stats _).2 (by simp)]
    have : [v, v].sum / (([v, v] : List ℝ).length : ℝ) = v := by simp
    rw [this]
    simp
  unfold zScoreNormalize
  simp [this]

end Verif.VectorUtil
