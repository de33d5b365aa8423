import Verif.Proof.Elliptic

/-! # Lemmas for C88: the sequence of moduli -/

namespace Verif.Elliptic
open Verif.Elliptic.Spec

/-- The last modulus. -/
noncomputable def finalK : ℕ → ℝ → ℝ
  | 0, k => k
  | n + 1, k => if eps < k then finalK n (landenStep k) else k

/-- The product over the moduli. -/
noncomputable def prodK (n : ℕ) (k : ℝ) : ℝ := ((landenLoop n k).map (1 + ·)).prod

theorem foldl_prod (l : List ℝ) (x : ℝ) : l.foldl (fun r k => r * (1 + k)) x = x * (l.map (1 + ·)).prod := by
  induction l generalizing x with
  | nil => simp
  | cons a l ih => rw [List.foldl_cons, ih, List.map_cons, List.prod_cons, mul_assoc]

theorem kFromLanden_eq (m : ℝ) : kFromLanden (landenSequence m) = Real.pi / 2 * prodK 9 √m := by
  rw [kFromLanden, landenSequence, List.tail_cons, foldl_prod, prodK]

theorem loop_zero (k : ℝ) : landenLoop 0 k = [] := rfl
theorem loop_stop {n : ℕ} {k : ℝ} (h : ¬ eps < k) : landenLoop n k = [] := by
  cases n with
  | zero => rfl
  | succ n => rw [landenLoop, if_neg h]
theorem loop_go {n : ℕ} {k : ℝ} (h : eps < k) :
    landenLoop (n + 1) k = landenStep k :: landenLoop n (landenStep k) := by rw [landenLoop, if_pos h]

theorem final_stop {n : ℕ} {k : ℝ} (h : ¬ eps < k) : finalK n k = k := by
  cases n with
  | zero => rfl
  | succ n => rw [finalK, if_neg h]

theorem loop_length (n : ℕ) (k : ℝ) : (landenLoop n k).length ≤ n := by
  induction n generalizing k with
  | zero => simp [landenLoop]
  | succ n ih =>
    by_cases h : eps < k
    · rw [loop_go h, List.length_cons]; exact Nat.succ_le_succ (ih _)
    · rw [loop_stop h]; simp

theorem loop_range {n : ℕ} {k : ℝ} (h0 : 0 ≤ k) (h1 : k < 1) : ∀ q ∈ landenLoop n k, 0 ≤ q ∧ q < 1 := by
  induction n generalizing k with
  | zero => simp [landenLoop]
  | succ n ih =>
    obtain ⟨g0, g1, -⟩ := step_facts h0 h1
    by_cases h : eps < k
    · rw [loop_go h]
      intro q hq
      rcases List.mem_cons.1 hq with rfl | hq
      · exact ⟨g0, g1⟩
      · exact ih g0 g1 q hq
    · rw [loop_stop h]; simp

theorem loop_chain {n : ℕ} {k : ℝ} (h0 : 0 ≤ k) (h1 : k < 1) :
    (k :: landenLoop n k).Pairwise (fun a b => b ≤ a ^ 2) := by
  induction n generalizing k with
  | zero => simp [landenLoop]
  | succ n ih =>
    obtain ⟨g0, g1, g2, -⟩ := step_facts h0 h1
    by_cases h : eps < k
    · rw [loop_go h]
      have := ih g0 g1
      refine List.pairwise_cons.2 ⟨?_, this⟩
      intro q hq
      rcases List.mem_cons.1 hq with rfl | hq
      · exact g2
      · have h3 := (List.pairwise_cons.1 this).1 q hq
        nlinarith
    · rw [loop_stop h]; simp

theorem prodK_pos {n : ℕ} {k : ℝ} (h0 : 0 ≤ k) (h1 : k < 1) : 1 ≤ prodK n k := by
  induction n generalizing k with
  | zero => simp [prodK, landenLoop]
  | succ n ih =>
    obtain ⟨g0, g1, -⟩ := step_facts h0 h1
    by_cases h : eps < k
    · have := ih g0 g1
      rw [prodK, loop_go h, List.map_cons, List.prod_cons]
      rw [prodK] at this
      nlinarith
    · simp [prodK, loop_stop h]

theorem final_range {n : ℕ} {k : ℝ} (h0 : 0 ≤ k) (h1 : k < 1) : 0 ≤ finalK n k ∧ finalK n k < 1 := by
  induction n generalizing k with
  | zero => exact ⟨h0, h1⟩
  | succ n ih =>
    obtain ⟨g0, g1, -⟩ := step_facts h0 h1
    by_cases h : eps < k
    · rw [finalK, if_pos h]; exact ih g0 g1
    · rw [final_stop h]; exact ⟨h0, h1⟩

/-- Going up all moduli. -/
noncomputable def ascend (l : List ℝ) (s : ℝ) : ℝ := l.foldr gauss s

theorem ascend_F {n : ℕ} {k : ℝ} (h0 : 0 ≤ k) (h1 : k < 1) {s : ℝ} (hs : s ^ 2 ≤ 1) :
    ascend (landenLoop n k) s ^ 2 ≤ 1 ∧
    F (Real.arcsin (ascend (landenLoop n k) s)) (k ^ 2) = prodK n k * F (Real.arcsin s) (finalK n k ^ 2) := by
  induction n generalizing k with
  | zero => exact ⟨hs, by simp [ascend, landenLoop, prodK, finalK]⟩
  | succ n ih =>
    obtain ⟨g0, g1, -⟩ := step_facts h0 h1
    by_cases h : eps < k
    · obtain ⟨i1, i2⟩ := ih g0 g1
      rw [prodK, finalK, if_pos h, loop_go h, ascend, List.foldr_cons, List.map_cons, List.prod_cons]
      rw [ascend] at i1 i2
      refine ⟨gauss_mem g0 g1 i1, ?_⟩
      rw [gauss_S h0 h1 i1, i2, prodK, mul_assoc]
    · rw [prodK, loop_stop h, final_stop h]
      exact ⟨hs, by simp [ascend]⟩

/-- The loop of `EllipticF` over the reals. -/
noncomputable def descendAll : List ℝ → ℝ → ℝ
  | k :: k1 :: rest, w => descendAll (k1 :: rest) (w * (2 / ((1 + k1) * (1 + √(1 - (k * w) ^ 2)))))
  | [_], w => w
  | [], w => w

theorem descend_ascend {n : ℕ} {k : ℝ} (h0 : 0 ≤ k) (h1 : k < 1) {s : ℝ} (hs : s ^ 2 ≤ 1) :
    descendAll (k :: landenLoop n k) (ascend (landenLoop n k) s) = s := by
  induction n generalizing k with
  | zero => simp [ascend, landenLoop, descendAll]
  | succ n ih =>
    obtain ⟨g0, g1, -⟩ := step_facts h0 h1
    by_cases h : eps < k
    · have i1 := (ascend_F (n := n) g0 g1 hs).1
      have := ih g0 g1
      rw [loop_go h, descendAll]
      have e : ascend (landenStep k :: landenLoop n (landenStep k)) s
        = gauss (landenStep k) (ascend (landenLoop n (landenStep k)) s) := rfl
      have e2 := descend_gauss h0 h1 i1
      rw [descend] at e2
      rw [e, e2, this]
    · rw [loop_stop h]; rfl

theorem ascend_descend {n : ℕ} {k : ℝ} (h0 : 0 ≤ k) (h1 : k < 1) {s : ℝ} (hs : s ^ 2 ≤ 1) :
    ascend (landenLoop n k) (descendAll (k :: landenLoop n k) s) = s ∧
      descendAll (k :: landenLoop n k) s ^ 2 ≤ 1 := by
  induction n generalizing k s with
  | zero => simpa [ascend, landenLoop, descendAll] using hs
  | succ n ih =>
    obtain ⟨g0, g1, -⟩ := step_facts h0 h1
    by_cases h : eps < k
    · obtain ⟨d1, d2⟩ := gauss_descend h0 h1 hs
      obtain ⟨i1, i2⟩ := ih g0 g1 d2
      rw [loop_go h, descendAll]
      have e : ∀ s, ascend (landenStep k :: landenLoop n (landenStep k)) s
        = gauss (landenStep k) (ascend (landenLoop n (landenStep k)) s) := fun _ => rfl
      rw [descend] at d1 i1 i2
      rw [e, i1]
      exact ⟨d1, i2⟩
    · rw [loop_stop h]; exact ⟨rfl, hs⟩

/-! ## Convergence -/

theorem comp_step {k a b : ℝ} (h0 : 0 ≤ k) (h1 : k < 1) (ha : 0 < a) (hac : a ≤ √(1 - k * k)) (hb : 0 ≤ b)
    (hab : b ^ 2 * (1 + a) ^ 2 ≤ 4 * a) : b ≤ √(1 - landenStep k * landenStep k) := by
  obtain ⟨c0, c1, hc⟩ := comp_facts h0 h1
  refine Real.le_sqrt_of_sq_le ?_
  rw [step_eq h0 h1]
  generalize √(1 - k * k) = c at *
  have e : 1 - (1 - c) / (1 + c) * ((1 - c) / (1 + c)) = 4 * c / (1 + c) ^ 2 := by
    field_simp
    ring
  rw [e, le_div_iff₀ (by positivity)]
  have h2 : b ^ 2 ≤ 4 * a / (1 + a) ^ 2 := by rw [le_div_iff₀ (by positivity)]; exact hab
  have h3 : 4 * a / (1 + a) ^ 2 * (1 + c) ^ 2 ≤ 4 * c := by
    rw [div_mul_eq_mul_div, div_le_iff₀ (by positivity)]
    have hac1 : a * c ≤ 1 := by nlinarith
    nlinarith [mul_nonneg (sub_nonneg.2 hac) (sub_nonneg.2 hac1)]
  exact (mul_le_mul_of_nonneg_right h2 (sq_nonneg _)).trans h3

theorem final_le {n : ℕ} {k : ℝ} (h : landenStep^[n] k ≤ eps) : finalK n k ≤ eps := by
  induction n generalizing k with
  | zero => exact h
  | succ n ih =>
    by_cases hk : eps < k
    · rw [finalK, if_pos hk]
      exact ih h
    · rw [final_stop hk]; exact not_lt.1 hk

/-- The ten entries suffice for every `double` below 1. -/
theorem converged {m : ℝ} (h0 : 0 ≤ m) (h1 : m ≤ 1 - (1 / 2) ^ 53) :
    0 ≤ √m ∧ √m < 1 ∧ √m ^ 2 = m ∧ finalK 9 √m ≤ eps := by
  have hk0 := Real.sqrt_nonneg m
  have hk2 := Real.sq_sqrt h0
  have hk1 : √m < 1 := by
    have : (0 : ℝ) < (1 / 2) ^ 53 := by positivity
    nlinarith
  refine ⟨hk0, hk1, hk2, final_le ?_⟩
  have c0 : (1 / 10 ^ 8 : ℝ) ≤ √(1 - √m * √m) := by
    refine Real.le_sqrt_of_sq_le ?_
    rw [← pow_two, hk2]
    have : (1 / 10 ^ 8 : ℝ) ^ 2 ≤ (1 / 2) ^ 53 := by norm_num
    linarith
  generalize √m = k0 at *
  obtain ⟨p1, q1, -⟩ := step_facts hk0 hk1
  have c1 := comp_step (b := 19 / 100000) hk0 hk1 (by norm_num) c0 (by norm_num) (by norm_num)
  obtain ⟨p2, q2, -⟩ := step_facts p1 q1
  have c2 := comp_step (b := 27 / 1000) p1 q1 (by norm_num) c1 (by norm_num) (by norm_num)
  obtain ⟨p3, q3, -⟩ := step_facts p2 q2
  have c3 := comp_step (b := 31 / 100) p2 q2 (by norm_num) c2 (by norm_num) (by norm_num)
  obtain ⟨p4, q4, -⟩ := step_facts p3 q3
  have c4 := comp_step (b := 84 / 100) p3 q3 (by norm_num) c3 (by norm_num) (by norm_num)
  obtain ⟨p5, q5, -⟩ := step_facts p4 q4
  have c5 := comp_step (b := 996 / 1000) p4 q4 (by norm_num) c4 (by norm_num) (by norm_num)
  show landenStep (landenStep (landenStep (landenStep (landenStep (landenStep (landenStep (landenStep
    (landenStep k0)))))))) ≤ eps
  generalize landenStep (landenStep (landenStep (landenStep (landenStep k0)))) = k5 at *
  have hk5 : k5 ^ 2 ≤ 8 / 1000 := by
    have := (comp_facts p5 q5).2.2
    nlinarith
  obtain ⟨p6, q6, r6, -⟩ := step_facts p5 q5
  obtain ⟨p7, q7, r7, -⟩ := step_facts p6 q6
  obtain ⟨p8, q8, r8, -⟩ := step_facts p7 q7
  obtain ⟨p9, q9, r9, -⟩ := step_facts p8 q8
  have s6 := r6.trans hk5
  have s7 := r7.trans (pow_le_pow_left₀ p6 s6 2)
  have s8 := r8.trans (pow_le_pow_left₀ p7 s7 2)
  have s9 := r9.trans (pow_le_pow_left₀ p8 s8 2)
  refine s9.trans ?_
  rw [eps]
  norm_num

/-- With a modulus below the machine epsilon, `F` is the identity up to one part in `2 ^ 104`. -/
theorem F_final {q φ : ℝ} (h0 : 0 ≤ q) (h1 : q ≤ eps) : |F φ (q ^ 2) - φ| ≤ (1 / 2) ^ 104 * |φ| := by
  have he : eps = (1 / 2) ^ 52 := rfl
  have hq2 : q ^ 2 ≤ (1 / 2) ^ 104 := by
    have := pow_le_pow_left₀ h0 h1 2
    rw [he, ← pow_mul] at this
    exact this
  have hlt : q ^ 2 < 1 := lt_of_le_of_lt hq2 (by norm_num)
  have main : ∀ φ : ℝ, 0 ≤ φ → |F φ (q ^ 2) - φ| ≤ (1 / 2) ^ 104 * |φ| := by
    intro φ hφ
    obtain ⟨l, u⟩ := F_small (sq_nonneg q) hlt hφ
    have hs : 0 < √(1 - q ^ 2) := Real.sqrt_pos.2 (by linarith)
    rw [abs_of_nonneg (by linarith), abs_of_nonneg hφ]
    have h2 : 1 ≤ (1 + q ^ 2) * √(1 - q ^ 2) := by
      have : 1 ≤ √((1 + q ^ 2) ^ 2 * (1 - q ^ 2)) := by
        refine Real.le_sqrt_of_sq_le ?_
        have h3 : q ^ 2 ≤ 1 / 2 := hq2.trans (by norm_num)
        nlinarith [sq_nonneg q, mul_nonneg (sq_nonneg q) (sub_nonneg.2 h3), sq_nonneg (q ^ 2)]
      rwa [Real.sqrt_mul (sq_nonneg _), Real.sqrt_sq (by positivity)] at this
    have h4 : φ / √(1 - q ^ 2) ≤ φ * (1 + q ^ 2) := by
      rw [div_le_iff₀ hs, mul_assoc]
      exact le_mul_of_one_le_right hφ h2
    nlinarith [mul_le_mul_of_nonneg_left hq2 hφ]
  rcases le_total 0 φ with h | h
  · exact main φ h
  · have := main (-φ) (by linarith)
    rw [F_neg, abs_neg, neg_sub_neg, abs_sub_comm] at this
    exact this

end Verif.Elliptic
