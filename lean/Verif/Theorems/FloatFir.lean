import Verif.Model.FloatFir
import Verif.Spec.LinearFilter
import Verif.Proof.BitExact
import Verif.Proof.FloatResampler
import Mathlib.Algebra.BigOperators.Intervals

/-!
# C103: accuracy of the block FIR filter in floating point
-/

namespace Verif.FloatFir

open Verif.Rounding Verif.FloatResampler Verif.LinearFilter.Spec
open Verif.Fir (firRun firFilterInit)
open Verif.Fir.General (addUp addUp_succ)
open Finset

variable {rnd : ℝ → ℝ} {u η : ℝ} {ι : Type}

theorem getD_apply (l : List (ι → Fl rnd)) (k : ℕ) (i : ι) : (l.getD k 0) i = (l.map (fun v => v i)).getD k 0 := by
  rw [List.getD_eq_getElem?_getD, List.getD_eq_getElem?_getD, List.getElem?_map]
  cases l[k]? <;> rfl

theorem getD_val (l : List (Fl rnd)) (k : ℕ) : (l.getD k 0).val = (l.map Fl.val).getD k 0 := by
  rw [List.getD_eq_getElem?_getD, List.getD_eq_getElem?_getD, List.getElem?_map]
  cases l[k]? <;> rfl

/-- One channel of the sum. -/
theorem addUp_apply (kernel : List (ι → Fl rnd)) (x : ℕ → ι → Fl rnd) (p n : ℕ) (acc : ι → Fl rnd) (i : ι) :
    addUp kernel x p n acc i = addUp (kernel.map (fun v => v i)) (fun t => x t i) p n (acc i) := by
  induction n with
  | zero => rfl
  | succ n ih =>
    rw [addUp_succ, addUp_succ, List.length_map]
    split
    · rw [Pi.add_apply, Pi.mul_apply, ih, getD_apply]
    · exact ih

/-- The products added up at position `p`. -/
def terms (h x : ℕ → ℝ) (K p n : ℕ) : List (ℝ × ℝ) :=
  ((List.range n).filter fun i => i ≤ p ∧ p - i < K).map fun i => (h (p - i), x i)

theorem terms_succ (h x : ℕ → ℝ) (K p n : ℕ) :
    terms h x K p (n + 1) = if n ≤ p ∧ p - n < K then terms h x K p n ++ [(h (p - n), x n)] else terms h x K p n := by
  unfold terms
  rw [List.range_succ, List.filter_append, List.map_append]
  split
  · rename_i c
    rw [List.filter_singleton]
    simp [c]
  · rename_i c
    rw [List.filter_singleton]
    simp [c]

theorem terms_length (h x : ℕ → ℝ) (K p : ℕ) : ∀ n, n ≤ p + 1 → (terms h x K p n).length ≤ n - (p + 1 - K)
  | 0, _ => by simp [terms]
  | n + 1, hn => by
    have ih := terms_length h x K p n (by omega)
    rw [terms_succ]
    split
    · rw [List.length_append, List.length_singleton]; omega
    · omega

theorem addUp_machine (kernel : List (Fl rnd)) (x : ℕ → Fl rnd) (p n : ℕ) :
    ∃ d k, d ≤ (terms (fun t => (kernel.getD t 0).val) (fun t => (x t).val) kernel.length p n).length + 1 ∧
      (terms (fun t => (kernel.getD t 0).val) (fun t => (x t).val) kernel.length p n = [] → d = 0) ∧
      k ≤ 2 * (terms (fun t => (kernel.getD t 0).val) (fun t => (x t).val) kernel.length p n).length ∧
      IsDot rnd d k (terms (fun t => (kernel.getD t 0).val) (fun t => (x t).val) kernel.length p n)
        (addUp kernel x p n 0).val := by
  induction n with
  | zero => exact ⟨0, 0, by simp [terms], fun _ => rfl, by simp [terms], IsDot.zero⟩
  | succ n ih =>
    obtain ⟨d, k, h1, h2, h3, h4⟩ := ih
    rw [terms_succ, addUp_succ]
    split
    · refine ⟨max d 1 + 1, k + 1 + 1, ?_, by simp, ?_, IsDot.add h4 (IsDot.mul _ _)⟩
      · rw [List.length_append, List.length_singleton]
        rcases eq_or_ne (terms (fun t => (kernel.getD t 0).val) (fun t => (x t).val) kernel.length p n) [] with e | e
        · rw [h2 e]; simp
        · have := List.length_pos_iff.mpr e
          omega
      · rw [List.length_append, List.length_singleton]; omega
    · exact ⟨d, k, h1, h2, h3, h4⟩

/-- A sum over the terms is a convolution. -/
theorem sum_terms (h x : ℕ → ℝ) (K p : ℕ) (f : ℝ × ℝ → ℝ) :
    ((terms h x K p (p + 1)).map f).sum = ∑ k ∈ range K, if k ≤ p then f (h k, x (p - k)) else 0 := by
  have e : ∀ n, ((terms h x K p n).map f).sum =
      ∑ i ∈ range n, if i ≤ p ∧ p - i < K then f (h (p - i), x i) else 0 := by
    intro n
    induction n with
    | zero => simp [terms]
    | succ n ih =>
      rw [terms_succ, sum_range_succ, ← ih]
      split
      · rw [List.map_append, List.sum_append]; simp
      · rw [add_zero]
  rw [e, ← sum_range_reflect]
  have r1 : ∀ j ∈ range (p + 1), (if p + 1 - 1 - j ≤ p ∧ p - (p + 1 - 1 - j) < K then
      f (h (p - (p + 1 - 1 - j)), x (p + 1 - 1 - j)) else 0) = if j < K then f (h j, x (p - j)) else 0 := by
    intro j hj
    have hj' := mem_range.mp hj
    rw [show p + 1 - 1 - j = p - j by omega, show p - (p - j) = j by omega]
    simp
  rw [sum_congr rfl r1, ← sum_filter, ← sum_filter]
  apply sum_congr _ (fun _ _ => rfl)
  ext k
  simp only [mem_filter, mem_range]
  omega

/-- **C103.** `FirFilter` in floating point, for every channel, every kernel of that channel and every cutting of the
input into blocks: no index leaves its array, and with `c` the exact convolution and `d` the convolution of the absolute
values, the error is at most `((1 + u)^(n + 1) - 1) d` for a kernel of length `n`, and a term for underflow. -/
theorem C103_fir_accuracy (hr : Accurate rnd u η) (hu : 0 ≤ u) (kernel : List (ι → Fl rnd))
    (blocks : List (List (ι → Fl rnd))) :
    ∃ st outs, firRun kernel (firFilterInit kernel) blocks = .ok (st, outs) ∧
      outs.map List.length = blocks.map List.length ∧
      ∀ (i : ι) (c d : List ℝ),
        IsConv (kernel.map fun v => (v i).val) (blocks.flatten.map fun v => (v i).val) c →
        IsConv (kernel.map fun v => |(v i).val|) (blocks.flatten.map fun v => |(v i).val|) d →
        ∀ n, n < blocks.flatten.length →
          |(outs.flatten.map fun v => (v i).val).getD n 0 - c.getD n 0| ≤
            ((1 + u) ^ (kernel.length + 1) - 1) * d.getD n 0
              + (2 * kernel.length + 1) * η * (1 + u) ^ (kernel.length + 1) := by
  obtain ⟨st, outs, e1, i1, l1, g1⟩ := Fir.General.firRun_spec kernel blocks _ _ (Fir.General.inv_init kernel)
  refine ⟨st, outs, e1, l1, ?_⟩
  intro i c d hc hd n hn
  have hval : ∀ (l : List (ι → Fl rnd)) (k : ℕ), (l.map fun v : ι → Fl rnd => (v i).val).getD k 0 = ((l.map (fun v : ι → Fl rnd => v i)).getD k 0).val := by
    intro l k
    rw [getD_val, List.map_map]; rfl
  have habs : ∀ (l : List (ι → Fl rnd)) (k : ℕ), (l.map fun v : ι → Fl rnd => |(v i).val|).getD k 0 =
      |((l.map (fun v : ι → Fl rnd => v i)).getD k 0).val| := by
    intro l k
    rw [← hval, List.getD_eq_getElem?_getD, List.getD_eq_getElem?_getD, List.getElem?_map, List.getElem?_map]
    cases l[k]? <;> simp
  rw [hval, ← getD_apply, g1 n hn, addUp_apply]
  simp only [List.nil_append, List.length_nil, Nat.add_zero, getD_apply]
  obtain ⟨dd, k, h1, h2, h3, h4⟩ := addUp_machine (kernel.map fun v : ι → Fl rnd => v i)
    (fun t => (blocks.flatten.map (fun v : ι → Fl rnd => v i)).getD t 0) n (n + 1)
  have hlen := terms_length (fun t => ((kernel.map fun v : ι → Fl rnd => v i).getD t 0).val)
    (fun t => ((blocks.flatten.map (fun v : ι → Fl rnd => v i)).getD t 0).val) (kernel.map fun v : ι → Fl rnd => v i).length n (n + 1) le_rfl
  have B := h4.bound hr hu h1 (by omega)
  have ex : exactDot (terms (fun t => ((kernel.map fun v : ι → Fl rnd => v i).getD t 0).val)
      (fun t => ((blocks.flatten.map (fun v : ι → Fl rnd => v i)).getD t 0).val) (kernel.map fun v : ι → Fl rnd => v i).length n (n + 1)) = c.getD n 0 := by
    rw [hc.2 n (by rw [List.length_map]; exact hn), exactDot, sum_terms, List.length_map, List.length_map]
    apply sum_congr rfl
    intro k _
    unfold past
    rw [hval]
    split
    · rw [hval]
    · rw [mul_zero]
  have ab : absDot (terms (fun t => ((kernel.map fun v : ι → Fl rnd => v i).getD t 0).val)
      (fun t => ((blocks.flatten.map (fun v : ι → Fl rnd => v i)).getD t 0).val) (kernel.map fun v : ι → Fl rnd => v i).length n (n + 1)) = d.getD n 0 := by
    rw [hd.2 n (by rw [List.length_map]; exact hn), absDot, sum_terms, List.length_map, List.length_map]
    apply sum_congr rfl
    intro k _
    unfold past
    rw [habs]
    split
    · rw [habs, abs_mul]
    · rw [mul_zero]
  rw [ex, ab] at B
  refine B.trans ?_
  have hη := hr.eta_nonneg
  have d0 : 0 ≤ d.getD n 0 := ab ▸ absDot_nonneg _
  rw [List.length_map] at hlen B ⊢
  have hlen' : (terms (fun t => ((kernel.map fun v : ι → Fl rnd => v i).getD t 0).val)
      (fun t => ((blocks.flatten.map (fun v : ι → Fl rnd => v i)).getD t 0).val) kernel.length n (n + 1)).length ≤ kernel.length := by omega
  generalize (terms (fun t => ((kernel.map fun v : ι → Fl rnd => v i).getD t 0).val)
      (fun t => ((blocks.flatten.map (fun v : ι → Fl rnd => v i)).getD t 0).val) kernel.length n (n + 1)).length = L at *
  have m : (1 + u) ^ (L + 1) ≤ (1 + u) ^ (kernel.length + 1) := pow_le_pow_right₀ (by linarith) (by omega)
  have p : (0 : ℝ) < (1 + u) ^ (L + 1) := by positivity
  have hL : (L : ℝ) ≤ kernel.length := by exact_mod_cast hlen'
  unfold dotBound
  have a1 := mul_le_mul_of_nonneg_right m d0
  have a2 : (2 * (L : ℝ) + 1) * η * (1 + u) ^ (L + 1) ≤ (2 * kernel.length + 1) * η * (1 + u) ^ (kernel.length + 1) := by
    apply mul_le_mul (mul_le_mul_of_nonneg_right (by linarith) hη) m p.le (by positivity)
  linarith

/-- The hypotheses: `float`, two channels; and every pair of lists has a convolution. -/
example (kernel : List (Fin 2 → Fl binary32)) (blocks : List (List (Fin 2 → Fl binary32))) :
    ∃ st outs, firRun kernel (firFilterInit kernel) blocks = .ok (st, outs) := by
  obtain ⟨st, outs, h, _⟩ := C103_fir_accuracy binary32_accurate (by norm_num) kernel blocks
  exact ⟨st, outs, h⟩

example (h x : List ℝ) : ∃ c, IsConv h x c := by
  refine ⟨(List.range x.length).map fun n => ∑ k ∈ range h.length, h.getD k 0 * past x n k, by simp, fun n hn => ?_⟩
  rw [List.getD_eq_getElem _ _ (by simpa using hn), List.getElem_map, List.getElem_range]

end Verif.FloatFir
