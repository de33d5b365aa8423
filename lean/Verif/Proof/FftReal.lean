import Verif.Proof.Fft
import Verif.Spec.Dft

/-! Lemmas about the transforms of real signals. -/

namespace Verif.Fft
open Finset DftSpec

theorem dft_eq (x : List ℂ) : dft x = (List.range x.length).map (F x.length fun j => x.getD j 0) :=
  kissForward_eq x.length x

theorem idft_eq (x : List ℂ) : idft x = (List.range x.length).map (G x.length fun j => x.getD j 0) :=
  kissInverse_eq x.length x

theorem complexImpl_forward {impl : ComplexImpl} {n : ℕ} (hn : 0 < n) (next : ℕ → ℕ)
    (hM : ∀ n, n ≤ next n) (h : impl = .kiss n ∨ impl = .bluestein (.make next n)) (x : List ℂ) :
    impl.forward x = (List.range n).map (F n fun j => x.getD j 0) := by
  rcases h with rfl | rfl
  · exact kissForward_eq n x
  · exact bluestein_forward hn next (hM _) x

theorem complexImpl_inverse {impl : ComplexImpl} {n : ℕ} (hn : 0 < n) (next : ℕ → ℕ)
    (hM : ∀ n, n ≤ next n) (h : impl = .kiss n ∨ impl = .bluestein (.make next n)) (x : List ℂ) :
    impl.inverse x = (List.range n).map (G n fun j => x.getD j 0) := by
  rcases h with rfl | rfl
  · exact kissInverse_eq n x
  · exact bluestein_inverse hn next (hM _) x

theorem complexImpl_size {impl : ComplexImpl} {n : ℕ} (next : ℕ → ℕ)
    (h : impl = .kiss n ∨ impl = .bluestein (.make next n)) : impl.size = n := by
  rcases h with rfl | rfl <;> rfl

theorem reflect_aux (x : List ℂ) (start q : ℕ) (hs : start < x.length) :
    (List.range q).foldl (fun (l : List ℂ) j => l ++ [starRingEnd ℂ (l.getD (start - j) 0)]) x
      = x ++ (List.range q).map fun j : ℕ => starRingEnd ℂ (x.getD (start - j) 0) := by
  induction q with
  | zero => simp
  | succ q ih =>
    rw [List.range_succ, List.foldl_append, ih, List.map_append, ← List.append_assoc]
    simp only [List.foldl_cons, List.foldl_nil, List.map_cons, List.map_nil]
    rw [List.getD_append _ _ _ _ (by omega)]

theorem list_ext_getD {α : Type*} {a b : List α} (d : α) (hl : a.length = b.length)
    (h : ∀ i < a.length, a.getD i d = b.getD i d) : a = b := by
  refine List.ext_getElem hl fun i h1 h2 => ?_
  have := h i h1
  rwa [List.getD_eq_getElem _ _ h1, List.getD_eq_getElem _ _ h2] at this

theorem reflectSpectrum_eq {n : ℕ} (hn : 0 < n) {x : List ℂ} (hx : x.length = n / 2 + 1) :
    reflectSpectrum n x = some (hermitian n x) := by
  unfold reflectSpectrum
  rw [if_neg (by simp [hx])]
  dsimp only
  have hst : ∃ s, s = x.length - (if n % 2 = 0 then 2 else 1) := ⟨_, rfl⟩
  obtain ⟨s, hs⟩ := hst
  have hs2 : x.length + s = n := by rw [hs]; split_ifs <;> omega
  rw [← hs, reflect_aux _ _ _ (by rw [hs]; split_ifs <;> omega)]
  congr 1
  apply list_ext_getD 0
  · simp [hermitian, hs2]
  · intro i hi
    have hi : i < n := by simpa [hs2] using hi
    rw [hermitian, getD_range_map _ _ _ hi]
    by_cases h : i ≤ n / 2
    · rw [if_pos h, List.getD_append _ _ _ _ (by omega)]
    · rw [if_neg h, List.getD_append_right _ _ _ _ (by omega), getD_range_map _ _ _ (by omega)]
      congr 2; omega

theorem hermitian_getD {n : ℕ} (x : List ℂ) {k : ℕ} (hk : k < n) :
    (hermitian n x).getD k 0 = if k ≤ n / 2 then x.getD k 0 else starRingEnd ℂ (x.getD (n - k) 0) := by
  rw [hermitian, getD_range_map _ _ _ hk]

theorem kissRealInverse_eq {n : ℕ} (hn : 0 < n) (he : n % 2 = 0) (x : List ℂ) :
    kissRealInverse n x
      = ((List.range n).map (G n fun j => (hermitian n x).getD j 0)).map Complex.re := by
  rw [kissRealInverse, List.map_map]
  refine List.map_congr_left fun m _ => ?_
  obtain ⟨h, rfl⟩ : ∃ h, n = h + h := ⟨n / 2, by omega⟩
  obtain ⟨g, rfl⟩ : ∃ g, h = g + 1 := ⟨h - 1, by omega⟩
  have hd : (g + 1 + (g + 1)) / 2 = g + 1 := by omega
  have hnc : ((g + 1 + (g + 1) : ℕ) : ℂ) ≠ 0 := by exact_mod_cast hn.ne'
  simp only [Function.comp_apply, G, hd, Nat.add_sub_cancel]
  rw [sum_range_add, sum_range_succ' (n := g)]
  have hsecond : ∑ j ∈ range (g + 1), (hermitian (g + 1 + (g + 1)) x).getD (g + 1 + j) 0 *
        W (g + 1 + (g + 1)) (m * ((g + 1 + j : ℕ) : ℤ))
      = (∑ j ∈ range g, starRingEnd ℂ (x.getD (j + 1) 0 * W (g + 1 + (g + 1)) (m * ((j + 1 : ℕ) : ℤ))))
        + x.getD (g + 1) 0 * (-1) ^ m := by
    rw [sum_range_succ' (n := g)]
    congr 1
    · rw [← sum_range_reflect]
      refine sum_congr rfl fun j hj => ?_
      have hj := mem_range.mp hj
      rw [hermitian_getD _ (by omega), if_neg (by omega), map_mul, W_conj]
      congr 1
      · congr 2; omega
      · apply W_congr hn
        refine ⟨m, ?_⟩
        have : ((g + 1 + (g - 1 - j + 1) : ℕ) : ℤ) = (g + 1 + (g + 1) : ℕ) - ((j + 1 : ℕ) : ℤ) := by
          omega
        rw [this]; ring
    · rw [hermitian_getD _ (by omega), if_pos (by omega)]
      congr 1
      rw [W]
      rw [show 2 * (Real.pi : ℂ) * Complex.I * ((m * ((g + 1 + 0 : ℕ) : ℤ) : ℤ) : ℂ)
          / ((g + 1 + (g + 1) : ℕ) : ℂ) = m * (Real.pi * Complex.I) by
        field_simp; push_cast; ring]
      rw [Complex.exp_nat_mul, Complex.exp_pi_mul_I]
  rw [hsecond, hermitian_getD _ (by omega), if_pos (by omega)]
  have hfirst : ∑ k ∈ range g, (hermitian (g + 1 + (g + 1)) x).getD (k + 1) 0 *
        W (g + 1 + (g + 1)) (m * ((k + 1 : ℕ) : ℤ))
      = ∑ k ∈ range g, x.getD (k + 1) 0 * W (g + 1 + (g + 1)) (m * ((k + 1 : ℕ) : ℤ)) := by
    refine sum_congr rfl fun k hk => ?_
    have hk := mem_range.mp hk
    rw [hermitian_getD _ (by omega), if_pos (by omega)]
  rw [hfirst]
  have hW : ∀ k : ℕ, Complex.exp (2 * Real.pi * Complex.I * (k + 1 : ℕ) * m / (g + 1 + (g + 1) : ℕ))
      = W (g + 1 + (g + 1)) (m * ((k + 1 : ℕ) : ℤ)) := by
    intro k; rw [W]; congr 1; push_cast; ring
  simp only [hW, Complex.add_re, Complex.re_sum, Complex.conj_re]
  rw [← mul_sum]
  have h0 : (x.getD 0 0 * W (g + 1 + (g + 1)) (m * ((0 : ℕ) : ℤ))).re = (x.getD 0 0).re := by
    simp [W]
  have h1 : (x.getD (g + 1) 0 * (-1) ^ m).re = (-1) ^ m * (x.getD (g + 1) 0).re := by
    rcases neg_one_pow_eq_or ℂ m with h | h <;> rcases neg_one_pow_eq_or ℝ m with h' | h'
    · rw [h, h']; simp
    · exfalso
      have := congrArg Complex.ofReal h'
      push_cast at this; rw [h] at this; norm_num at this
    · exfalso
      have := congrArg Complex.ofReal h'
      push_cast at this; rw [h] at this; norm_num at this
    · rw [h, h']; simp
  rw [h0, h1]
  ring

/-- The reachable implementations of the real transformer. -/
def RealOk (next : ℕ → ℕ) (n : ℕ) (impl : RealImpl) : Prop :=
  (impl = .kiss n ∧ n % 2 = 0) ∨ ∃ b, impl = .complex b ∧
    (b = .kiss n ∨ b = .bluestein (.make next n))

theorem getD_map_ofReal (x : List ℝ) (j : ℕ) :
    (x.map Complex.ofReal).getD j 0 = (x.getD j 0 : ℂ) := by
  rw [show (0 : ℂ) = ((0 : ℝ) : ℂ) by simp, List.getD_map]

theorem realImpl_forward {impl : RealImpl} {n : ℕ} (hn : 0 < n) (next : ℕ → ℕ)
    (hM : ∀ n, n ≤ next n) (h : RealOk next n impl) (x : List ℝ) :
    impl.forward x = (List.range (n / 2 + 1)).map (F n fun j => (x.getD j 0 : ℂ)) := by
  rcases h with ⟨rfl, _⟩ | ⟨b, rfl, hb⟩
  · unfold RealImpl.forward kissRealForward
    refine List.map_congr_left fun k _ => sum_congr rfl fun j _ => ?_
    rw [W]; congr 2; push_cast; ring
  · simp only [RealImpl.forward]
    rw [complexImpl_forward hn next hM hb, complexImpl_size next hb, ← List.map_take, List.take_range,
      Nat.min_eq_left (by omega)]
    simp only [getD_map_ofReal]

theorem realImpl_inverse {impl : RealImpl} {n : ℕ} (hn : 0 < n) (next : ℕ → ℕ)
    (hM : ∀ n, n ≤ next n) (h : RealOk next n impl) {x : List ℂ} (hx : x.length = n / 2 + 1) :
    impl.inverse x
      = some (((List.range n).map (G n fun j => (hermitian n x).getD j 0)).map Complex.re) := by
  rcases h with ⟨rfl, he⟩ | ⟨b, rfl, hb⟩
  · simp only [RealImpl.inverse, kissRealInverse_eq hn he]
  · simp only [RealImpl.inverse]
    rw [complexImpl_size next hb, List.take_of_length_le (by omega), reflectSpectrum_eq hn hx]
    simp only [complexImpl_inverse hn next hM hb]

theorem realImpl_size {impl : RealImpl} {n : ℕ} (next : ℕ → ℕ) (h : RealOk next n impl) :
    impl.size = n := by
  rcases h with ⟨rfl, _⟩ | ⟨b, rfl, hb⟩
  · rfl
  · exact complexImpl_size next hb

theorem F_real {n : ℕ} (hn : 0 < n) (x : ℕ → ℝ) {k k' : ℕ} (h : (n : ℤ) ∣ (k : ℤ) + k') :
    starRingEnd ℂ (F n (fun j => (x j : ℂ)) k') = F n (fun j => (x j : ℂ)) k := by
  rw [F_conj hn _ h]
  exact F_congr (fun j _ => Complex.conj_ofReal _) k

theorem hermitian_F {n : ℕ} (hn : 0 < n) (x : ℕ → ℝ) {X : List ℂ}
    (hX : ∀ k ≤ n / 2, X.getD k 0 = F n (fun j => (x j : ℂ)) k) {k : ℕ} (hk : k < n) :
    (hermitian n X).getD k 0 = F n (fun j => (x j : ℂ)) k := by
  rw [hermitian_getD _ hk]
  by_cases h : k ≤ n / 2
  · rw [if_pos h, hX k h]
  · rw [if_neg h, hX _ (by omega), F_real hn x]
    rw [show (k : ℤ) + (n - k : ℕ) = n by omega]

end Verif.Fft
