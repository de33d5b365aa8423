import Verif.Model.Fft
import Verif.Proof.Dft
import Verif.Proof.Windows
import Mathlib.Data.List.GetD
import Mathlib.Algebra.BigOperators.Ring.Finset

/-! Lemmas about discrete Fourier transforms and Bluestein's algorithm. -/

namespace Verif.Fft
open Finset

/-- `exp (2πi t / n)` -/
noncomputable def W (n : ℕ) (t : ℤ) : ℂ := Complex.exp (2 * Real.pi * Complex.I * t / n)

theorem W_add (n : ℕ) (a b : ℤ) : W n (a + b) = W n a * W n b := by
  rw [W, W, W, ← Complex.exp_add]; congr 1; push_cast; ring

theorem W_conj (n : ℕ) (a : ℤ) : starRingEnd ℂ (W n a) = W n (-a) := by
  rw [W, W, ← Complex.exp_conj]
  congr 1
  simp only [map_mul, map_div₀, Complex.conj_ofReal, Complex.conj_I, map_ofNat, map_natCast,
    map_intCast, Int.cast_neg]
  ring

theorem W_mul_n {n : ℕ} (hn : 0 < n) (a : ℤ) : W n (n * a) = 1 := by
  have hn' : (n : ℂ) ≠ 0 := by exact_mod_cast hn.ne'
  rw [W, Complex.exp_eq_one_iff]
  exact ⟨a, by push_cast; field_simp⟩

theorem W_congr {n : ℕ} (hn : 0 < n) {a b : ℤ} (h : (n : ℤ) ∣ a - b) : W n a = W n b := by
  obtain ⟨c, hc⟩ := h
  have : a = b + n * c := by linarith
  rw [this, W_add, W_mul_n hn, mul_one]

theorem sum_W {n : ℕ} (hn : 0 < n) (d : ℤ) :
    ∑ j ∈ range n, W n (j * d) = if (n : ℤ) ∣ d then (n : ℂ) else 0 := by
  rw [← Dft.sum_exp hn d]
  refine sum_congr rfl fun j _ => ?_
  rw [W]; congr 1; push_cast; ring

/-- The forward transform of a sequence. -/
noncomputable def F (n : ℕ) (x : ℕ → ℂ) (k : ℕ) : ℂ := ∑ j ∈ range n, x j * W n (-(k * j : ℤ))

/-- The inverse transform of a sequence. -/
noncomputable def G (n : ℕ) (x : ℕ → ℂ) (k : ℕ) : ℂ := ∑ j ∈ range n, x j * W n (k * j : ℤ)

theorem kissForward_eq (n : ℕ) (x : List ℂ) :
    kissForward n x = (List.range n).map (F n fun j => x.getD j 0) := by
  rw [kissForward]
  refine List.map_congr_left fun k _ => sum_congr rfl fun j _ => ?_
  rw [W]; congr 2; push_cast; ring

theorem kissInverse_eq (n : ℕ) (x : List ℂ) :
    kissInverse n x = (List.range n).map (G n fun j => x.getD j 0) := by
  rw [kissInverse]
  refine List.map_congr_left fun k _ => sum_congr rfl fun j _ => ?_
  rw [W]; congr 2; push_cast; ring

theorem getD_range_map {α : Type*} (f : ℕ → α) (n : ℕ) (d : α) {k : ℕ} (h : k < n) :
    ((List.range n).map f).getD k d = f k := by
  simp [List.getD, h]

theorem F_congr {n : ℕ} {x y : ℕ → ℂ} (h : ∀ j < n, x j = y j) (k : ℕ) : F n x k = F n y k :=
  sum_congr rfl fun j hj => by rw [h j (mem_range.mp hj)]

theorem G_congr {n : ℕ} {x y : ℕ → ℂ} (h : ∀ j < n, x j = y j) (k : ℕ) : G n x k = G n y k :=
  sum_congr rfl fun j hj => by rw [h j (mem_range.mp hj)]

/-- The residue of `d` modulo `n`. -/
def res (n : ℕ) (d : ℤ) : ℕ := (d % n).toNat

theorem res_lt {n : ℕ} (hn : 0 < n) (d : ℤ) : res n d < n := by
  have := Int.emod_nonneg d (show (n : ℤ) ≠ 0 by omega)
  have := Int.emod_lt_of_pos d (show (0 : ℤ) < n by omega)
  unfold res; omega

theorem dvd_sub_res {n : ℕ} (hn : 0 < n) (d : ℤ) {l : ℕ} (hl : l < n) :
    (n : ℤ) ∣ d - l ↔ l = res n d := by
  have h0 := Int.emod_nonneg d (show (n : ℤ) ≠ 0 by omega)
  unfold res
  constructor
  · intro h
    have : d % n = (l : ℤ) % n := (Int.modEq_iff_dvd.mpr h).symm
    rw [Int.emod_eq_of_lt (a := (l : ℤ)) (by omega) (by omega)] at this
    omega
  · intro h
    have : (l : ℤ) = d % n := by omega
    rw [this]
    exact Int.dvd_self_sub_emod

theorem sum_pick {n : ℕ} (hn : 0 < n) (d : ℤ) (y : ℕ → ℂ) (c : ℂ) :
    ∑ l ∈ range n, y l * (if (n : ℤ) ∣ d - l then c else 0) = y (res n d) * c := by
  rw [sum_eq_single (res n d)]
  · rw [if_pos ((dvd_sub_res hn d (res_lt hn d)).mpr rfl)]
  · intro l hl hne
    rw [if_neg fun h => hne ((dvd_sub_res hn d (mem_range.mp hl)).mp h), mul_zero]
  · intro h; exact absurd (mem_range.mpr (res_lt hn d)) h

theorem G_F {n : ℕ} (hn : 0 < n) (x : ℕ → ℂ) {k : ℕ} (hk : k < n) : G n (F n x) k = n * x k := by
  unfold G F
  have : ∀ i : ℕ, (∑ j ∈ range n, x j * W n (-(i * j : ℤ))) * W n (k * i : ℤ)
      = ∑ j ∈ range n, x j * W n (i * ((k : ℤ) - j)) := by
    intro i
    rw [sum_mul]
    refine sum_congr rfl fun j _ => ?_
    rw [mul_assoc, ← W_add]; congr 2; ring
  simp only [this]
  rw [sum_comm]
  simp only [← mul_sum, sum_W hn]
  rw [sum_pick hn]
  have : res n (k : ℤ) = k := ((dvd_sub_res hn k hk).mp (by simp)).symm
  rw [this, mul_comm]

theorem F_G {n : ℕ} (hn : 0 < n) (x : ℕ → ℂ) {k : ℕ} (hk : k < n) : F n (G n x) k = n * x k := by
  unfold G F
  have : ∀ i : ℕ, (∑ j ∈ range n, x j * W n (i * j : ℤ)) * W n (-(k * i : ℤ))
      = ∑ j ∈ range n, x j * W n (i * ((j : ℤ) - k)) := by
    intro i
    rw [sum_mul]
    refine sum_congr rfl fun j _ => ?_
    rw [mul_assoc, ← W_add]; congr 2; ring
  simp only [this]
  rw [sum_comm]
  simp only [← mul_sum, sum_W hn]
  simp only [show ∀ l : ℕ, ((n : ℤ) ∣ (l : ℤ) - k) = ((n : ℤ) ∣ (k : ℤ) - l) from
    fun l => propext (dvd_sub_comm)]
  rw [sum_pick hn]
  have : res n (k : ℤ) = k := ((dvd_sub_res hn k hk).mp (by simp)).symm
  rw [this, mul_comm]

/-- The convolution theorem. -/
theorem conv_thm {n : ℕ} (hn : 0 < n) (a b : ℕ → ℂ) (k : ℕ) :
    G n (fun i => F n a i * F n b i) k = n * ∑ j ∈ range n, a j * b (res n ((k : ℤ) - j)) := by
  unfold G F
  have : ∀ i : ℕ, ((∑ j ∈ range n, a j * W n (-(i * j : ℤ))) *
        ∑ l ∈ range n, b l * W n (-(i * l : ℤ))) * W n (k * i : ℤ)
      = ∑ j ∈ range n, ∑ l ∈ range n, a j * (b l * W n (i * ((k : ℤ) - j - l))) := by
    intro i
    rw [sum_mul_sum, sum_mul]
    refine sum_congr rfl fun j _ => ?_
    rw [sum_mul]
    refine sum_congr rfl fun l _ => ?_
    rw [show (i : ℤ) * ((k : ℤ) - j - l) = -(i * j : ℤ) + (-(i * l : ℤ) + (k * i : ℤ)) by ring,
      W_add, W_add]; ring
  simp only [this]
  rw [sum_comm, mul_sum]
  refine sum_congr rfl fun j _ => ?_
  rw [sum_comm]
  simp only [← mul_sum, sum_W hn]
  rw [sum_pick hn]
  ring

/-! ### The chirp -/

theorem chirp_eq (θ : ℝ) (i : ℕ) : chirp θ i = Complex.exp (Complex.I * θ * i ^ 2) := by
  unfold chirp
  have hr : (⟨1 * Real.cos θ, 1 * Real.sin θ⟩ : ℂ) = Complex.exp (Complex.I * θ) := by
    rw [mul_comm Complex.I, Complex.exp_mul_I]
    apply Complex.ext <;> simp [Complex.cos_ofReal_re, Complex.sin_ofReal_re, Complex.cos_ofReal_im,
      Complex.sin_ofReal_im]
  simp only [hr]
  have key : (chirpStep (Complex.exp (Complex.I * θ) * Complex.exp (Complex.I * θ)))^[i]
      (1, Complex.exp (Complex.I * θ))
      = (Complex.exp (Complex.I * θ * i ^ 2), Complex.exp (Complex.I * θ * (2 * i + 1))) := by
    induction i with
    | zero => simp
    | succ i ih =>
      rw [Function.iterate_succ_apply', ih]
      simp only [chirpStep, ← Complex.exp_add]
      congr 1 <;> congr 1 <;> push_cast <;> ring
  rw [key]

/-- `exp(iπ d² / N)` -/
noncomputable def chirpZ (N : ℕ) (d : ℤ) : ℂ := Complex.exp (Complex.I * Real.pi * d ^ 2 / N)

theorem chirp_pos (N i : ℕ) : chirp (Real.pi / N) i = chirpZ N i := by
  rw [chirp_eq, chirpZ]; congr 1; push_cast; ring

theorem chirpZ_conj (N : ℕ) (d : ℤ) :
    starRingEnd ℂ (chirpZ N d) = Complex.exp (-(Complex.I * Real.pi * d ^ 2 / N)) := by
  rw [chirpZ, ← Complex.exp_conj]
  congr 1
  simp only [map_mul, map_div₀, Complex.conj_ofReal, Complex.conj_I, map_natCast,
    map_intCast, map_pow]
  ring

theorem chirp_neg (N i : ℕ) : chirp (-1 * Real.pi / N) i = starRingEnd ℂ (chirpZ N i) := by
  rw [chirp_eq, chirpZ_conj]; congr 1; push_cast; ring

theorem chirpZ_mul (N : ℕ) (k j : ℤ) :
    starRingEnd ℂ (chirpZ N k) * (starRingEnd ℂ (chirpZ N j) * chirpZ N (k - j)) = W N (-(k * j)) := by
  rw [chirpZ_conj, chirpZ_conj, chirpZ, W, ← Complex.exp_add, ← Complex.exp_add]
  congr 1; push_cast; ring

theorem chirpZ_mul' (N : ℕ) (k j : ℤ) :
    chirpZ N k * (chirpZ N j * starRingEnd ℂ (chirpZ N (k - j))) = W N (k * j) := by
  have h := congrArg (starRingEnd ℂ) (chirpZ_mul N k j)
  simp only [map_mul, Complex.conj_conj] at h
  rw [h, W_conj, neg_neg]

/-! ### Bluestein's algorithm -/

theorem bluesteinB_aux {N M : ℕ} (hM : 2 * N - 1 ≤ M) (c : ℕ → ℂ) (q : ℕ) (hq : q + 1 ≤ N) :
    ((List.range q).foldl (fun (b : List ℂ) j =>
        (b.set (j + 1) (c (j + 1))).set (M - (j + 1)) ((b.set (j + 1) (c (j + 1))).getD (j + 1) 0))
      ((List.replicate M 0).set 0 1)).length = M ∧
    ∀ i < M, ((List.range q).foldl (fun (b : List ℂ) j =>
        (b.set (j + 1) (c (j + 1))).set (M - (j + 1)) ((b.set (j + 1) (c (j + 1))).getD (j + 1) 0))
      ((List.replicate M 0).set 0 1)).getD i 0
      = if i = 0 then 1 else if i ≤ q then c i else if M - q ≤ i then c (M - i) else 0 := by
  induction q with
  | zero =>
    refine ⟨by simp, fun i hi => ?_⟩
    by_cases h0 : i = 0
    · subst h0; simp [List.getD, hi]
    · simp only [List.range_zero, List.foldl_nil, if_neg h0, if_neg (show ¬ i ≤ 0 by omega),
        if_neg (show ¬ M - 0 ≤ i by omega)]
      simp [List.getD, List.getElem?_set, hi, Ne.symm h0]
  | succ q ih =>
    obtain ⟨hl, hg⟩ := ih (by omega)
    rw [List.range_succ, List.foldl_append, List.foldl_cons, List.foldl_nil]
    generalize (List.range q).foldl (fun (b : List ℂ) j =>
        (b.set (j + 1) (c (j + 1))).set (M - (j + 1)) ((b.set (j + 1) (c (j + 1))).getD (j + 1) 0))
      ((List.replicate M 0).set 0 1) = b at hl hg ⊢
    have hget : (b.set (q + 1) (c (q + 1))).getD (q + 1) 0 = c (q + 1) := by
      simp [List.getD, hl, show q + 1 < M by omega]
    refine ⟨by simp [hl], fun i hi => ?_⟩
    rw [hget]
    have h1 : ((b.set (q + 1) (c (q + 1))).set (M - (q + 1)) (c (q + 1))).getD i 0
        = if i = M - (q + 1) then c (q + 1) else if i = q + 1 then c (q + 1) else b.getD i 0 := by
      by_cases e1 : i = M - (q + 1)
      · subst e1; simp [List.getD, hl, hi]
      · by_cases e2 : i = q + 1
        · subst e2; simp [List.getD, Ne.symm e1, List.getElem?_set, hl, hi]
        · simp [List.getD, Ne.symm e1, Ne.symm e2, e1, e2, List.getElem?_set]
    rw [h1, hg i hi]
    by_cases e0 : i = 0
    · subst e0
      rw [if_neg (by omega), if_neg (by omega)]; simp
    simp only [if_neg e0]
    by_cases e1 : i = M - (q + 1)
    · rw [if_pos e1]
      by_cases e2 : i ≤ q + 1
      · rw [if_pos e2]; congr 1; omega
      · rw [if_neg e2, if_pos (by omega)]; congr 1; omega
    · rw [if_neg e1]
      by_cases e2 : i = q + 1
      · rw [if_pos e2, if_pos (by omega), e2]
      · rw [if_neg e2]
        by_cases e3 : i ≤ q
        · rw [if_pos e3, if_pos (by omega)]
        · rw [if_neg e3, if_neg (show ¬ i ≤ q + 1 by omega)]
          by_cases e4 : M - q ≤ i
          · rw [if_pos e4, if_pos (by omega)]
          · rw [if_neg e4, if_neg (by omega)]

theorem bluesteinB_getD {N M : ℕ} (hN : 0 < N) (hM : 2 * N - 1 ≤ M) {d : ℤ} (h1 : -(N : ℤ) < d)
    (h2 : d < N) : (bluesteinB N M).getD (res M d) 0 = chirpZ N d := by
  have hMp : 0 < M := by omega
  have h := (bluesteinB_aux hM (fun i => chirp (Real.pi / N) i) (N - 1) (by omega)).2 (res M d)
    (res_lt hMp d)
  unfold bluesteinB
  rw [h]
  by_cases hd : 0 ≤ d
  · have e : res M d = d.toNat := by
      unfold res; rw [Int.emod_eq_of_lt hd (by omega)]
    rw [e]
    by_cases h0 : d.toNat = 0
    · rw [if_pos h0]
      have : d = 0 := by omega
      subst this; simp [chirpZ]
    · rw [if_neg h0, if_pos (by omega), chirp_pos]
      congr 1; omega
  · have e : res M d = (M + d).toNat := by
      unfold res
      rw [← Int.add_emod_left, Int.emod_eq_of_lt (by omega) (by omega)]
    rw [e, if_neg (by omega), if_neg (by omega), if_pos (by omega), chirp_pos]
    have : ((M - (M + d).toNat : ℕ) : ℤ) = -d := by omega
    rw [this, chirpZ, chirpZ]; congr 2; push_cast; ring

theorem multiplyByChirp_getD (N M : ℕ) (hNM : N ≤ M) (x : List ℂ) (s : ℝ) (j : ℕ) :
    (padTo M (multiplyByChirp N x s)).getD j 0
      = if j < N then x.getD j 0 * chirp (s * Real.pi / N) j else 0 := by
  unfold padTo
  by_cases h : j < N
  · rw [if_pos h, List.getD_append _ _ _ _ (by simpa [multiplyByChirp] using h), multiplyByChirp,
      getD_range_map _ _ _ h]
    by_cases h0 : j = 0
    · subst h0; rw [if_pos rfl, chirp_eq]; simp
    · rw [if_neg h0]
  · rw [if_neg h, List.getD_append_right _ _ _ _ (by simpa [multiplyByChirp] using h)]
    simp only [List.getD, List.getElem?_replicate]
    split <;> rfl

theorem sum_range_lt {N M : ℕ} (h : N ≤ M) (f : ℕ → ℂ) (g : ℕ → ℂ) :
    ∑ j ∈ range M, (if j < N then f j else 0) * g j = ∑ j ∈ range N, f j * g j := by
  rw [← sum_subset (range_subset_range.mpr h)]
  · exact sum_congr rfl fun j hj => by rw [if_pos (mem_range.mp hj)]
  · intro j _ hj; rw [if_neg (fun h => hj (mem_range.mpr h)), zero_mul]

theorem twiddle_eq {N : ℕ} (next : ℕ → ℕ) (hM : 2 * N - 1 ≤ next (2 * N - 1)) {i : ℕ} (hi : i < N) :
    (Bluestein.make next N).twiddle.getD i 0
      = starRingEnd ℂ (chirpZ N i) / (next (2 * N - 1) : ℂ) := by
  unfold Bluestein.make
  rw [getD_range_map _ _ _ hi]
  by_cases h0 : i = 0
  · subst h0; simp [chirpZ]
  · rw [if_neg h0]
    have h := bluesteinB_getD (N := N) (M := next (2 * N - 1)) (d := i) (by omega) hM (by omega)
      (by omega)
    have e : res (next (2 * N - 1)) (i : ℤ) = i := by
      unfold res; rw [Int.emod_eq_of_lt (by omega) (by omega)]; omega
    rw [e] at h
    rw [h]

theorem bluestein_forward {N : ℕ} (hN : 0 < N) (next : ℕ → ℕ) (hM : 2 * N - 1 ≤ next (2 * N - 1))
    (x : List ℂ) :
    (Bluestein.make next N).forward x = (List.range N).map (F N fun j => x.getD j 0) := by
  unfold Bluestein.forward
  simp only [show (Bluestein.make next N).size = N from rfl,
    show (Bluestein.make next N).fftSize = next (2 * N - 1) from rfl,
    show (Bluestein.make next N).bSpectrum
      = kissForward (next (2 * N - 1)) (bluesteinB N (next (2 * N - 1))) from rfl]
  refine List.map_congr_left fun k hk => ?_
  have hk := List.mem_range.mp hk
  rw [twiddle_eq next hM hk]
  generalize next (2 * N - 1) = M at hM ⊢
  have hMp : 0 < M := by omega
  have hMc : (M : ℂ) ≠ 0 := by exact_mod_cast hMp.ne'
  rw [kissInverse_eq, getD_range_map _ _ _ (by omega), kissForward_eq, kissForward_eq]
  rw [G_congr (y := fun i => F M (fun j => (padTo M (multiplyByChirp N x (-1))).getD j 0) i *
      F M (fun j => (bluesteinB N M).getD j 0) i) (fun j hj => by
    simp [List.getD, List.getElem?_zipWith, hj])]
  rw [conv_thm hMp]
  simp only [multiplyByChirp_getD N M (by omega)]
  rw [sum_range_lt (show N ≤ M by omega)]
  rw [show ∀ a b : ℂ, a / M * (M * b) = a * b from fun a b => by field_simp, mul_sum, F]
  refine sum_congr rfl fun j hj => ?_
  have hj := mem_range.mp hj
  rw [bluesteinB_getD hN hM (by omega) (by omega), chirp_neg, ← chirpZ_mul]
  ring

theorem F_conj {n : ℕ} (hn : 0 < n) (b : ℕ → ℂ) {i i' : ℕ} (h : (n : ℤ) ∣ (i : ℤ) + i') :
    starRingEnd ℂ (F n b i') = F n (fun j => starRingEnd ℂ (b j)) i := by
  unfold F
  rw [map_sum]
  refine sum_congr rfl fun j _ => ?_
  rw [map_mul, W_conj]
  congr 1
  apply W_congr hn
  have : -(-((i' : ℤ) * j)) - -((i : ℤ) * j) = (i + i') * j := by ring
  rw [this]
  exact Dvd.dvd.mul_right h _

theorem bluestein_inverse {N : ℕ} (hN : 0 < N) (next : ℕ → ℕ) (hM : 2 * N - 1 ≤ next (2 * N - 1))
    (x : List ℂ) :
    (Bluestein.make next N).inverse x = (List.range N).map (G N fun j => x.getD j 0) := by
  unfold Bluestein.inverse
  simp only [show (Bluestein.make next N).size = N from rfl,
    show (Bluestein.make next N).fftSize = next (2 * N - 1) from rfl,
    show (Bluestein.make next N).bSpectrum
      = kissForward (next (2 * N - 1)) (bluesteinB N (next (2 * N - 1))) from rfl]
  refine List.map_congr_left fun k hk => ?_
  have hk := List.mem_range.mp hk
  rw [twiddle_eq next hM hk]
  generalize next (2 * N - 1) = M at hM ⊢
  have hMp : 0 < M := by omega
  have hMc : (M : ℂ) ≠ 0 := by exact_mod_cast hMp.ne'
  rw [kissInverse_eq, getD_range_map _ _ _ (by omega), kissForward_eq, kissForward_eq]
  rw [G_congr (y := fun i => F M (fun j => (padTo M (multiplyByChirp N x 1)).getD j 0) i *
      F M (fun j => starRingEnd ℂ ((bluesteinB N M).getD j 0)) i) (fun j hj => by
    rw [getD_range_map _ _ _ hj]
    by_cases h0 : j = 0
    · subst h0
      rw [if_pos rfl, getD_range_map _ _ _ hMp, getD_range_map _ _ _ hMp,
        F_conj hMp (i := 0) _ (by simp)]
    · rw [if_neg h0, getD_range_map _ _ _ hj, getD_range_map _ _ _ (by omega),
        F_conj hMp (i := j) _ (by rw [show (j : ℤ) + (M - j : ℕ) = M by omega])])]
  rw [conv_thm hMp]
  simp only [multiplyByChirp_getD N M (by omega)]
  rw [sum_range_lt (show N ≤ M by omega)]
  rw [map_div₀, Complex.conj_conj, map_natCast,
    show ∀ a b : ℂ, a / M * (M * b) = a * b from fun a b => by field_simp, mul_sum, G]
  refine sum_congr rfl fun j hj => ?_
  have hj := mem_range.mp hj
  rw [bluesteinB_getD hN hM (by omega) (by omega), one_mul, chirp_pos, ← chirpZ_mul']
  ring

end Verif.Fft
