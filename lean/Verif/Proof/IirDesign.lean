import Verif.Spec.IirDesign
import Verif.Theorems.PortableComplex

/-!
# Lists of roots and the transforms of `Zpk`
-/

namespace Verif.IirDesign
open Verif.PortableComplex Spec
open scoped ComplexConjugate

/-- `Π (s - r)`. -/
noncomputable def ps (L : List ℂ) (s : ℂ) : ℂ := (L.map (s - ·)).prod

theorem system_eq (f : Zpk) (s : ℂ) : system f s = f.gain * ps (zeros f) s / ps (poles f) s := rfl

@[simp] theorem ps_nil (s : ℂ) : ps [] s = 1 := rfl

@[simp] theorem ps_cons (r : ℂ) (L : List ℂ) (s : ℂ) : ps (r :: L) s = (s - r) * ps L s := by
  simp [ps]

theorem ps_append (L M : List ℂ) (s : ℂ) : ps (L ++ M) s = ps L s * ps M s := by
  simp [ps]

theorem ps_replicate (n : ℕ) (r s : ℂ) : ps (List.replicate n r) s = (s - r) ^ n := by
  simp [ps]

theorem ps_perm {L M : List ℂ} (h : L.Perm M) (s : ℂ) : ps L s = ps M s := (h.map _).prod_eq

theorem ps_ne {L : List ℂ} {s : ℂ} : ps L s ≠ 0 ↔ ∀ r ∈ L, r ≠ s := by
  induction L with
  | nil => simp
  | cons r L ih =>
    rw [ps_cons, mul_ne_zero_iff, ih, List.forall_mem_cons, sub_ne_zero]
    exact and_congr_left' ne_comm

theorem ps_conj (L : List ℂ) (s : ℂ) : conj (ps L s) = ps (L.map conj) (conj s) := by
  induction L with
  | nil => simp
  | cons r L ih => rw [ps_cons, map_mul, ih, List.map_cons, ps_cons, map_sub]

/-- A real filter is real at real numbers. -/
theorem ps_real {L : List ℂ} (h : (L.map conj).Perm L) (x : ℝ) : conj (ps L x) = ps L x := by
  rw [ps_conj, Complex.conj_ofReal, ps_perm h]

theorem system_real {f : Zpk} (h : RealFilter f) (x : ℝ) : ((system f x).re : ℂ) = system f x := by
  rw [← Complex.conj_eq_iff_re, system_eq, map_div₀, map_mul, ps_real h.1, ps_real h.2, Complex.conj_ofReal]

/-! ### Arrays -/

theorem entries_length (a : ℕ → CD) (n : ℕ) : (entries a n).length = n := by simp [entries]

theorem entries_congr {a b : ℕ → CD} {n : ℕ} (h : ∀ i < n, a i = b i) : entries a n = entries b n := by
  apply List.map_congr_left
  intro i hi
  rw [h i (List.mem_range.1 hi)]

theorem mem_entries {a : ℕ → CD} {n i : ℕ} (h : i < n) : (a i).val ∈ entries a n :=
  List.mem_map.2 ⟨i, List.mem_range.2 h, rfl⟩

theorem entries_map {a : ℕ → CD} {n : ℕ} {f : CD → CD} {g : ℂ → ℂ} (h : ∀ r : CD, r.val ∈ entries a n → (f r).val = g r.val) :
    entries (mapRange a 0 n f) n = (entries a n).map g := by
  unfold entries
  rw [List.map_map]
  apply List.map_congr_left
  intro i hi
  have hi := List.mem_range.1 hi
  show (mapRange a 0 n f i).val = g (a i).val
  rw [mapRange, if_pos ⟨Nat.zero_le _, hi⟩, h _ (mem_entries hi)]

theorem entries_fill (a : ℕ → CD) {n m : ℕ} (h : n ≤ m) (c : CD) :
    entries (mapRange a n m fun _ => c) m = entries a n ++ List.replicate (m - n) c.val := by
  obtain ⟨k, rfl⟩ := Nat.exists_eq_add_of_le h
  unfold entries
  rw [List.range_add, List.map_append, Nat.add_sub_cancel_left]
  congr 1
  · apply List.map_congr_left
    intro i hi
    have hi := List.mem_range.1 hi
    rw [mapRange, if_neg (by omega)]
  · rw [List.map_map, List.eq_replicate_iff]
    refine ⟨by simp, ?_⟩
    intro b hb
    obtain ⟨i, hi, rfl⟩ := List.mem_map.1 hb
    have hi := List.mem_range.1 hi
    show (mapRange a n (n + k) (fun _ => c) (n + i)).val = _
    rw [mapRange, if_pos ⟨by omega, by omega⟩]

theorem entries_fill_lt (a : ℕ → CD) {n m k : ℕ} (h : k ≤ n) (c : CD) :
    entries (mapRange a n m fun _ => c) k = entries a k := by
  apply entries_congr
  intro i hi
  rw [mapRange, if_neg (by omega)]

theorem evalLoop_val (freq : CD) (a : ℕ → CD) (n : ℕ) (x : CD) :
    (evalLoop freq a n x).val = x.val * ps (entries a n) freq.val := by
  unfold evalLoop entries
  generalize List.range n = l
  induction l generalizing x with
  | nil => simp
  | cons i l ih =>
    rw [List.foldl_cons, ih, List.map_cons, ps_cons]
    have h1 := (C49_ring x (sub freq (a i)) 0).2.2.2.2.1
    have h2 := (C49_ring freq (a i) 0).2.2.2.1
    rw [h1, h2]
    ring

theorem val_real (x : ℝ) : (⟨x, 0⟩ : CD).val = (x : ℂ) := rfl

theorem zpkEval_val (f : Zpk) (s : CD) (h : ∀ p ∈ poles f, p ≠ s.val) : (zpkEval f s).val = system f s.val := by
  unfold zpkEval
  have h1 := evalLoop_val s f.poles f.numPoles ⟨1, 0⟩
  have h0 : (evalLoop s f.poles f.numPoles ⟨1, 0⟩).val ≠ 0 := by
    rw [h1, val_real, Complex.ofReal_one, one_mul]
    exact ps_ne.2 h
  rw [div_eq h0, h1, evalLoop_val, val_real, val_real, system_eq, Complex.ofReal_one, one_mul]
  rfl

theorem zpkEval_real {f : Zpk} (hf : RealFilter f) (x : ℝ) (h : ∀ p ∈ poles f, p ≠ (x : ℂ)) :
    (((zpkEval f ⟨x, 0⟩).real : ℝ) : ℂ) = system f x := by
  have h1 := zpkEval_val f ⟨x, 0⟩ h
  rw [← system_real hf]
  exact congrArg (fun w : ℂ => ((w.re : ℝ) : ℂ)) h1

theorem bilinear_val (r : CD) (K : ℝ) (h : r.val ≠ K) :
    (bilinearTransform r K).val = ((K : ℂ) + r.val) / (K - r.val) := by
  have hne : (K : ℂ) - r.val ≠ 0 := sub_ne_zero.2 h.symm
  have hd : (K - r.real) * (K - r.real) + r.imag * r.imag ≠ 0 := by
    intro h0
    apply h
    have h1 : K - r.real = 0 := by nlinarith [mul_self_nonneg (K - r.real), mul_self_nonneg r.imag]
    have h2 : r.imag = 0 := by nlinarith [mul_self_nonneg (K - r.real), mul_self_nonneg r.imag]
    apply Complex.ext
    · show r.real = K; linarith
    · show r.imag = 0; exact h2
  have h1 : (bilinearTransform r K).real = (K * K - r.real * r.real - r.imag * r.imag)
      / ((K - r.real) * (K - r.real) + r.imag * r.imag) := rfl
  have h2 : (bilinearTransform r K).imag = (2 * K * r.imag)
      / ((K - r.real) * (K - r.real) + r.imag * r.imag) := rfl
  rw [eq_div_iff hne]
  apply Complex.ext
  · simp only [CD.val, Complex.mul_re, Complex.sub_re, Complex.sub_im, Complex.add_re, Complex.ofReal_re,
      Complex.ofReal_im, h1, h2]
    generalize hD : (K - r.real) * (K - r.real) + r.imag * r.imag = D at hd
    rw [div_mul_eq_mul_div, div_mul_eq_mul_div, ← sub_div, div_eq_iff hd, ← hD]
    ring
  · simp only [CD.val, Complex.mul_im, Complex.sub_re, Complex.sub_im, Complex.add_im, Complex.ofReal_re,
      Complex.ofReal_im, h1, h2]
    generalize hD : (K - r.real) * (K - r.real) + r.imag * r.imag = D at hd
    rw [div_mul_eq_mul_div, div_mul_eq_mul_div, ← add_div, div_eq_iff hd, ← hD]
    ring

/-- The bilinear transform of a root. -/
noncomputable def bl (K : ℝ) (r : ℂ) : ℂ := ((K : ℂ) + r) / (K - r)

theorem bl_conj (K : ℝ) (r : ℂ) : conj (bl K r) = bl K (conj r) := by simp [bl]

theorem ps_bl (K : ℝ) {L : List ℂ} (h : ∀ r ∈ L, r ≠ (K : ℂ)) {z : ℂ} (hz : z ≠ -1) :
    ps (L.map (bl K)) z = (z + 1) ^ L.length * ps L (K * (z - 1) / (z + 1)) / ps L K := by
  have hz1 : z + 1 ≠ 0 := fun h => hz (by linear_combination h)
  induction L with
  | nil => simp
  | cons r L ih =>
    rw [List.forall_mem_cons] at h
    have hr : (K : ℂ) - r ≠ 0 := sub_ne_zero.2 h.1.symm
    have hL := ps_ne.2 h.2
    rw [List.map_cons, ps_cons, ih h.2, List.length_cons, ps_cons, ps_cons, pow_succ, bl]
    field_simp
    ring

theorem map_perm_conj {L : List ℂ} {g : ℂ → ℂ} (hg : ∀ r, conj (g r) = g (conj r)) (h : (L.map conj).Perm L) :
    ((L.map g).map conj).Perm (L.map g) := by
  rw [List.map_map]
  have : (L.map ((conj : ℂ → ℂ) ∘ g)) = (L.map conj).map g := by
    rw [List.map_map]
    exact List.map_congr_left fun r _ => hg r
  rw [this]
  exact h.map g

theorem replicate_conj (n : ℕ) {r : ℂ} (h : conj r = r) : (List.replicate n r).map conj = List.replicate n r := by
  rw [List.map_replicate, h]

/-- `ZpkBilinearTransform`: the roots and the gain. -/
theorem bilinear_spec (f : Zpk) (rate : ℝ) (hr : 0 < rate) (hf : RealFilter f)
    (hK : ∀ r, r ∈ zeros f ∨ r ∈ poles f → r ≠ ((2 * rate : ℝ) : ℂ)) :
    ∃ g, zpkBilinearTransform f rate = .ok g ∧
      zeros g = (zeros f).map (bl (2 * rate)) ++ List.replicate (f.numPoles - f.numZeros) (-1) ∧
      poles g = (poles f).map (bl (2 * rate)) ++ List.replicate (f.numZeros - f.numPoles) (-1) ∧
      g.numZeros = max f.numZeros f.numPoles ∧ g.numPoles = max f.numZeros f.numPoles ∧
      (g.gain : ℂ) = system f ((2 * rate : ℝ) : ℂ) := by
  unfold zpkBilinearTransform
  rw [if_neg (not_not.2 hr)]
  dsimp only
  have hm : (if f.numPoles > f.numZeros then f.numPoles else f.numZeros) = max f.numZeros f.numPoles := by
    split_ifs <;> omega
  rw [hm]
  refine ⟨_, rfl, ?_, ?_, rfl, rfl, zpkEval_real hf _ fun p hp => hK p (Or.inr hp)⟩
  · have h1 : entries (mapRange f.zeros 0 f.numZeros fun r => bilinearTransform r (2 * rate)) f.numZeros
        = (zeros f).map (bl (2 * rate)) :=
      entries_map fun r hr' => bilinear_val r _ (hK _ (Or.inl hr'))
    rcases le_total f.numZeros f.numPoles with h | h
    · unfold zeros
      dsimp only
      rw [max_eq_right h, entries_fill _ h, h1, val_real]
      simp [zeros]
    · unfold zeros
      dsimp only
      rw [max_eq_left h, entries_fill_lt _ le_rfl, h1, Nat.sub_eq_zero_of_le h]
      simp [zeros]
  · have h1 : entries (mapRange f.poles 0 f.numPoles fun r => bilinearTransform r (2 * rate)) f.numPoles
        = (poles f).map (bl (2 * rate)) :=
      entries_map fun r hr' => bilinear_val r _ (hK _ (Or.inr hr'))
    rcases le_total f.numZeros f.numPoles with h | h
    · unfold poles
      dsimp only
      rw [max_eq_right h, entries_fill_lt _ le_rfl, h1, Nat.sub_eq_zero_of_le h]
      simp [poles]
    · unfold poles
      dsimp only
      rw [max_eq_left h, entries_fill _ h, h1, val_real]
      simp [poles]

/-- The transfer function after the bilinear transform. -/
theorem bilinear_system (f g : Zpk) (rate : ℝ)
    (hK : ∀ r, r ∈ zeros f ∨ r ∈ poles f → r ≠ ((2 * rate : ℝ) : ℂ))
    (h1 : zeros g = (zeros f).map (bl (2 * rate)) ++ List.replicate (f.numPoles - f.numZeros) (-1))
    (h2 : poles g = (poles f).map (bl (2 * rate)) ++ List.replicate (f.numZeros - f.numPoles) (-1))
    (h3 : (g.gain : ℂ) = system f ((2 * rate : ℝ) : ℂ)) {z : ℂ} (hz : z ≠ -1) :
    system g z = system f (((2 * rate : ℝ) : ℂ) * (z - 1) / (z + 1)) := by
  have hz1 : z + 1 ≠ 0 := fun h => hz (by linear_combination h)
  have e1 := ps_bl (2 * rate) (fun r hr => hK r (Or.inl hr)) hz
  have e2 := ps_bl (2 * rate) (fun r hr => hK r (Or.inr hr)) hz
  have n1 := ps_ne.2 (fun r hr => hK r (Or.inl hr))
  have n2 := ps_ne.2 (fun r hr => hK r (Or.inr hr))
  rw [system_eq g, h1, h2, h3, ps_append, ps_append, ps_replicate, ps_replicate, e1, e2, system_eq, system_eq,
    sub_neg_eq_add]
  have l1 : (zeros f).length = f.numZeros := entries_length _ _
  have l2 : (poles f).length = f.numPoles := entries_length _ _
  rw [l1, l2]
  have hp : (z + 1) ^ f.numZeros * (z + 1) ^ (f.numPoles - f.numZeros)
      = (z + 1) ^ f.numPoles * (z + 1) ^ (f.numZeros - f.numPoles) := by
    rw [← pow_add, ← pow_add]
    congr 1
    omega
  have q1 : (z + 1) ^ f.numPoles ≠ 0 := pow_ne_zero _ hz1
  have q2 : (z + 1) ^ (f.numZeros - f.numPoles) ≠ 0 := pow_ne_zero _ hz1
  by_cases h0 : ps (poles f) (((2 * rate : ℝ) : ℂ) * (z - 1) / (z + 1)) = 0
  · rw [h0]
    simp
  generalize ps (poles f) (((2 * rate : ℝ) : ℂ) * (z - 1) / (z + 1)) = a at *
  generalize ps (zeros f) (((2 * rate : ℝ) : ℂ) * (z - 1) / (z + 1)) = b at *
  generalize ps (zeros f) ((2 * rate : ℝ) : ℂ) = c at *
  generalize ps (poles f) ((2 * rate : ℝ) : ℂ) = d at *
  generalize (z + 1) ^ f.numZeros = e at *
  generalize (z + 1) ^ f.numPoles = i at *
  generalize (z + 1) ^ (f.numPoles - f.numZeros) = j at *
  generalize (z + 1) ^ (f.numZeros - f.numPoles) = k at *
  field_simp
  linear_combination f.gain * b * hp

theorem bilinear_realFilter (f g : Zpk) (rate : ℝ) (hf : RealFilter f)
    (h1 : zeros g = (zeros f).map (bl (2 * rate)) ++ List.replicate (f.numPoles - f.numZeros) (-1))
    (h2 : poles g = (poles f).map (bl (2 * rate)) ++ List.replicate (f.numZeros - f.numPoles) (-1)) :
    RealFilter g := by
  constructor
  · rw [h1, List.map_append, replicate_conj _ (by simp)]
    exact (map_perm_conj (bl_conj _) hf.1).append (List.Perm.refl _)
  · rw [h2, List.map_append, replicate_conj _ (by simp)]
    exact (map_perm_conj (bl_conj _) hf.2).append (List.Perm.refl _)

/-! ### Lowpass and highpass -/

theorem toLowpass_zeros (f : Zpk) (c : ℝ) : zeros (toLowpass f c) = (zeros f).map (· * (c : ℂ)) :=
  entries_map fun r _ => (C49_ring r r c).2.2.2.2.2.1

theorem toLowpass_poles (f : Zpk) (c : ℝ) : poles (toLowpass f c) = (poles f).map (· * (c : ℂ)) :=
  entries_map fun r _ => (C49_ring r r c).2.2.2.2.2.1

theorem ps_scale {c : ℂ} (hc : c ≠ 0) (L : List ℂ) (s : ℂ) : ps (L.map (· * c)) s = c ^ L.length * ps L (s / c) := by
  induction L with
  | nil => simp
  | cons r L ih =>
    rw [List.map_cons, ps_cons, ih, List.length_cons, ps_cons, pow_succ]
    field_simp

theorem toLowpass_system (f : Zpk) {c : ℝ} (hc : c ≠ 0) (s : ℂ) : system (toLowpass f c) s = system f (s / c) := by
  have hc' : (c : ℂ) ≠ 0 := by exact_mod_cast hc
  have l1 : (zeros f).length = f.numZeros := entries_length _ _
  have l2 : (poles f).length = f.numPoles := entries_length _ _
  rw [system_eq, system_eq, toLowpass_zeros, toLowpass_poles, ps_scale hc', ps_scale hc', l1, l2]
  have hg : ((toLowpass f c).gain : ℂ) = f.gain * ((c : ℂ) ^ f.numPoles / (c : ℂ) ^ f.numZeros) := by
    show ((f.gain * c ^ ((f.numPoles : ℤ) - f.numZeros) : ℝ) : ℂ) = _
    rw [zpow_sub₀ hc]
    push_cast
    simp
  rw [hg]
  have h1 := pow_ne_zero f.numPoles hc'
  have h2 := pow_ne_zero f.numZeros hc'
  by_cases h0 : ps (poles f) (s / c) = 0
  · simp [h0]
  field_simp

theorem scale_conj (c : ℝ) (r : ℂ) : conj (r * (c : ℂ)) = conj r * c := by simp

theorem toLowpass_real {f : Zpk} (c : ℝ) (hf : RealFilter f) : RealFilter (toLowpass f c) := by
  constructor
  · rw [toLowpass_zeros]; exact map_perm_conj (scale_conj c) hf.1
  · rw [toLowpass_poles]; exact map_perm_conj (scale_conj c) hf.2

theorem div_val (c : ℝ) {r : CD} (h : r.val ≠ 0) : (PortableComplex.div ⟨c, 0⟩ r).val = (c : ℂ) / r.val := by
  rw [div_eq h, val_real]

theorem toHighpass_numZeros (f : Zpk) (c : ℝ) : (toHighpass f c).numZeros = max f.numZeros f.numPoles := by
  show (if f.numZeros < f.numPoles then f.numPoles else f.numZeros) = _
  split_ifs <;> omega

theorem toHighpass_zeros {f : Zpk} (c : ℝ) (h : ∀ r ∈ zeros f, r ≠ 0) : zeros (toHighpass f c) =
    (zeros f).map ((c : ℂ) / ·) ++ List.replicate (f.numPoles - f.numZeros) 0 := by
  have h1 : entries (mapRange f.zeros 0 f.numZeros fun r => PortableComplex.div ⟨c, 0⟩ r) f.numZeros
      = (zeros f).map ((c : ℂ) / ·) := entries_map fun r hr => div_val c (h _ hr)
  unfold zeros
  rw [toHighpass_numZeros]
  show entries (mapRange (mapRange f.zeros 0 f.numZeros fun r => PortableComplex.div ⟨c, 0⟩ r) f.numZeros f.numPoles
    fun _ => ⟨0, 0⟩) _ = _
  rcases le_total f.numZeros f.numPoles with h' | h'
  · rw [max_eq_right h', entries_fill _ h', h1]
    rfl
  · rw [max_eq_left h', entries_fill_lt _ le_rfl, h1, Nat.sub_eq_zero_of_le h']
    simp [zeros]

theorem toHighpass_poles {f : Zpk} (c : ℝ) (h : ∀ r ∈ poles f, r ≠ 0) :
    poles (toHighpass f c) = (poles f).map ((c : ℂ) / ·) :=
  entries_map fun r hr => div_val c (h _ hr)

theorem toHighpass_gain {f : Zpk} (c : ℝ) (hf : RealFilter f) (h : ∀ r ∈ poles f, r ≠ 0) :
    ((toHighpass f c).gain : ℂ) = system f 0 := by
  have h1 := zpkEval_real hf 0 (by simpa using h)
  rw [Complex.ofReal_zero] at h1
  exact h1

theorem ps_invert {c : ℂ} {L : List ℂ} (h : ∀ r ∈ L, r ≠ 0) {s : ℂ} (hs : s ≠ 0) :
    ps (L.map (c / ·)) s = s ^ L.length * ps L (c / s) / ps L 0 := by
  induction L with
  | nil => simp
  | cons r L ih =>
    rw [List.forall_mem_cons] at h
    have hr := h.1
    have hL := ps_ne.2 h.2
    rw [List.map_cons, ps_cons, ih h.2, List.length_cons, ps_cons, ps_cons, pow_succ]
    rw [zero_sub]
    field_simp
    ring

/-- `H(c / s)`. -/
theorem toHighpass_system {f : Zpk} (c : ℝ) (hf : RealFilter f) (hd : f.numZeros ≤ f.numPoles)
    (hz : ∀ r ∈ zeros f, r ≠ 0) (hp : ∀ r ∈ poles f, r ≠ 0) {s : ℂ} (hs : s ≠ 0) :
    system (toHighpass f c) s = system f (c / s) := by
  have l1 : (zeros f).length = f.numZeros := entries_length _ _
  have l2 : (poles f).length = f.numPoles := entries_length _ _
  rw [system_eq, toHighpass_zeros c hz, toHighpass_poles c hp, toHighpass_gain c hf hp, ps_append, ps_replicate,
    ps_invert hz hs, ps_invert hp hs, system_eq, system_eq, l1, l2, sub_zero]
  have n1 := ps_ne.2 hz
  have n2 := ps_ne.2 hp
  have e : s ^ f.numPoles = s ^ f.numZeros * s ^ (f.numPoles - f.numZeros) := by
    rw [← pow_add]
    congr 1
    omega
  rw [e]
  have q1 := pow_ne_zero f.numZeros hs
  have q2 := pow_ne_zero (f.numPoles - f.numZeros) hs
  by_cases h0 : ps (poles f) (c / s) = 0
  · simp [h0]
  field_simp

theorem invert_conj (c : ℝ) (r : ℂ) : conj ((c : ℂ) / r) = c / conj r := by simp

theorem toHighpass_real {f : Zpk} (c : ℝ) (hf : RealFilter f) (hz : ∀ r ∈ zeros f, r ≠ 0) (hp : ∀ r ∈ poles f, r ≠ 0) :
    RealFilter (toHighpass f c) := by
  constructor
  · rw [toHighpass_zeros c hz, List.map_append, replicate_conj _ (by simp)]
    exact (map_perm_conj (invert_conj c) hf.1).append (List.Perm.refl _)
  · rw [toHighpass_poles c hp]
    exact map_perm_conj (invert_conj c) hf.2

end Verif.IirDesign
