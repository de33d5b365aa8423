import Verif.Model.PerceptualFilter
import Verif.Theorems.Butterworth
import Verif.Theorems.PoleZero

/-!
# Lemmas on the perceptual weighting filters
-/

namespace Verif.PerceptualFilter
open Verif.BiquadCascade Verif.FilterDesign Verif.PoleZero Verif.PoleZero.Spec
open scoped ComplexConjugate

/-- The bilinear transform with `n` more zeros than poles: an excess factor `((z + 1) / z)^n`. -/
theorem bilinear_improper {K : ℝ} (hK : 0 < K) {f : PZ} (n : ℕ) (hg : 0 ≤ f.gain) (hd : f.relativeDegree = -n)
    (h1 : ∀ p ∈ f.lonePoles, p < K) (h2 : ∀ p ∈ f.loneZeros, p < K) (h3 : ∀ p ∈ f.pairedPoles, p ≠ K)
    (h4 : ∀ p ∈ f.pairedZeros, p ≠ K) {z : ℂ} (hz : z ≠ 0) (hz1 : z ≠ -1) :
    digitalSystem (f.bilinear K) z = analogSystem f (K * (z - 1) / (z + 1)) * ((z + 1) / z) ^ n := by
  have hz1' : z + 1 ≠ 0 := by rwa [Ne, add_eq_zero_iff_eq_neg]
  have hK' : (K : ℂ) ≠ 0 := by exact_mod_cast hK.ne'
  obtain ⟨f', hf'⟩ : ∃ f' : PZ, f' = { f with lonePoles := f.lonePoles ++ List.replicate n (-K) } := ⟨_, rfl⟩
  have hd' : f'.relativeDegree = 0 := by
    subst hf'
    unfold PZ.relativeDegree PZ.polesDegree PZ.zerosDegree at *
    simp only [List.length_append, List.length_replicate]
    push_cast at *
    omega
  have hp : Proper K f' := by
    subst hf'
    refine ⟨hg, hd'.ge, ?_, h2, h3, h4⟩
    intro p hp
    rcases List.mem_append.1 hp with hp | hp
    · exact h1 p hp
    · rw [List.eq_of_mem_replicate hp]; linarith
  have key := (C60_bilinear_partial K hK f' hp z hz).1 hz1
  -- the digital systems
  have e1 : digitalSystem (f'.bilinear K) z * (2 * K : ℂ) ^ n = digitalSystem (f.bilinear K) z := by
    rw [digital_eq, digital_eq]
    have t1 : f.relativeDegree.toNat = 0 := by rw [hd]; omega
    have z1 : (f'.bilinear K).loneZeros = (f.bilinear K).loneZeros := by
      unfold PZ.bilinear; rw [hd', t1, hf']; rfl
    have z2 : (f'.bilinear K).pairedZeros = (f.bilinear K).pairedZeros := by
      unfold PZ.bilinear; rw [hf']
    have p1 : rootProd (fun r => 1 - r / z) (f'.bilinear K).lonePoles (f'.bilinear K).pairedPoles
        = rootProd (fun r => 1 - r / z) (f.bilinear K).lonePoles (f.bilinear K).pairedPoles := by
      unfold PZ.bilinear rootProd
      rw [hf']
      simp
    have g1 : (f'.bilinear K).gain * (2 * K) ^ n = (f.bilinear K).gain := by
      show 1 * ‖f'.eval K‖ * _ = 1 * ‖f.eval K‖
      rw [eval_eq, eval_eq]
      have : rootProd (fun r => r - (K : ℂ)) f'.lonePoles f'.pairedPoles
          = rootProd (fun r => r - (K : ℂ)) f.lonePoles f.pairedPoles * (-(2 * K)) ^ n := by
        unfold rootProd
        rw [hf']
        simp only [List.map_append, List.prod_append, List.map_replicate, List.prod_replicate]
        push_cast
        rw [show (-(K : ℂ) - K) = -(2 * K) by ring]
        ring
      rw [this]
      have hg' : f'.gain = f.gain := by rw [hf']
      have h5 : f'.loneZeros = f.loneZeros := by rw [hf']
      have h6 : f'.pairedZeros = f.pairedZeros := by rw [hf']
      rw [hg', h5, h6, one_mul, one_mul]
      simp only [norm_div, norm_mul, norm_pow, norm_neg, Complex.norm_real, Real.norm_eq_abs, abs_of_pos hK,
        Complex.norm_ofNat]
      rw [← div_div, div_mul_cancel₀ _ (by positivity)]
    rw [z1, z2, p1, ← g1]
    push_cast
    ring
  have e2 : analogSystem f' (K * (z - 1) / (z + 1)) * (2 * K : ℂ) ^ n
      = analogSystem f (K * (z - 1) / (z + 1)) * ((z + 1) / z) ^ n := by
    rw [PoleZero.analog_eq, PoleZero.analog_eq]
    have : rootProd (fun r => (K : ℂ) * (z - 1) / (z + 1) - r) f'.lonePoles f'.pairedPoles
        = rootProd (fun r => (K : ℂ) * (z - 1) / (z + 1) - r) f.lonePoles f.pairedPoles * (2 * K * z / (z + 1)) ^ n := by
      unfold rootProd
      rw [hf']
      simp only [List.map_append, List.prod_append, List.map_replicate, List.prod_replicate]
      have : (K : ℂ) * (z - 1) / (z + 1) - ((-K : ℝ) : ℂ) = 2 * K * z / (z + 1) := by
        push_cast; field_simp; ring
      rw [this]
      ring
    have hg' : f'.gain = f.gain := by rw [hf']
    have h5 : f'.loneZeros = f.loneZeros := by rw [hf']
    have h6 : f'.pairedZeros = f.pairedZeros := by rw [hf']
    rw [this, hg', h5, h6, ← div_div, mul_div_assoc]
    have : (2 * (K : ℂ) * z / (z + 1)) ^ n = (2 * K) ^ n / ((z + 1) / z) ^ n := by
      rw [← div_pow]; congr 1; field_simp
    rw [this]
    have h7 : (2 * (K : ℂ)) ^ n ≠ 0 := pow_ne_zero _ (mul_ne_zero two_ne_zero hK')
    have h8 : ((z + 1) / z) ^ n ≠ 0 := pow_ne_zero _ (div_ne_zero hz1' hz)
    generalize rootProd (fun r => (K : ℂ) * (z - 1) / (z + 1) - r) f.lonePoles f.pairedPoles = D
    field_simp
  rw [← e1, key, e2]

/-! ### Dropping roots -/

section
open Classical

theorem fold_mul {α : Type*} (c : α → Prop) (v : α → ℝ) (l : List α) : ∀ g : ℝ,
    l.foldl (fun g z => if c z then g else g * v z) g = g * ((l.filter fun z => ¬ c z).map v).prod := by
  induction l with
  | nil => intro g; simp
  | cons z l ih =>
    intro g
    rw [List.foldl_cons, ih]
    by_cases h : c z
    · simp [h]
    · simp [h, mul_assoc]

theorem fold_div {α : Type*} (c : α → Prop) (v : α → ℝ) (l : List α) : ∀ g : ℝ,
    l.foldl (fun g z => if c z then g else g / v z) g = g / ((l.filter fun z => ¬ c z).map v).prod := by
  induction l with
  | nil => intro g; simp
  | cons z l ih =>
    intro g
    rw [List.foldl_cons, ih]
    by_cases h : c z
    · simp [h]
    · simp [h, div_div]

theorem prod_filter_split {α M : Type*} [CommMonoid M] (c : α → Prop) (v : α → M) (l : List α) :
    (l.map v).prod = ((l.filter fun z => c z).map v).prod * ((l.filter fun z => ¬ c z).map v).prod := by
  induction l with
  | nil => simp
  | cons z l ih =>
    by_cases h : c z
    · simp [h, ih, mul_assoc]
    · simp [h, ih, mul_left_comm]

theorem filter_roots (nyq : ℝ) (lone : List ℝ) (paired : List ℂ) :
    ((lone.map (fun p : ℝ => (p : ℂ)) ++ paired.flatMap fun p => [p, conj p]).filter fun r => nyq ≤ ‖r‖)
      = (lone.filter fun r => ¬ |r| < nyq).map (fun p : ℝ => (p : ℂ)) ++
        (paired.filter fun r => ¬ ‖r‖ < nyq).flatMap fun p => [p, conj p] := by
  rw [List.filter_append]
  congr 1
  · rw [List.filter_map]
    congr 1
    apply List.filter_congr
    intro r _
    simp
  · induction paired with
    | nil => simp
    | cons p l ih =>
      rw [List.flatMap_cons, List.filter_append, ih]
      by_cases h : ‖p‖ < nyq
      · have h' : ¬ nyq ≤ ‖p‖ := not_le.2 h
        simp [h, h']
      · have h' : nyq ≤ ‖p‖ := not_lt.1 h
        simp [h']

theorem gain_dropRoots (t : PZ) (nyq : ℝ) : ((dropRoots t nyq).gain : ℂ)
    = t.gain * rootProd (fun r => (‖r‖ : ℂ)) (t.loneZeros.filter fun r => ¬ |r| < nyq)
        (t.pairedZeros.filter fun r => ¬ ‖r‖ < nyq) /
      rootProd (fun r => (‖r‖ : ℂ)) (t.lonePoles.filter fun r => ¬ |r| < nyq)
        (t.pairedPoles.filter fun r => ¬ ‖r‖ < nyq) := by
  have e : (dropRoots t nyq).gain = t.gain * ((t.loneZeros.filter fun r => ¬ |r| < nyq).map fun r => |r|).prod *
      ((t.pairedZeros.filter fun r => ¬ ‖r‖ < nyq).map fun r => ‖r‖ * ‖r‖).prod /
      ((t.lonePoles.filter fun r => ¬ |r| < nyq).map fun r => |r|).prod /
      ((t.pairedPoles.filter fun r => ¬ ‖r‖ < nyq).map fun r => ‖r‖ * ‖r‖).prod := by
    unfold dropRoots
    dsimp only
    rw [fold_div (fun p : ℂ => ‖p‖ < nyq) (fun p => ‖p‖ * ‖p‖), fold_div (fun p : ℝ => |p| < nyq) (fun p => |p|),
      fold_mul (fun p : ℂ => ‖p‖ < nyq) (fun p => ‖p‖ * ‖p‖), fold_mul (fun p : ℝ => |p| < nyq) (fun p => |p|)]
  rw [e]
  have hl : ∀ l : List ℝ, (((l.map fun r => |r|).prod : ℝ) : ℂ) = (l.map fun r : ℝ => ((‖(r : ℂ)‖ : ℝ) : ℂ)).prod := by
    intro l
    induction l with
    | nil => simp
    | cons r l ih => simp only [List.map_cons, List.prod_cons, Complex.ofReal_mul, ih, Complex.norm_real,
        Real.norm_eq_abs]
  have hp : ∀ l : List ℂ, (((l.map fun r => ‖r‖ * ‖r‖).prod : ℝ) : ℂ)
      = (l.map fun r : ℂ => ((‖r‖ : ℝ) : ℂ) * ((‖conj r‖ : ℝ) : ℂ)).prod := by
    intro l
    induction l with
    | nil => simp
    | cons r l ih => simp only [List.map_cons, List.prod_cons, Complex.ofReal_mul, ih, RCLike.norm_conj]
  unfold rootProd
  rw [← hl, ← hl, ← hp, ← hp]
  push_cast
  rw [mul_assoc, div_div]

theorem dropped_norm_ne {nyq : ℝ} (hn : 0 < nyq) (lone : List ℝ) (paired : List ℂ) :
    rootProd (fun r => (‖r‖ : ℂ)) (lone.filter fun r => ¬ |r| < nyq) (paired.filter fun r => ¬ ‖r‖ < nyq) ≠ 0 := by
  apply rootProd_ne_zero
  · intro r hr
    have := (List.mem_filter.1 hr).2
    simp only [not_lt, decide_eq_true_eq] at this
    have h2 : 0 < ‖(r : ℂ)‖ := by
      rw [Complex.norm_real, Real.norm_eq_abs]; linarith
    exact_mod_cast h2.ne'
  · intro r hr
    have := (List.mem_filter.1 hr).2
    simp only [not_lt, decide_eq_true_eq] at this
    have h2 : 0 < ‖r‖ := by linarith
    rw [RCLike.norm_conj]
    exact ⟨by exact_mod_cast h2.ne', by exact_mod_cast h2.ne'⟩

/-- The roots that are dropped contribute factors `(s - r) / |r|`. -/
theorem dropRoots_analog (t : PZ) {nyq : ℝ} (hn : 0 < nyq) (s : ℂ) :
    analogSystem t s = analogSystem (dropRoots t nyq) s *
      (((zeros t).filter fun r => nyq ≤ ‖r‖).map fun r => (s - r) / ‖r‖).prod /
      (((poles t).filter fun r => nyq ≤ ‖r‖).map fun r => (s - r) / ‖r‖).prod := by
  rw [zeros, poles, filter_roots, filter_roots, rootProd_eq, rootProd_eq, PoleZero.analog_eq, PoleZero.analog_eq,
    gain_dropRoots]
  have hz := dropped_norm_ne hn t.loneZeros t.pairedZeros
  have hp := dropped_norm_ne hn t.lonePoles t.pairedPoles
  have hdiv : ∀ lone paired, rootProd (fun r => (s - r) / ‖r‖) lone paired
      = rootProd (fun r => s - r) lone paired / rootProd (fun r => (‖r‖ : ℂ)) lone paired := by
    intro lone paired
    rw [div_eq_mul_inv]
    have : (rootProd (fun r => (‖r‖ : ℂ)) lone paired)⁻¹ = rootProd (fun r => (‖r‖ : ℂ)⁻¹) lone paired := by
      unfold rootProd
      rw [mul_inv, List.prod_inv, List.prod_inv, List.map_map, List.map_map]
      congr 2
      apply List.map_congr_left
      intro p _
      simp
    rw [this, ← rootProd_mul]
    rfl
  have hs : ∀ lone paired, rootProd (fun r => s - r) lone paired
      = rootProd (fun r => s - r) (lone.filter fun r => |r| < nyq) (paired.filter fun r => ‖r‖ < nyq) *
        rootProd (fun r => s - r) (lone.filter fun r => ¬ |r| < nyq) (paired.filter fun r => ¬ ‖r‖ < nyq) := by
    intro lone paired
    unfold rootProd
    rw [prod_filter_split (fun r : ℝ => |r| < nyq), prod_filter_split (fun r : ℂ => ‖r‖ < nyq)]
    ring
  rw [hdiv, hdiv, hs t.loneZeros t.pairedZeros, hs t.lonePoles t.pairedPoles]
  have u1 : (dropRoots t nyq).loneZeros = t.loneZeros.filter fun r => |r| < nyq := rfl
  have u2 : (dropRoots t nyq).pairedZeros = t.pairedZeros.filter fun r => ‖r‖ < nyq := rfl
  have u3 : (dropRoots t nyq).lonePoles = t.lonePoles.filter fun r => |r| < nyq := rfl
  have u4 : (dropRoots t nyq).pairedPoles = t.pairedPoles.filter fun r => ‖r‖ < nyq := rfl
  rw [u1, u2, u3, u4]
  generalize rootProd (fun r => (‖r‖ : ℂ)) (t.loneZeros.filter fun r => ¬ |r| < nyq)
    (t.pairedZeros.filter fun r => ¬ ‖r‖ < nyq) = NZ at *
  generalize rootProd (fun r => (‖r‖ : ℂ)) (t.lonePoles.filter fun r => ¬ |r| < nyq)
    (t.pairedPoles.filter fun r => ¬ ‖r‖ < nyq) = NP at *
  generalize rootProd (fun r => s - r) (t.loneZeros.filter fun r => |r| < nyq)
    (t.pairedZeros.filter fun r => ‖r‖ < nyq) = A
  generalize rootProd (fun r => s - r) (t.loneZeros.filter fun r => ¬ |r| < nyq)
    (t.pairedZeros.filter fun r => ¬ ‖r‖ < nyq) = B
  generalize rootProd (fun r => s - r) (t.lonePoles.filter fun r => |r| < nyq)
    (t.pairedPoles.filter fun r => ‖r‖ < nyq) = C
  generalize rootProd (fun r => s - r) (t.lonePoles.filter fun r => ¬ |r| < nyq)
    (t.pairedPoles.filter fun r => ¬ ‖r‖ < nyq) = D
  by_cases hC : C = 0
  · subst hC; simp
  by_cases hD : D = 0
  · subst hD; simp
  field_simp

theorem gain_dropRoots_nonneg (t : PZ) (nyq : ℝ) (h : 0 ≤ t.gain) : 0 ≤ (dropRoots t nyq).gain := by
  unfold dropRoots
  dsimp only
  rw [fold_div (fun p : ℂ => ‖p‖ < nyq) (fun p => ‖p‖ * ‖p‖), fold_div (fun p : ℝ => |p| < nyq) (fun p => |p|),
    fold_mul (fun p : ℂ => ‖p‖ < nyq) (fun p => ‖p‖ * ‖p‖), fold_mul (fun p : ℝ => |p| < nyq) (fun p => |p|)]
  have hl : ∀ l : List ℝ, 0 ≤ (l.map fun r => |r|).prod := fun l => by
    induction l with
    | nil => simp
    | cons r l ih => rw [List.map_cons, List.prod_cons]; positivity
  have hp : ∀ l : List ℂ, 0 ≤ (l.map fun r => ‖r‖ * ‖r‖).prod := fun l => by
    induction l with
    | nil => simp
    | cons r l ih => rw [List.map_cons, List.prod_cons]; positivity
  exact div_nonneg (div_nonneg (mul_nonneg (mul_nonneg h (hl _)) (hp _)) (hl _)) (hp _)

end

/-! ### Stability of the returned cascade -/

/-- If all poles are inside the unit circle, no denominator of the cascade vanishes on or outside it. -/
theorem getCoefficients_stable {f : PZ} (hr : RootsAbove (1 / 10 ^ 5) f) (hne : zeros f ≠ [] ∨ poles f ≠ [])
    (hst : ∀ q ∈ poles f, ‖q‖ < 1) {cs : List (Stage ℝ)} (hcs : f.getCoefficients (1 / 10 ^ 10) = some cs) :
    ∀ s ∈ cs, ∀ z : ℂ, 1 ≤ ‖z‖ → LinearFilter.Spec.evalZ Complex.ofRealHom s.a z⁻¹ ≠ 0 := by
  obtain ⟨cs', e, n, g, c, hc, h⟩ := getCoefficients_core (ε := 1 / 10 ^ 10) (by norm_num) (by norm_num)
    (by norm_num) f hr hne
  rw [e] at hcs
  obtain rfl := Option.some.inj hcs
  intro s hs z hz
  obtain ⟨a1, a2⟩ := adjustGain_spec f.gain cs' n
  have hd : denAt (adjustGain f.gain cs') z⁻¹ ≠ 0 := by
    rw [denAt_of (cs' := cs') (c := 1) (by rw [a2]; simp)]
    have h2 := (h z⁻¹).2
    have h3 : ((poles f).map fun r => 1 - r * z⁻¹).prod ≠ 0 := by
      rw [Ne, List.prod_eq_zero_iff]
      intro h0
      obtain ⟨r, hr', e0⟩ := List.mem_map.1 h0
      have h4 : r = z := by
        have hz0 : z ≠ 0 := by
          rintro rfl; rw [norm_zero] at hz; linarith
        have : r * z⁻¹ = 1 := (sub_eq_zero.1 e0).symm
        field_simp at this
        exact this
      have := hst r hr'
      rw [h4] at this
      linarith
    intro h0
    apply h3
    rw [h2]
    have : denAt cs' z⁻¹ = 0 := by simpa using h0
    rw [this, mul_zero]
  intro h0
  apply hd
  unfold denAt
  exact List.prod_eq_zero (List.mem_map.2 ⟨s, hs, h0⟩)

end Verif.PerceptualFilter
