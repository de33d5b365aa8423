import Verif.Proof.SpectralProperties
import Verif.Spec.SpectralProperties
import Verif.Theorems.WindowFourier

/-!
# C96: spectral properties of windows
-/

namespace Verif.SpectralProperties
open Verif.Windows Spec

/-- **C96.** What `ComputeSpectralProperties` returns, for every window and Fourier transform, whatever the conversion to
`float`: the full width at half maximum, the share of the main lobe in the energy, and the highest sidelobe in dB, of
the energy spectrum sampled every `1/200` Hz up to 3 Hz. -/
theorem C96_result (rnd : ℝ → ℝ) (w : Window) (ft : ℝ → ℝ) {p : Properties} (h : compute rnd w [] ft = some p) :
    ∃ j m M, IsHalfWidth rnd (fun k => ft (k / 200) ^ 2) j ∧ IsLobeEnd rnd (fun k => ft (k / 200) ^ 2) j m ∧ m ≤ 600 ∧
      IsHighest (fun k => ft (k / 200) ^ 2) m M ∧
      p.mainLobeFwhm = 2 * (j / 200) ∧
      p.mainLobeEnergyRatio =
        (∑ k ∈ Finset.Ico 1 m, ft (k / 200) ^ 2 + ft 0 ^ 2 / 2) * (2 / 200) /
          ((∑ k ∈ Finset.range 512, w.eval (w.radius / 512 * (k + 1)) ^ 2 + 1 / 2) * (2 * w.radius / 512)) ∧
      p.highestSidelobeDb = 10 * Real.logb 10 (M / ft 0 ^ 2) := by
  have hlen := energies_length ft
  rw [compute] at h
  simp only [energies_head] at h
  obtain ⟨j, c, e1, e2, hj, hc, hcp, hb, ha, hsb, hsa⟩ := indices rnd ft
  simp only [e1, e2] at h
  split_ifs at h with hce
  rw [Option.some.injEq] at h
  rw [hlen] at hce
  have hcl : j + c < 601 := by omega
  have hjl : j < 601 := by omega
  have hd : (energies ft).drop (j + c) ≠ [] := by
    intro hn
    have := congrArg List.length hn
    rw [List.length_drop, hlen, List.length_nil] at this
    omega
  obtain ⟨hm1, hm2⟩ := maxElement_spec hd
  refine ⟨j, j + c, maxElement ((energies ft).drop (j + c)), ⟨?_, ?_⟩, ⟨by have := hcp hjl; omega, hsa hcl, hsb⟩, by omega,
    ⟨?_, ?_⟩, ?_, ?_, ?_⟩
  · simp only [Nat.cast_zero, zero_div]
    exact ha hjl
  · simp only [Nat.cast_zero, zero_div]
    exact hb
  · obtain ⟨i, hi, hie⟩ := List.mem_iff_getElem.1 hm1
    rw [List.length_drop, hlen] at hi
    rw [List.getElem_drop, energies_get] at hie
    exact ⟨j + c + i, by omega, by omega, hie⟩
  · intro i h1 h2
    have hi : i - (j + c) < ((energies ft).drop (j + c)).length := by rw [List.length_drop, hlen]; omega
    have := hm2 _ (List.getElem_mem hi)
    rw [List.getElem_drop, energies_get, show j + c + (i - (j + c)) = i by omega] at this
    exact this
  · rw [← h]
    simp only [df]
    ring
  · rw [← h]
    simp only [foldl_add_eq, lobe_sum ft hcl.le, total_eq, df]
    generalize ∑ k ∈ Finset.range 512, w.eval (w.radius / 512 * (↑k + 1)) ^ 2 = t
    generalize ∑ k ∈ Finset.Ico 1 (j + c), ft (↑k / 200) ^ 2 = t'
    have hd : ∀ {A B C D : ℝ}, A = B → C = D → A / C = B / D := by rintro _ _ _ _ rfl rfl; rfl
    exact hd (by ring) (by ring)
  · rw [← h]
    simp only [Real.logb]
    ring

/-- **C96.** When it aborts: exactly when no main lobe ends within the 3 Hz that are sampled. -/
theorem C96_abort (rnd : ℝ → ℝ) (w : Window) (ft : ℝ → ℝ) (memo : List ℝ) : compute rnd w memo ft = none ↔
    ¬ ∃ j m, IsHalfWidth rnd (fun k => ft (k / 200) ^ 2) j ∧ IsLobeEnd rnd (fun k => ft (k / 200) ^ 2) j m ∧ m ≤ 600 := by
  have hlen := energies_length ft
  rw [compute]
  simp only [energies_head]
  obtain ⟨j, c, e1, e2, hj, hc, hcp, hb, ha, hsb, hsa⟩ := indices rnd ft
  simp only [e1, e2, hlen]
  rw [← not_iff_not, not_not]
  split_ifs with hce
  · simp only [not_true_eq_false, false_iff, not_exists, not_and]
    intro j' m ⟨q1, q2⟩ ⟨g1, g2, g3⟩ hm
    simp only [Nat.cast_zero, zero_div] at q1 q2
    have hjj : j = j' := by
      rcases lt_trichotomy j j' with hlt | he | hgt
      · have := ha (by omega)
        have := q2 j hlt
        linarith
      · exact he
      · have := hb j' hgt
        linarith
    have := hsb (m - 1) (by omega) (by omega)
    rw [show m - 1 + 1 = m by omega] at this
    exact absurd g2 (not_lt.2 this)
  · simp only [reduceCtorEq, not_false_eq_true, true_iff]
    have hjl : j < 601 := by omega
    refine ⟨j, j + c, ⟨?_, ?_⟩, ⟨by have := hcp hjl; omega, hsa (by omega), hsb⟩, by omega⟩
    · simp only [Nat.cast_zero, zero_div]
      exact ha hjl
    · simp only [Nat.cast_zero, zero_div]
      exact hb

/-- **C96.** Accuracy of the width: if the spectrum is above half its maximum up to `h₁` and below it from `h₂` for at
least one grid step (with a margin of `2⁻²²` of the maximum for the conversion to `float`), the width returned is between
`2 h₁` and `2 h₂ + 1/100`. -/
theorem C96_width {rnd : ℝ → ℝ} (hr : Rounding rnd) (w : Window) (ft : ℝ → ℝ) {p : Properties} (h : compute rnd w [] ft = some p)
    {h₁ h₂ : ℝ} (hp : (1 / 2) ^ 100 ≤ ft 0 ^ 2) (h0 : 0 ≤ h₂)
    (hb : ∀ f, 0 ≤ f → f < h₁ → (1 / 2 + (1 / 2) ^ 22) * ft 0 ^ 2 ≤ ft f ^ 2)
    (ha : ∀ f, h₂ ≤ f → f ≤ h₂ + 1 / 200 → ft f ^ 2 ≤ (1 / 2 - (1 / 2) ^ 22) * ft 0 ^ 2) :
    2 * h₁ ≤ p.mainLobeFwhm ∧ p.mainLobeFwhm < 2 * h₂ + 1 / 100 := by
  obtain ⟨j, m, M, ⟨q1, q2⟩, -, -, -, e, -⟩ := C96_result rnd w ft h
  simp only [Nat.cast_zero, zero_div] at q1 q2
  rw [e]
  have hpos : (0 : ℝ) < (1 / 2) ^ 100 := by positivity
  have t1 : ((1 / 2) ^ 150 : ℝ) ≤ (1 / 2) ^ 25 * (1 / 2) ^ 100 := by norm_num
  constructor
  · by_contra hc
    have h1 := hb (j / 200) (by positivity) (by linarith)
    have h2 := hr.close (ft (j / 200) ^ 2)
    rw [abs_of_nonneg (sq_nonneg (ft (j / 200))), abs_le] at h2
    nlinarith
  · by_contra hc
    have hj : (j : ℝ) / 200 - 1 / 200 ≥ h₂ := by linarith
    -- the first grid point from `h₂` on
    have hn : ∃ n : ℕ, h₂ ≤ n / 200 ∧ (n : ℝ) / 200 ≤ h₂ + 1 / 200 ∧ n < j := by
      refine ⟨⌈h₂ * 200⌉₊, ?_, ?_, ?_⟩
      · have := Nat.le_ceil (h₂ * 200)
        linarith
      · have := Nat.ceil_lt_add_one (by positivity : 0 ≤ h₂ * 200)
        linarith
      · have := Nat.ceil_lt_add_one (by positivity : 0 ≤ h₂ * 200)
        have h3 : ((⌈h₂ * 200⌉₊ : ℕ) : ℝ) < j := by linarith
        exact_mod_cast h3
    obtain ⟨n, n1, n2, n3⟩ := hn
    have h1 := ha _ n1 n2
    have h2 := hr.close (ft (n / 200) ^ 2)
    have h3 := q2 n n3
    rw [abs_of_nonneg (sq_nonneg (ft (n / 200))), abs_le] at h2
    have := sq_nonneg (ft (n / 200))
    nlinarith

/-! ### The rectangular window -/

theorem sinc_antitone {x y : ℝ} (h0 : 0 ≤ x) (hxy : x ≤ y) (hy : y ≤ Real.pi) : 0 ≤ sinc y ∧ sinc y ≤ sinc x := by
  have hs : 0 ≤ Real.sin y := Real.sin_nonneg_of_nonneg_of_le_pi (h0.trans hxy) hy
  have hle : Real.sin y ≤ y := Real.sin_le (h0.trans hxy)
  rw [sinc, sinc, abs_of_nonneg h0, abs_of_nonneg (h0.trans hxy)]
  split_ifs with h1 h2 h2
  · exact ⟨zero_le_one, le_rfl⟩
  · linarith
  · have hp : 0 < y := by
      have : (0 : ℝ) < 1 / 10 ^ 8 := by norm_num
      linarith
    exact ⟨by positivity, (div_le_one hp).2 hle⟩
  · have hpx : 0 < x := by
      have : (0 : ℝ) < 1 / 10 ^ 8 := by norm_num
      linarith
    have hp : 0 < y := by linarith
    refine ⟨by positivity, ?_⟩
    have h := strictConcaveOn_sin_Icc.concaveOn.2 (show (0 : ℝ) ∈ Set.Icc 0 Real.pi from ⟨le_rfl, Real.pi_pos.le⟩)
      (show y ∈ Set.Icc 0 Real.pi from ⟨hp.le, hy⟩)
      (show 0 ≤ 1 - x / y by rw [sub_nonneg, div_le_one hp]; exact hxy) (show 0 ≤ x / y by positivity) (by ring)
    simp only [smul_eq_mul, mul_zero, Real.sin_zero, zero_add] at h
    rw [div_mul_cancel₀ _ hp.ne'] at h
    rw [div_le_div_iff₀ hp hpx]
    have h' : x / y * Real.sin y * y ≤ Real.sin x * y := mul_le_mul_of_nonneg_right h hp.le
    rw [mul_assoc, mul_comm (Real.sin y), ← mul_assoc, div_mul_cancel₀ _ hp.ne'] at h'
    linarith

/-- **C96, finding.** The frequencies searched do not depend on the radius: for every rectangular window with a radius
of at most 1/6 the function aborts the program. -/
theorem C96_radius_violation {rnd : ℝ → ℝ} (hm : Monotone rnd) {r : ℝ} (hr : 0 < r) (h6 : r ≤ 1 / 6) (memo : List ℝ) :
    compute rnd ⟨r, false, rectangular r⟩ memo (rectangularFt r) = none := by
  rw [C96_abort]
  rintro ⟨j, m, -, ⟨h1, h2, -⟩, h3⟩
  refine absurd h2 (not_lt.2 (hm ?_))
  have hpi := Real.pi_pos
  have hmr : ((m - 1 : ℕ) : ℝ) ≤ m := by exact_mod_cast Nat.sub_le m 1
  have hm6 : (m : ℝ) ≤ 600 := by exact_mod_cast h3
  obtain ⟨a, b⟩ := sinc_antitone (x := 2 * Real.pi * (((m - 1 : ℕ) : ℝ) / 200) * r) (y := 2 * Real.pi * ((m : ℝ) / 200) * r)
    (by positivity) (by gcongr) (by
      have : (m : ℝ) / 200 * r ≤ 3 * (1 / 6) := mul_le_mul (by linarith) h6 hr.le (by norm_num)
      nlinarith)
  simp only [rectangularFt]
  gcongr

theorem sinc_sq {x : ℝ} (h : 1 ≤ x) : sinc x ^ 2 = Real.sin x ^ 2 / x ^ 2 := by
  rw [sinc, abs_of_nonneg (by linarith), if_neg (by norm_num; linarith), div_pow]

theorem grid_point {s a : ℝ} (hs : 0 < s) (ha : 0 ≤ a) : ∃ n : ℕ, a ≤ n * s ∧ n * s < a + s := by
  refine ⟨⌈a / s⌉₊, ?_, ?_⟩
  · have := Nat.le_ceil (a / s)
    rwa [div_le_iff₀ hs] at this
  · have := Nat.ceil_lt_add_one (by positivity : 0 ≤ a / s)
    have := mul_lt_mul_of_pos_right this hs
    rwa [add_mul, div_mul_cancel₀ _ hs.ne', one_mul] at this

theorem lobe_of_rise {rnd : ℝ → ℝ} {E : ℕ → ℝ} {a b : ℕ} (ha : rnd (E a) ≤ E 0 / 2) (hab : a < b) (hb : b ≤ 600)
    (hr : rnd (E a) < rnd (E b)) : ∃ j m, IsHalfWidth rnd E j ∧ IsLobeEnd rnd E j m ∧ m ≤ 600 := by
  classical
  have hex : ∃ j, rnd (E j) ≤ E 0 / 2 := ⟨a, ha⟩
  have hja : Nat.find hex ≤ a := Nat.find_min' hex ha
  have hj1 := Nat.find_spec hex
  have hj2 : ∀ i < Nat.find hex, E 0 / 2 < rnd (E i) := fun i hi => not_le.1 (Nat.find_min hex hi)
  generalize Nat.find hex = j at *
  have hrise : ∃ m, j < m ∧ m ≤ b ∧ rnd (E (m - 1)) < rnd (E m) := by
    by_contra hc
    push Not at hc
    have : ∀ d, a + d ≤ b → rnd (E (a + d)) ≤ rnd (E a) := by
      intro d
      induction d with
      | zero => intro _; exact le_rfl
      | succ d ih =>
        intro hd
        have := hc (a + (d + 1)) (by omega) hd
        rw [show a + (d + 1) - 1 = a + d by omega] at this
        exact this.trans (ih (by omega))
    have := this (b - a) (by omega)
    rw [show a + (b - a) = b by omega] at this
    linarith
  obtain ⟨h1, h2, h3⟩ := Nat.find_spec hrise
  refine ⟨j, Nat.find hrise, ⟨hj1, hj2⟩, ⟨h1, h3, fun i hi him => ?_⟩, h2.trans hb⟩
  have := Nat.find_min hrise him
  push Not at this
  simpa using this (by omega) (by omega)

/-- **C96.** With a radius between 1/4 and 12 the main lobe of the rectangular window is found. -/
theorem C96_rectangular {rnd : ℝ → ℝ} (hrd : Rounding rnd) {r : ℝ} (h4 : 1 / 4 ≤ r) (h12 : r ≤ 12) (memo : List ℝ) :
    ∃ p, compute rnd ⟨r, false, rectangular r⟩ memo (rectangularFt r) = some p := by
  rw [← Option.isSome_iff_exists, Option.isSome_iff_ne_none, Ne, C96_abort, not_not]
  have hpi := Real.pi_gt_three
  have hpi4 := Real.pi_lt_four
  set E : ℕ → ℝ := fun k => rectangularFt r (k / 200) ^ 2 with hE
  set s : ℝ := 2 * Real.pi * r / 200 with hsd
  have hs0 : 0 < s := by rw [hsd]; positivity
  have hs8 : s ≤ Real.pi / 8 := by rw [hsd]; nlinarith
  have hEk : ∀ k : ℕ, E k = 4 * r ^ 2 * sinc (k * s) ^ 2 := by
    intro k
    simp only [hE, rectangularFt, hsd]
    rw [mul_pow, mul_pow]
    congr 2
    · norm_num
    · congr 1; ring
  have hE0 : E 0 = 4 * r ^ 2 := by
    rw [hEk]; simp [sinc]
  obtain ⟨a, a1, a2⟩ := grid_point hs0 (a := Real.pi) (by linarith)
  obtain ⟨b, b1, b2⟩ := grid_point hs0 (a := 3 * Real.pi / 2 - Real.pi / 8) (by linarith)
  have c8 : Real.cos (Real.pi / 8) ^ 2 = 1 / 2 + √2 / 4 := by
    rw [Real.cos_sq, show 2 * (Real.pi / 8) = Real.pi / 4 by ring, Real.cos_pi_div_four]; ring
  have s8 : Real.sin (Real.pi / 8) ^ 2 = 1 / 2 - √2 / 4 := by
    rw [Real.sin_sq, c8]; ring
  have q1 : (7 / 5 : ℝ) < √2 := Real.lt_sqrt_of_sq_lt (by norm_num)
  have sa : Real.sin (a * s) ^ 2 ≤ 1 / 2 - √2 / 4 := by
    have e : Real.sin (a * s) = -Real.sin (a * s - Real.pi) := by rw [Real.sin_sub_pi, neg_neg]
    rw [← s8, e, neg_sq]
    have h1 : 0 ≤ Real.sin (a * s - Real.pi) := Real.sin_nonneg_of_nonneg_of_le_pi (by linarith) (by linarith)
    have h2 : Real.sin (a * s - Real.pi) ≤ Real.sin (Real.pi / 8) :=
      Real.sin_le_sin_of_le_of_le_pi_div_two (by linarith) (by linarith) (by linarith)
    exact pow_le_pow_left₀ h1 h2 2
  have sb : 1 / 2 + √2 / 4 ≤ Real.sin (b * s) ^ 2 := by
    have e : Real.sin (b * s) = -Real.cos (3 * Real.pi / 2 - b * s) := by
      rw [show 3 * Real.pi / 2 - b * s = Real.pi - (b * s - Real.pi / 2) by ring, Real.cos_pi_sub, neg_neg,
        Real.cos_sub_pi_div_two]
    rw [← c8, e, neg_sq]
    have h1 : 0 ≤ Real.cos (Real.pi / 8) := Real.cos_nonneg_of_neg_pi_div_two_le_of_le (by linarith) (by linarith)
    have h2 : Real.cos (Real.pi / 8) ≤ Real.cos (3 * Real.pi / 2 - b * s) :=
      Real.cos_le_cos_of_nonneg_of_le_pi (by linarith) (by linarith) (by linarith)
    exact pow_le_pow_left₀ h1 h2 2
  have hr0 : 0 < r := by linarith
  have hr2 : 1 / 16 ≤ r ^ 2 := by nlinarith
  have ea : E a ≤ 4 * r ^ 2 * (1 / 60) := by
    rw [hEk, sinc_sq (by linarith)]
    apply mul_le_mul_of_nonneg_left _ (by positivity)
    rw [div_le_iff₀ (by nlinarith)]
    nlinarith
  have eb : 4 * r ^ 2 * (1 / 36) ≤ E b := by
    rw [hEk, sinc_sq (by linarith)]
    apply mul_le_mul_of_nonneg_left _ (by positivity)
    rw [le_div_iff₀ (by nlinarith)]
    have hpi2 := Real.pi_lt_d2
    have : (b * s) ^ 2 ≤ 4.725 ^ 2 := pow_le_pow_left₀ (by linarith) (by linarith) 2
    nlinarith
  have ea0 : 0 ≤ E a := sq_nonneg _
  have eb0 : 0 ≤ E b := sq_nonneg _
  have ra := hrd.close (E a)
  have rb := hrd.close (E b)
  rw [abs_of_nonneg ea0, abs_le] at ra
  rw [abs_of_nonneg eb0, abs_le] at rb
  have t1 : ((1 / 2) ^ 150 : ℝ) ≤ 1 / 10 ^ 6 := by norm_num
  have t2 : ((1 / 2) ^ 24 : ℝ) ≤ 1 / 10 ^ 6 := by norm_num
  have t3 : (0 : ℝ) ≤ (1 / 2) ^ 24 := by positivity
  have u1 := mul_le_mul_of_nonneg_right t2 ea0
  have u2 := mul_le_mul_of_nonneg_right t2 eb0
  refine lobe_of_rise (a := a) (b := b) ?_ ?_ ?_ ?_
  · rw [hE0]; linarith
  · have : (a : ℝ) < b := by
      by_contra hc
      have := mul_le_mul_of_nonneg_right (not_lt.1 hc) hs0.le
      linarith
    exact_mod_cast this
  · have h600 : (b : ℝ) * s < 600 * s := by rw [hsd] at b2 ⊢; nlinarith
    have : (b : ℝ) < 600 := lt_of_mul_lt_mul_right h600 hs0.le
    exact_mod_cast this.le
  · linarith

/-- Conversion without any error is an admissible one, and so is no conversion at all. -/
example : Rounding id := ⟨monotone_id, fun x => by simp; positivity⟩

example : ∃ p, compute id ⟨1, false, rectangular 1⟩ [] (rectangularFt 1) = some p :=
  C96_rectangular ⟨monotone_id, fun x => by simp; positivity⟩ (by norm_num) (by norm_num) []

example : compute id ⟨1 / 10, false, rectangular (1 / 10)⟩ [] (rectangularFt (1 / 10)) = none :=
  C96_radius_violation monotone_id (by norm_num) (by norm_num) []

end Verif.SpectralProperties
