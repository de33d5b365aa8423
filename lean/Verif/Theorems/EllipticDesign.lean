import Verif.Proof.EllipticResponse3
import Verif.Proof.PoleZero7
import Verif.Theorems.IirDesignFilters
import Mathlib.Analysis.SpecialFunctions.Log.Base

/-!
# C97: the elliptic filter designs

biquad_filter_design.h:347-367 and biquad_filter_design_pole_zero.cc:297-365: `EllipticFilterDesign`.
-/

namespace Verif.EllipticDesign
open Verif.PoleZero Verif.PoleZero.Spec Spec
open Verif.Elliptic.Spec (K)
open Verif.IirDesign.Spec (lowFreq highFreq passFreq stopFreq)
open Verif.IirDesign (low_band high_band pass_band stop_band)

/-- **C97.** With exact elliptic functions the design aborts if the order is not positive, the passband ripple is not
positive or not below the stopband ripple, and otherwise yields a prototype. -/
theorem C97_outcome (N : ℕ) (rp rs : ℝ) :
    (1 ≤ N ∧ 0 < rp ∧ rp < rs → ∃ f, prototype exact N rp rs = .ok f) ∧
    (¬ (1 ≤ N ∧ 0 < rp ∧ rp < rs) → ∀ o : Ops, prototype o N rp rs = .error .abort) := by
  constructor
  · rintro ⟨h1, h2, h3⟩
    exact ⟨_, prototype_eq h1 h2 h3⟩
  · intro h o
    unfold prototype
    rw [if_pos]
    by_contra hc
    push Not at hc
    exact h ⟨hc.2.1, hc.2.2.1, hc.1⟩

/-- The degree equation has only one solution. -/
theorem degree_unique {N : ℕ} (hN : 1 ≤ N) {k k' k₁ : ℝ} (h : 0 < k ∧ k < 1) (h' : 0 < k' ∧ k' < 1)
    (e : DegreeEquation N k k₁) (e' : DegreeEquation N k' k₁) : k = k' := by
  have hN' : (0 : ℝ) < N := by exact_mod_cast hN
  have p : Verif.Elliptic.Mod k := h
  have p' : Verif.Elliptic.Mod k' := h'
  have e2 : K (1 - k ^ 2) / K (k ^ 2) = K (1 - k' ^ 2) / K (k' ^ 2) :=
    mul_left_cancel₀ hN'.ne' (e.trans e'.symm)
  have h1 := Verif.Elliptic.K_pos p.par
  have h2 := Verif.Elliptic.K_pos p'.par
  rw [div_eq_div_iff h1.ne' h2.ne'] at e2
  have h3 := Verif.Elliptic.ratio_inj p.par p'.par e2
  exact (pow_left_inj₀ h.1.le h'.1.le (by norm_num)).1 h3

/-- **C97.** With exact elliptic functions, for every order and `0 < passband ripple < stopband ripple`, the analog
prototype has `order` poles, all in the open left half plane, and `order` zeros (`order - 1` if odd), all on the
imaginary axis. Its power response is that of the elliptic filter `1 / (1 + ε² R²)` whose modulus `k` is the only solution
of the degree equation. So the gain is between `-rp` dB and 0 dB exactly up to the frequency 1, and at most `-rs` dB
exactly from the frequency `1/k`. -/
theorem C97_prototype {N : ℕ} (hN : 1 ≤ N) {rp rs : ℝ} (hp : 0 < rp) (hps : rp < rs) :
    ∃ k f, prototype exact N rp rs = .ok f ∧ (0 < k ∧ k < 1) ∧
      (∀ k', 0 < k' ∧ k' < 1 → (DegreeEquation N k' (√((10 : ℝ) ^ (rp / 10) - 1) / √((10 : ℝ) ^ (rs / 10) - 1)) ↔ k' = k)) ∧
      f.pairedPoles.length = N / 2 ∧ f.lonePoles.length = N % 2 ∧ f.pairedZeros.length = N / 2 ∧ f.loneZeros = [] ∧
      (∀ p ∈ f.pairedPoles, p.re < 0) ∧ (∀ p ∈ f.lonePoles, p < 0) ∧ (∀ z ∈ f.pairedZeros, z.re = 0) ∧
      ∀ ω : ℝ, ‖analogSystem f (ω * Complex.I)‖ ^ 2 = elliptic N k √((10 : ℝ) ^ (rp / 10) - 1) ω ∧
        ‖analogSystem f (ω * Complex.I)‖ ≤ 1 ∧
        ((10 : ℝ) ^ (-rp / 10) ≤ ‖analogSystem f (ω * Complex.I)‖ ^ 2 ↔ |ω| ≤ 1) ∧
        (‖analogSystem f (ω * Complex.I)‖ ^ 2 ≤ (10 : ℝ) ^ (-rs / 10) ↔ 1 / k ≤ |ω|) := by
  have hk := modK_mod hN hp hps
  have hd := modK_degree hN hp hps
  obtain ⟨l1, l2, l3, l4⟩ := proto_length hN hp hps
  have hpr := proto_prototype hN hp hps
  have hz : ∀ z ∈ (proto N rp rs).pairedZeros, z.re = 0 := by
    obtain ⟨f1, f2, -, -⟩ := v0_facts hN hp hps
    obtain ⟨-, s2, -⟩ := assemble_shape (ε := epsilon rp) hk hN f1 f2
    unfold proto
    rw [s2]
    intro p hp
    obtain ⟨i, hi, rfl⟩ := List.mem_map.1 hp
    rfl
  refine ⟨modK N rp rs, proto N rp rs, prototype_eq hN hp hps, hk, ?_, l1, l2, l3, l4, hpr.pairedPoles, hpr.lonePoles, hz, ?_⟩
  · intro k' hk'
    exact ⟨fun h => degree_unique hN hk' hk h hd, fun h => h ▸ hd⟩
  · intro ω
    rw [proto_power hN hp hps]
    obtain ⟨b1, b2, b3, b4, b5, b6⟩ := proto_bounds hN hp hps ω
    refine ⟨rfl, ?_, ⟨fun h => ?_, b1⟩, ⟨fun h => ?_, fun h => ?_⟩⟩
    · have := proto_power hN hp hps ω
      rw [← this] at b6
      nlinarith [norm_nonneg (analogSystem (proto N rp rs) (ω * Complex.I))]
    · by_contra hc
      exact absurd (b2 (not_le.1 hc)) (not_lt.2 h)
    · by_contra hc
      have : modK N rp rs * |ω| < 1 := by
        have := (lt_div_iff₀' hk.1).1 (not_le.1 hc)
        exact this
      exact absurd (b3 this) (not_lt.2 h)
    · apply b4
      rwa [div_le_iff₀' hk.1] at h

theorem ripples {cs : List (Verif.BiquadCascade.Stage ℝ)} {n N : ℕ} (hN : 1 ≤ N) {rp rs : ℝ} (hp : 0 < rp) (hps : rp < rs)
    {S : Set ℝ} {φ : ℝ → ℝ} {pass : ℝ → Prop}
    (h : Designed cs n S fun θ => elliptic N (modK N rp rs) (epsilon rp) (φ θ))
    (hpass : ∀ θ ∈ S, |φ θ| ≤ 1 ↔ pass θ) :
    PassRipple cs rp S pass ∧ StopRipple cs rs S (fun θ => modK N rp rs * |φ θ| < 1) := by
  constructor
  · intro θ hθ
    rw [h.power θ hθ, ← hpass θ hθ]
    obtain ⟨b1, b2, -, -, -, b6⟩ := proto_bounds hN hp hps (φ θ)
    exact ⟨fun h => ⟨b1 h, b6⟩, fun h => b2 (not_le.1 h)⟩
  · intro θ hθ
    rw [h.power θ hθ]
    obtain ⟨-, -, b3, b4, -, b6⟩ := proto_bounds hN hp hps (φ θ)
    exact ⟨fun h => ⟨b3 h, b6⟩, fun h => b4 (not_lt.1 h)⟩

theorem nyquist {N : ℕ} (hN : 1 ≤ N) {rp rs : ℝ} (hp : 0 < rp) (hps : rp < rs) {z : ℂ}
    (h : z = if (proto N rp rs).relativeDegree = 0 then ((proto N rp rs).gain : ℂ) else 0) :
    ‖z‖ ^ 2 = if N % 2 = 0 then (10 : ℝ) ^ (-rs / 10) else 0 := by
  rw [h, (proto_degree hN hp hps).1]
  split_ifs with ha hb hb
  · rw [Complex.norm_real, Real.norm_eq_abs, sq_abs, proto_gain_even hN hb hp hps]
  · omega
  · omega
  · simp

/-- **C97, partial.** Elliptic lowpass of every order up to 45000: with exact elliptic functions, `ceil(order / 2)` stable
stages with exactly the elliptic power response at the warped frequency; the gain is between `-rp` dB and 0 dB exactly up
to the corner frequency and at most `-rs` dB exactly where the warped frequency is at least `1/k`. At the Nyquist
frequency it is `-rs` dB for even orders and 0 for odd orders. Missing: larger orders and the error of the elliptic
functions of the code. -/
theorem C97_lowpass_partial {N : ℕ} (hN : 1 ≤ N) (h45 : N ≤ 45000) {rp rs rate corner : ℝ} (hp : 0 < rp) (hps : rp < rs)
    (hr : 0 < rate) (h0 : 0 < corner) (hc : corner < rate / 2) :
    ∃ k cs, lowpass exact N rp rs rate corner = .ok cs ∧ (0 < k ∧ k < 1) ∧
      DegreeEquation N k (√((10 : ℝ) ^ (rp / 10) - 1) / √((10 : ℝ) ^ (rs / 10) - 1)) ∧
      Designed cs ((N + 1) / 2) {θ | |θ| < Real.pi}
        (fun θ => elliptic N k √((10 : ℝ) ^ (rp / 10) - 1) (lowFreq corner rate θ)) ∧
      PassRipple cs rp {θ | |θ| < Real.pi} (fun θ => |θ| ≤ 2 * Real.pi * corner / rate) ∧
      StopRipple cs rs {θ | |θ| < Real.pi} (fun θ => k * |lowFreq corner rate θ| < 1) ∧
      ‖cascadeResponse cs Real.pi‖ ^ 2 = if N % 2 = 0 then (10 : ℝ) ^ (-rs / 10) else 0 := by
  obtain ⟨cs, e, h1, h2⟩ := designed_low (proto_regular hN h45 hp hps) (proto_power hN hp hps) hr h0 hc
  obtain ⟨l1, l2, -⟩ := proto_length hN hp hps
  rw [l1, l2, show N / 2 + N % 2 = (N + 1) / 2 by omega] at h1
  obtain ⟨r1, r2⟩ := ripples hN hp hps h1 fun θ hθ => (low_band h0 hc hθ).1
  refine ⟨modK N rp rs, cs, ?_, modK_mod hN hp hps, modK_degree hN hp hps, h1, r1, r2, nyquist hN hp hps h2⟩
  rw [lowpass, prototype_eq hN hp hps, designed]
  simp only [e]

/-- **C97, partial.** Elliptic highpass, likewise; at frequency 0 the gain is `-rs` dB for even orders and 0 for odd
orders. -/
theorem C97_highpass_partial {N : ℕ} (hN : 1 ≤ N) (h45 : N ≤ 45000) {rp rs rate corner : ℝ} (hp : 0 < rp) (hps : rp < rs)
    (hr : 0 < rate) (h0 : 0 < corner) (hc : corner < rate / 2) :
    ∃ k cs, highpass exact N rp rs rate corner = .ok cs ∧ (0 < k ∧ k < 1) ∧
      DegreeEquation N k (√((10 : ℝ) ^ (rp / 10) - 1) / √((10 : ℝ) ^ (rs / 10) - 1)) ∧
      Designed cs ((N + 1) / 2) {θ | |θ| < Real.pi ∧ θ ≠ 0}
        (fun θ => elliptic N k √((10 : ℝ) ^ (rp / 10) - 1) (highFreq corner rate θ)) ∧
      PassRipple cs rp {θ | |θ| < Real.pi ∧ θ ≠ 0} (fun θ => 2 * Real.pi * corner / rate ≤ |θ|) ∧
      StopRipple cs rs {θ | |θ| < Real.pi ∧ θ ≠ 0} (fun θ => k * |highFreq corner rate θ| < 1) ∧
      ‖cascadeResponse cs Real.pi‖ ^ 2 = elliptic N k √((10 : ℝ) ^ (rp / 10) - 1) 0 ∧
      ‖cascadeResponse cs 0‖ ^ 2 = if N % 2 = 0 then (10 : ℝ) ^ (-rs / 10) else 0 := by
  obtain ⟨cs, e, h1, h2, h3⟩ := designed_high (proto_regular hN h45 hp hps) (proto_power hN hp hps)
    (elliptic_even (modK_mod hN hp hps) hN _) hr h0 hc
  obtain ⟨l1, l2, -⟩ := proto_length hN hp hps
  rw [l1, l2, show N / 2 + N % 2 = (N + 1) / 2 by omega] at h1
  obtain ⟨r1, r2⟩ := ripples hN hp hps h1 fun θ hθ => (high_band h0 hc hθ).1
  refine ⟨modK N rp rs, cs, ?_, modK_mod hN hp hps, modK_degree hN hp hps, h1, r1, r2, h2, nyquist hN hp hps h3⟩
  rw [highpass, prototype_eq hN hp hps, designed]
  simp only [e]

/-- **C97, partial.** Elliptic bandpass: `order` stable stages with the elliptic response. Missing also: for odd orders,
wide bands (`BandClear` of the real pole of the prototype; see `C95_bandpass_violation`). -/
theorem C97_bandpass_partial {N : ℕ} (hN : 1 ≤ N) (h45 : N ≤ 45000) {rp rs rate low high : ℝ} (hp : 0 < rp) (hps : rp < rs)
    (hr : 0 < rate) (h0 : 0 < low) (hlh : low < high) (hh : high < rate / 2)
    (hodd : N % 2 = 1 → ∀ f, prototype exact N rp rs = .ok f → ∀ p ∈ f.lonePoles,
      BandClear (Real.tan (Real.pi * low / rate)) (Real.tan (Real.pi * high / rate))
        ((Real.tan (Real.pi * high / rate) - Real.tan (Real.pi * low / rate)) * p)) :
    ∃ k cs, bandpass exact N rp rs rate low high = .ok cs ∧ (0 < k ∧ k < 1) ∧
      DegreeEquation N k (√((10 : ℝ) ^ (rp / 10) - 1) / √((10 : ℝ) ^ (rs / 10) - 1)) ∧
      Designed cs N {θ | |θ| < Real.pi ∧ θ ≠ 0}
        (fun θ => elliptic N k √((10 : ℝ) ^ (rp / 10) - 1) (passFreq low high rate θ)) ∧
      PassRipple cs rp {θ | |θ| < Real.pi ∧ θ ≠ 0}
        (fun θ => 2 * Real.pi * low / rate ≤ |θ| ∧ |θ| ≤ 2 * Real.pi * high / rate) ∧
      StopRipple cs rs {θ | |θ| < Real.pi ∧ θ ≠ 0} (fun θ => k * |passFreq low high rate θ| < 1) := by
  obtain ⟨cs, e, h1⟩ := designed_pass (proto_regular hN h45 hp hps) (proto_power hN hp hps) hr h0 hlh hh
    (by
      intro p hp'
      have ho : N % 2 = 1 := by
        have h2 := (proto_length hN hp hps).2.1
        have := List.length_pos_of_mem hp'
        omega
      exact hodd ho _ (prototype_eq hN hp hps) p hp')
  rw [(proto_degree hN hp hps).2] at h1
  obtain ⟨r1, r2⟩ := ripples hN hp hps h1 fun θ hθ => (pass_band h0 hlh hh hθ).1
  refine ⟨modK N rp rs, cs, ?_, modK_mod hN hp hps, modK_degree hN hp hps, h1, r1, r2⟩
  rw [bandpass, prototype_eq hN hp hps, designed]
  simp only [e]

/-- **C97, partial.** Elliptic bandstop, likewise. -/
theorem C97_bandstop_partial {N : ℕ} (hN : 1 ≤ N) (h45 : N ≤ 45000) {rp rs rate low high : ℝ} (hp : 0 < rp) (hps : rp < rs)
    (hr : 0 < rate) (h0 : 0 < low) (hlh : low < high) (hh : high < rate / 2)
    (hodd : N % 2 = 1 → ∀ f, prototype exact N rp rs = .ok f → ∀ p ∈ f.lonePoles,
      BandClear (Real.tan (Real.pi * low / rate)) (Real.tan (Real.pi * high / rate))
        ((Real.tan (Real.pi * high / rate) - Real.tan (Real.pi * low / rate)) / p)) :
    ∃ k cs, bandstop exact N rp rs rate low high = .ok cs ∧ (0 < k ∧ k < 1) ∧
      DegreeEquation N k (√((10 : ℝ) ^ (rp / 10) - 1) / √((10 : ℝ) ^ (rs / 10) - 1)) ∧
      Designed cs N {θ | |θ| < Real.pi ∧ passFreq low high rate θ ≠ 0}
        (fun θ => elliptic N k √((10 : ℝ) ^ (rp / 10) - 1) (stopFreq low high rate θ)) ∧
      PassRipple cs rp {θ | |θ| < Real.pi ∧ passFreq low high rate θ ≠ 0}
        (fun θ => |θ| ≤ 2 * Real.pi * low / rate ∨ 2 * Real.pi * high / rate ≤ |θ|) ∧
      StopRipple cs rs {θ | |θ| < Real.pi ∧ passFreq low high rate θ ≠ 0} (fun θ => k * |stopFreq low high rate θ| < 1) ∧
      ‖cascadeResponse cs 0‖ ^ 2 = elliptic N k √((10 : ℝ) ^ (rp / 10) - 1) 0 := by
  obtain ⟨cs, e, h1, h2⟩ := designed_stop (proto_regular hN h45 hp hps) (proto_power hN hp hps)
    (elliptic_even (modK_mod hN hp hps) hN _) hr h0 hlh hh
    (by
      intro p hp'
      have ho : N % 2 = 1 := by
        have h2 := (proto_length hN hp hps).2.1
        have := List.length_pos_of_mem hp'
        omega
      exact hodd ho _ (prototype_eq hN hp hps) p hp')
  rw [(proto_degree hN hp hps).2] at h1
  obtain ⟨r1, r2⟩ := ripples hN hp hps h1 fun θ hθ => (stop_band h0 hlh hh hθ).1
  refine ⟨modK N rp rs, cs, ?_, modK_mod hN hp hps, modK_degree hN hp hps, h1, r1, r2, h2⟩
  rw [bandstop, prototype_eq hN hp hps, designed]
  simp only [e]

/-- The shape of the result for any implementation of the elliptic functions. -/
theorem assemble_length (o : Ops) (N : ℕ) (ε k Kk v : ℝ) :
    (assemble o N ε k Kk v).pairedPoles.length = N / 2 ∧ (assemble o N ε k Kk v).lonePoles.length = N % 2 ∧
    (assemble o N ε k Kk v).pairedZeros.length = N / 2 ∧ (assemble o N ε k Kk v).loneZeros = [] ∧
    0 ≤ (assemble o N ε k Kk v).gain := by
  have hg : ∀ f : PZ, 0 ≤ f.normalizeGain.gain := by
    intro f
    show 0 ≤ 1 / ‖_‖
    positivity
  have hl : (if N % 2 = 1 then [(Complex.I * jacobiSN o ⟨0, v * Kk⟩ (k ^ 2)).re] else []).length = N % 2 := by
    split_ifs with h
    · simp [h]
    · simp; omega
  have he : ∃ f : PZ, f.pairedPoles.length = N / 2 ∧ f.lonePoles.length = N % 2 ∧ f.pairedZeros.length = N / 2 ∧
      f.loneZeros = [] ∧ assemble o N ε k Kk v = if N % 2 = 0 then
        { f.normalizeGain with gain := f.normalizeGain.gain / √(1 + ε ^ 2) } else f.normalizeGain :=
    ⟨_, by simp, hl, by simp, rfl, rfl⟩
  obtain ⟨f, f1, f2, f3, f4, e⟩ := he
  rw [e]
  split_ifs
  · exact ⟨f1, f2, f3, f4, div_nonneg (hg f) (Real.sqrt_nonneg _)⟩
  · exact ⟨f1, f2, f3, f4, hg f⟩

/-- **C97.** Whatever the elliptic functions return (so with those of elliptic_functions.cc, rounding included): a
prototype has `order` poles and `order` zeros (`order - 1` if odd), all real or in conjugate pairs. -/
theorem C97_structure (o : Ops) {N : ℕ} {rp rs : ℝ} {f : PZ} (h : prototype o N rp rs = .ok f) :
    (1 ≤ N ∧ 0 < rp ∧ rp < rs) ∧ f.polesDegree = N ∧ f.zerosDegree = N - N % 2 ∧ f.lonePoles.length = N % 2 ∧
      f.loneZeros = [] ∧ 0 ≤ f.gain := by
  have h1 : 1 ≤ N ∧ 0 < rp ∧ rp < rs := by
    by_contra hc
    rw [(C97_outcome N rp rs).2 hc o] at h
    cases h
  refine ⟨h1, ?_⟩
  have h2 : ∃ ε k Kk v, f = assemble o N ε k Kk v := by
    unfold prototype at h
    split_ifs at h
    simp only [] at h
    split at h
    · split_ifs at h
      split at h
      · exact ⟨_, _, _, _, (Except.ok.inj h).symm⟩
      · cases h
    · cases h
  obtain ⟨ε, k, Kk, v, rfl⟩ := h2
  obtain ⟨l1, l2, l3, l4, l5⟩ := assemble_length o N ε k Kk v
  refine ⟨?_, ?_, l2, l4, l5⟩
  · unfold PZ.polesDegree
    rw [l1, l2]; omega
  · unfold PZ.zerosDegree
    rw [l3, l4]
    simp only [List.length_nil]
    omega

/-! ### Witnesses -/

/-- The first-order prototype: one pole `-1/ε`. -/
theorem proto_one {rp rs : ℝ} (hp : 0 < rp) (hps : rp < rs) : (proto 1 rp rs).lonePoles = [-(1 / epsilon rp)] := by
  have hk1 := selectivity hp hps
  obtain ⟨f1, f2, -, -⟩ := v0_facts le_rfl hp hps
  obtain ⟨-, -, -, s4, -⟩ := assemble_shape (ε := epsilon rp) (modK_mod le_rfl hp hps) le_rfl f1 f2
  unfold proto
  rw [s4, if_pos rfl]
  have hk : modK 1 rp rs = epsilon rp / epsilon rs := by
    rw [← modK_modulus le_rfl hp hps, Verif.Elliptic.modulus_one (modK_mod le_rfl hp hps)]
  have hK := Verif.Elliptic.K_pos hk1.par
  have hv : v0 1 rp rs * K ((epsilon rp / epsilon rs) ^ 2) =
      Verif.Elliptic.Spec.F (Real.arctan (1 / epsilon rp)) (1 - (epsilon rp / epsilon rs) ^ 2) := by
    rw [v0, Nat.cast_one, one_mul, div_mul_cancel₀ _ hK.ne']
  congr 1
  rw [hk, hv]
  generalize epsilon rp / epsilon rs = k at *
  have hz : Verif.Elliptic.zarg k 1 (1 / 2) = 0 := by simp [Verif.Elliptic.zarg]
  have e : (Complex.I * Verif.Elliptic.rootW k 1 (Verif.Elliptic.Spec.F (Real.arctan (1 / epsilon rp)) (1 - k ^ 2)) (1 / 2)).re
      = -(Verif.Elliptic.rootW k 1 (Verif.Elliptic.Spec.F (Real.arctan (1 / epsilon rp)) (1 - k ^ 2)) (1 / 2)).im := by simp
  have hc := (Real.cos_arctan_pos (1 / epsilon rp)).ne'
  rw [e, Verif.Elliptic.rootW, hz, Verif.Elliptic.Sn_im, Verif.Elliptic.cn_zero hk1.par, Verif.Elliptic.dn_zero hk1.par,
    Verif.Elliptic.Spec.denom]
  simp only [Verif.Elliptic.vert]
  rw [Verif.Elliptic.sn_zero hk1.par, Verif.Elliptic.Spec.sn, Verif.Elliptic.Spec.cn,
    Verif.Elliptic.am_F hk1.par.compl]
  have ht := Real.tan_arctan (1 / epsilon rp)
  rw [Real.tan_eq_sin_div_cos] at ht
  congr 1
  generalize 1 / epsilon rp = y at *
  generalize Real.sin (Real.arctan y) = a at *
  generalize Real.cos (Real.arctan y) = b at *
  rw [← ht]
  field_simp
  ring

/-- A real pole: the first-order filter with ripples of about 3 dB and 20 dB and the band from 1 kHz to 2 kHz at 6 kHz. -/
example : (∃ cs, bandpass exact 1 (10 * Real.logb 10 2) 20 6000 1000 2000 = .ok cs ∧ cs.length = 1) ∧
    ∃ cs, bandstop exact 1 (10 * Real.logb 10 2) 20 6000 1000 2000 = .ok cs ∧ cs.length = 1 := by
  have hp : 0 < 10 * Real.logb 10 2 := by
    have := Real.logb_pos (b := 10) (x := 2) (by norm_num) (by norm_num)
    positivity
  have hps : 10 * Real.logb 10 2 < 20 := by
    have : Real.logb 10 2 < 1 := by
      rw [← Real.logb_self_eq_one (b := 10) (by norm_num)]
      exact Real.logb_lt_logb (by norm_num) (by norm_num) (by norm_num)
    linarith
  have hε : epsilon (10 * Real.logb 10 2) = 1 := by
    rw [epsilon, mul_div_cancel_left₀ _ (by norm_num), Real.rpow_logb (by norm_num) (by norm_num) (by norm_num)]
    norm_num
  have hf : ∀ f, prototype exact 1 (10 * Real.logb 10 2) 20 = .ok f → ∀ p ∈ f.lonePoles, p = -1 := by
    intro f hf p hpf
    rw [prototype_eq le_rfl hp hps] at hf
    rw [← Except.ok.inj hf, proto_one hp hps, hε] at hpf
    simpa using hpf
  have hb : BandClear (Real.tan (Real.pi * 1000 / 6000)) (Real.tan (Real.pi * 2000 / 6000))
      (-(Real.tan (Real.pi * 2000 / 6000) - Real.tan (Real.pi * 1000 / 6000))) := by
    obtain ⟨e1, e2⟩ := Verif.IirDesign.band_example (rate := 6000) (by norm_num)
    obtain ⟨hs, hp⟩ := Verif.IirDesign.sqrt3
    rw [show (6000 : ℝ) / 6 = 1000 by norm_num] at e1
    rw [show (6000 : ℝ) / 3 = 2000 by norm_num] at e2
    rw [e1, e2]
    have e3 : √3 * (1 / √3) = 1 := by field_simp
    have e4 : 1 / √3 = √3 / 3 := by field_simp; linarith
    have hlt : √3 < 2 := by nlinarith
    refine ⟨?_, ?_⟩
    · rw [e3, e4]
      nlinarith
    · rw [e3, e4, lt_div_iff₀ (by linarith)]
      linarith
  constructor
  · obtain ⟨k, cs, e, -, -, h, -⟩ := C97_bandpass_partial (N := 1) (rp := 10 * Real.logb 10 2) (rs := 20) (rate := 6000)
      (low := 1000) (high := 2000) le_rfl (by norm_num) hp hps (by norm_num) (by norm_num) (by norm_num) (by norm_num)
      (fun _ f h1 p h2 => by rw [hf f h1 p h2, mul_neg_one]; exact hb)
    exact ⟨cs, e, h.count⟩
  · obtain ⟨k, cs, e, -, -, h, -⟩ := C97_bandstop_partial (N := 1) (rp := 10 * Real.logb 10 2) (rs := 20) (rate := 6000)
      (low := 1000) (high := 2000) le_rfl (by norm_num) hp hps (by norm_num) (by norm_num) (by norm_num) (by norm_num)
      (fun _ f h1 p h2 => by rw [hf f h1 p h2, div_neg, div_one]; exact hb)
    exact ⟨cs, e, h.count⟩

example : ∃ cs, lowpass exact 5 1 60 48000 1000 = .ok cs ∧ cs.length = 3 ∧ cascadeResponse cs Real.pi = 0 := by
  obtain ⟨k, cs, e, -, -, h, -, -, h2⟩ := C97_lowpass_partial (N := 5) (rp := 1) (rs := 60) (rate := 48000) (corner := 1000)
    (by norm_num) (by norm_num) (by norm_num) (by norm_num) (by norm_num) (by norm_num) (by norm_num)
  refine ⟨cs, e, h.count, ?_⟩
  rw [if_neg (by norm_num)] at h2
  exact norm_eq_zero.1 (pow_eq_zero_iff (by norm_num) |>.1 h2)

example : ∃ cs, highpass exact 4 1 40 48000 1000 = .ok cs ∧ cs.length = 2 ∧ ‖cascadeResponse cs 0‖ ^ 2 = 1 / 10 ^ 4 := by
  obtain ⟨k, cs, e, -, -, h, -, -, -, h2⟩ := C97_highpass_partial (N := 4) (rp := 1) (rs := 40) (rate := 48000)
    (corner := 1000) (by norm_num) (by norm_num) (by norm_num) (by norm_num) (by norm_num) (by norm_num) (by norm_num)
  refine ⟨cs, e, h.count, ?_⟩
  rw [h2, if_pos (by norm_num), show (-40 / 10 : ℝ) = ((-4 : ℤ) : ℝ) by norm_num, Real.rpow_intCast]
  norm_num

/-- Even orders need no condition on the band. -/
example : (∃ cs, bandpass exact 4 1 60 48000 20 20000 = .ok cs ∧ cs.length = 4) ∧
    ∃ cs, bandstop exact 4 1 60 48000 20 20000 = .ok cs ∧ cs.length = 4 := by
  constructor
  · obtain ⟨k, cs, e, -, -, h, -⟩ := C97_bandpass_partial (N := 4) (rp := 1) (rs := 60) (rate := 48000) (low := 20)
      (high := 20000) (by norm_num) (by norm_num) (by norm_num) (by norm_num) (by norm_num) (by norm_num) (by norm_num)
      (by norm_num) (by norm_num)
    exact ⟨cs, e, h.count⟩
  · obtain ⟨k, cs, e, -, -, h, -⟩ := C97_bandstop_partial (N := 4) (rp := 1) (rs := 60) (rate := 48000) (low := 20)
      (high := 20000) (by norm_num) (by norm_num) (by norm_num) (by norm_num) (by norm_num) (by norm_num) (by norm_num)
      (by norm_num) (by norm_num)
    exact ⟨cs, e, h.count⟩

/-- The passband ripple must be the smaller one. -/
example : prototype exact 4 40 40 = .error .abort := (C97_outcome 4 40 40).2 (by norm_num) exact

end Verif.EllipticDesign
