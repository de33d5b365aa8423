import Verif.Proof.IirElliptic3
import Verif.Theorems.EllipticDesign
import Verif.Theorems.IirDesignBand

/-!
# C98: the elliptic filter designs of the portable library

portable/iir_design.h:264-320 and iir_design.c:788-968.
-/

namespace Verif.IirElliptic
open Verif.PortableComplex Verif.IirDesign Verif.IirDesign.Spec Spec
open Verif.EllipticDesign (modK modK_mod modK_degree proto_bounds degree_unique)
open Verif.EllipticDesign.Spec (elliptic DegreeEquation)

/-- **C98.** With exact elliptic functions, for every order up to 30 and `0 < passband ripple < stopband ripple`, the analog
prototype is a real filter with `order` poles in the open left half plane and `order` zeros (`order - 1` if odd) on the
imaginary axis: those of the C++ design. Its power response is that of the elliptic filter whose modulus `k` is the only
solution of the degree equation: the gain is between `-rp` dB and 0 dB exactly up to the frequency 1, and at most
`-rs` dB exactly from the frequency `1/k`. -/
theorem C98_prototype {N : ℕ} (hN : 1 ≤ N) (h30 : N ≤ 30) {rp rs : ℝ} (hp : 0 < rp) (hps : rp < rs) (mem : Zpk) :
    ∃ k f, prototype exact N rp rs mem = .ok f ∧ (0 < k ∧ k < 1) ∧
      (∀ k', 0 < k' ∧ k' < 1 → (DegreeEquation N k' (√((10 : ℝ) ^ (rp / 10) - 1) / √((10 : ℝ) ^ (rs / 10) - 1)) ↔ k' = k)) ∧
      (poles f).length = N ∧ (zeros f).length = N - N % 2 ∧ RealFilter f ∧
      (∀ p ∈ poles f, p.re < 0) ∧ (∀ z ∈ zeros f, z.re = 0) ∧
      (∀ g, EllipticDesign.prototype EllipticDesign.Spec.exact N rp rs = .ok g →
        (zeros f).Perm (PoleZero.Spec.zeros g) ∧ (poles f).Perm (PoleZero.Spec.poles g)) ∧
      ∀ ω : ℝ, ‖system f (ω * Complex.I)‖ ^ 2 = elliptic N k √((10 : ℝ) ^ (rp / 10) - 1) ω ∧
        ‖system f (ω * Complex.I)‖ ≤ 1 ∧
        ((10 : ℝ) ^ (-rp / 10) ≤ ‖system f (ω * Complex.I)‖ ^ 2 ↔ |ω| ≤ 1) ∧
        (‖system f (ω * Complex.I)‖ ^ 2 ≤ (10 : ℝ) ^ (-rs / 10) ↔ 1 / k ≤ |ω|) := by
  obtain ⟨f, e, h, hz, pz, pp⟩ := elliptic_proto hN h30 hp hps mem
  have hk := modK_mod hN hp hps
  have hd := modK_degree hN hp hps
  refine ⟨modK N rp rs, f, e, hk, ?_, ?_, ?_, h.real, h.poles_left, fun z hz => (h.zeros_im z hz).1, ?_, ?_⟩
  · intro k' hk'
    exact ⟨fun h => degree_unique hN hk' hk h hd, fun h => h ▸ hd⟩
  · rw [poles, entries_length, h.count]
  · rw [zeros, entries_length, hz]
  · intro g hg
    rw [EllipticDesign.prototype_eq hN hp hps] at hg
    rw [← Except.ok.inj hg]
    exact ⟨pz, pp⟩
  · intro ω
    have hw := h.power ω
    rw [hw]
    obtain ⟨b1, b2, b3, b4, b5, b6⟩ := proto_bounds hN hp hps ω
    refine ⟨rfl, ?_, ⟨fun h => ?_, b1⟩, ⟨fun h => ?_, fun h => ?_⟩⟩
    · rw [← hw] at b6
      nlinarith [norm_nonneg (system f (ω * Complex.I))]
    · by_contra hc
      exact absurd (b2 (not_le.1 hc)) (not_lt.2 h)
    · by_contra hc
      exact absurd (b3 ((lt_div_iff₀' hk.1).1 (not_le.1 hc))) (not_lt.2 h)
    · apply b4
      rwa [div_le_iff₀' hk.1] at h

theorem ripples {cs : List Coeffs} {n N : ℕ} (hN : 1 ≤ N) {rp rs : ℝ} (hp : 0 < rp) (hps : rp < rs)
    {S : Set ℝ} {φ : ℝ → ℝ} {pass : ℝ → Prop}
    (h : Designed cs n S fun θ => elliptic N (modK N rp rs) (EllipticDesign.epsilon rp) (φ θ))
    (hpass : ∀ θ ∈ S, |φ θ| ≤ 1 ↔ pass θ) :
    PassRipple cs rp S pass ∧ StopRipple cs rs S (fun θ => modK N rp rs * |φ θ| < 1) := by
  constructor
  · intro θ hθ
    rw [h.power θ hθ, ← hpass θ hθ]
    obtain ⟨b1, b2, -, -, -, b6⟩ := proto_bounds hN hp hps (φ θ)
    exact ⟨fun h => ⟨b1 h, b6⟩, fun h => b2 (not_le.1 h)⟩
  · intro θ hθ
    rw [h.power θ hθ]
    obtain ⟨-, -, b3, b4, -, b6⟩ := proto_bounds hN hp hps (φ θ)
    exact ⟨fun h => ⟨b3 h, b6⟩, fun h => b4 (not_lt.1 h)⟩

/-- **C98, partial.** The elliptic lowpass of every order up to 30: with exact elliptic functions, `ceil(order / 2)` stable
biquads with exactly the elliptic power response at the warped frequency. The gain is between `-rp` dB and 0 dB exactly up
to the cutoff and at most `-rs` dB exactly where the warped frequency is at least `1/k`. Missing: passband ripples below
2·10⁻⁵ dB, stopband ripples above 120 dB, cutoffs within 10⁻⁹ of the ends, and the error of elliptic_fun.c. -/
theorem C98_lowpass_partial (q : QSort) (mem : Zpk) {N : ℕ} (hN : 1 ≤ N) (h30 : N ≤ 30) {rp rs : ℝ} (hp : 2 / 10 ^ 5 ≤ rp)
    (hps : rp < rs) (hs : rs ≤ 120) {cutoff rate : ℝ} (hr : 0 < rate) (hlo : rate / 10 ^ 9 ≤ cutoff)
    (hhi : cutoff ≤ rate / 2 - rate / 10 ^ 9) {maxB : ℤ} (hm : (((N + 1) / 2 : ℕ) : ℤ) ≤ maxB) :
    ∃ k cs, designLowpass exact q mem N rp rs cutoff rate false maxB = .ok cs ∧ (0 < k ∧ k < 1) ∧
      DegreeEquation N k (√((10 : ℝ) ^ (rp / 10) - 1) / √((10 : ℝ) ^ (rs / 10) - 1)) ∧
      Designed cs ((N + 1) / 2) {θ | |θ| < Real.pi}
        (fun θ => elliptic N k √((10 : ℝ) ^ (rp / 10) - 1) (lowFreq cutoff rate θ)) ∧
      PassRipple cs rp {θ | |θ| < Real.pi} (fun θ => |θ| ≤ 2 * Real.pi * cutoff / rate) ∧
      StopRipple cs rs {θ | |θ| < Real.pi} (fun θ => k * |lowFreq cutoff rate θ| < 1) := by
  have hp0 : 0 < rp := lt_of_lt_of_le (by norm_num) hp
  obtain ⟨f, e, h, -⟩ := elliptic_proto hN h30 hp0 hps mem
  obtain ⟨c0, c1, -⟩ := sep_cutoff hr hlo hhi
  obtain ⟨cs, e2, hd⟩ := lowpass_designed h hN q c0 c1 hm fun r hr' =>
    (low_clear h (fun r hr' => elliptic_sep hN h30 hp hps hs mem e hr') hr hlo hhi r hr').1
  obtain ⟨r1, r2⟩ := ripples hN hp0 hps hd fun θ hθ => (low_band c0 c1 hθ).1
  refine ⟨modK N rp rs, cs, ?_, modK_mod hN hp0 hps, modK_degree hN hp0 hps, hd, r1, r2⟩
  rw [designLowpass, e, withPrototype]
  simp only [e2]

/-- **C98, partial.** The elliptic highpass, likewise. -/
theorem C98_highpass_partial (q : QSort) (mem : Zpk) {N : ℕ} (hN : 1 ≤ N) (h30 : N ≤ 30) {rp rs : ℝ} (hp : 2 / 10 ^ 5 ≤ rp)
    (hps : rp < rs) (hs : rs ≤ 120) {cutoff rate : ℝ} (hr : 0 < rate) (hlo : rate / 10 ^ 9 ≤ cutoff)
    (hhi : cutoff ≤ rate / 2 - rate / 10 ^ 9) {maxB : ℤ} (hm : (((N + 1) / 2 : ℕ) : ℤ) ≤ maxB) :
    ∃ k cs, designHighpass exact q mem N rp rs cutoff rate false maxB = .ok cs ∧ (0 < k ∧ k < 1) ∧
      DegreeEquation N k (√((10 : ℝ) ^ (rp / 10) - 1) / √((10 : ℝ) ^ (rs / 10) - 1)) ∧
      Designed cs ((N + 1) / 2) {θ | |θ| < Real.pi ∧ θ ≠ 0}
        (fun θ => elliptic N k √((10 : ℝ) ^ (rp / 10) - 1) (highFreq cutoff rate θ)) ∧
      PassRipple cs rp {θ | |θ| < Real.pi ∧ θ ≠ 0} (fun θ => 2 * Real.pi * cutoff / rate ≤ |θ|) ∧
      StopRipple cs rs {θ | |θ| < Real.pi ∧ θ ≠ 0} (fun θ => k * |highFreq cutoff rate θ| < 1) := by
  have hp0 : 0 < rp := lt_of_lt_of_le (by norm_num) hp
  obtain ⟨f, e, h, -⟩ := elliptic_proto hN h30 hp0 hps mem
  obtain ⟨c0, c1, -⟩ := sep_cutoff hr hlo hhi
  obtain ⟨cs, e2, hd⟩ := highpass_designed h hN q c0 c1 hm fun r hr' =>
    (low_clear h (fun r hr' => elliptic_sep hN h30 hp hps hs mem e hr') hr hlo hhi r hr').2
  obtain ⟨r1, r2⟩ := ripples hN hp0 hps hd fun θ hθ => (high_band c0 c1 hθ).1
  refine ⟨modK N rp rs, cs, ?_, modK_mod hN hp0 hps, modK_degree hN hp0 hps, hd, r1, r2⟩
  rw [designHighpass, e, withPrototype]
  simp only [e2]

/-- **C98, partial.** The elliptic bandpass of every order up to 15: `order` stable biquads with the elliptic response. Missing
also: the orders 16 to 30 (`C98_bandpass_violation`), and for odd orders a sliver of bands (`RealClear`). -/
theorem C98_bandpass_partial (q : QSort) (mem : Zpk) {N : ℕ} (hN : 1 ≤ N) (h15 : N ≤ 15) {rp rs : ℝ} (hp : 2 / 10 ^ 5 ≤ rp)
    (hps : rp < rs) (hs : rs ≤ 120) {low high rate : ℝ} (hr : 0 < rate) (hlo : rate / 10 ^ 9 ≤ low)
    (hhi : high ≤ rate / 2 - rate / 10 ^ 9) (hbw : rate / 10 ^ 9 ≤ high - low) {maxB : ℤ} (hm : (N : ℤ) ≤ maxB)
    (hodd : N % 2 = 1 → ∀ f, prototype exact N rp rs mem = .ok f → ∀ p : ℝ, (p : ℂ) ∈ poles f → RealClear p low high rate) :
    ∃ k cs, designBandpass exact q mem N rp rs low high rate false maxB = .ok cs ∧ (0 < k ∧ k < 1) ∧
      DegreeEquation N k (√((10 : ℝ) ^ (rp / 10) - 1) / √((10 : ℝ) ^ (rs / 10) - 1)) ∧
      Designed cs N {θ | |θ| < Real.pi ∧ θ ≠ 0}
        (fun θ => elliptic N k √((10 : ℝ) ^ (rp / 10) - 1) (passFreq low high rate θ)) ∧
      PassRipple cs rp {θ | |θ| < Real.pi ∧ θ ≠ 0} (fun θ => 2 * Real.pi * low / rate ≤ |θ| ∧ |θ| ≤ 2 * Real.pi * high / rate) ∧
      StopRipple cs rs {θ | |θ| < Real.pi ∧ θ ≠ 0} (fun θ => k * |passFreq low high rate θ| < 1) := by
  have hp0 : 0 < rp := lt_of_lt_of_le (by norm_num) hp
  obtain ⟨f, e, h, -⟩ := elliptic_proto hN (by omega) hp0 hps mem
  obtain ⟨c0, c1, c2⟩ := margins hr hlo hhi hbw
  have hc' := pass_clear h (fun r hr' => elliptic_sep hN (by omega) hp hps hs mem e hr') hr hlo hhi hbw
    fun p hp' => hodd (elliptic_real hN (by omega) hp0 hps mem e hp') f e p hp'
  obtain ⟨cs, e2, hd⟩ := bandpass_designed h hN h15 q c0 c1 c2 hm hc'
  obtain ⟨r1, r2⟩ := ripples hN hp0 hps hd fun θ hθ => (pass_band c0 c1 c2 hθ).1
  refine ⟨modK N rp rs, cs, ?_, modK_mod hN hp0 hps, modK_degree hN hp0 hps, hd, r1, r2⟩
  rw [designBandpass, e, withPrototype]
  simp only [e2]

/-- **C98, partial.** The elliptic bandstop, likewise. -/
theorem C98_bandstop_partial (q : QSort) (mem : Zpk) {N : ℕ} (hN : 1 ≤ N) (h15 : N ≤ 15) {rp rs : ℝ} (hp : 2 / 10 ^ 5 ≤ rp)
    (hps : rp < rs) (hs : rs ≤ 120) {low high rate : ℝ} (hr : 0 < rate) (hlo : rate / 10 ^ 9 ≤ low)
    (hhi : high ≤ rate / 2 - rate / 10 ^ 9) (hbw : rate / 10 ^ 9 ≤ high - low) {maxB : ℤ} (hm : (N : ℤ) ≤ maxB)
    (hodd : N % 2 = 1 → ∀ f, prototype exact N rp rs mem = .ok f → ∀ p : ℝ, (p : ℂ) ∈ poles f → RealClear p⁻¹ low high rate) :
    ∃ k cs, designBandstop exact q mem N rp rs low high rate false maxB = .ok cs ∧ (0 < k ∧ k < 1) ∧
      DegreeEquation N k (√((10 : ℝ) ^ (rp / 10) - 1) / √((10 : ℝ) ^ (rs / 10) - 1)) ∧
      Designed cs N {θ | |θ| < Real.pi ∧ passFreq low high rate θ ≠ 0}
        (fun θ => elliptic N k √((10 : ℝ) ^ (rp / 10) - 1) (stopFreq low high rate θ)) ∧
      PassRipple cs rp {θ | |θ| < Real.pi ∧ passFreq low high rate θ ≠ 0} (fun θ => |θ| ≤ 2 * Real.pi * low / rate ∨ 2 * Real.pi * high / rate ≤ |θ|) ∧
      StopRipple cs rs {θ | |θ| < Real.pi ∧ passFreq low high rate θ ≠ 0} (fun θ => k * |stopFreq low high rate θ| < 1) := by
  have hp0 : 0 < rp := lt_of_lt_of_le (by norm_num) hp
  obtain ⟨f, e, h, -⟩ := elliptic_proto hN (by omega) hp0 hps mem
  obtain ⟨c0, c1, c2⟩ := margins hr hlo hhi hbw
  have hc' := stop_clear h (fun r hr' => elliptic_sep hN (by omega) hp hps hs mem e hr') hr hlo hhi hbw
    fun p hp' => hodd (elliptic_real hN (by omega) hp0 hps mem e hp') f e p hp'
  obtain ⟨cs, e2, hd⟩ := bandstop_designed h hN h15 q c0 c1 c2 hm hc'.1 hc'.2
  obtain ⟨r1, r2⟩ := ripples hN hp0 hps hd fun θ hθ => (stop_band c0 c1 c2 hθ).1
  refine ⟨modK N rp rs, cs, ?_, modK_mod hN hp0 hps, modK_degree hN hp0 hps, hd, r1, r2⟩
  rw [designBandstop, e, withPrototype]
  simp only [e2]

theorem proto_low (o : Ops) {order : ℤ} (h : order < 1) (rp rs : ℝ) (mem : Zpk) :
    prototype o order rp rs mem = .error .fail := by
  rw [prototype, if_pos h]

/-- **C98.** The lowpass and highpass designs return 0 for a wrong order, cutoff or output array. -/
theorem C98_failure (q : QSort) (mem : Zpk) {order : ℤ} (h30 : order ≤ 30) {rp rs : ℝ} (hp : 0 < rp) (hps : rp < rs)
    {cutoff rate : ℝ} {isNull : Bool} {maxB : ℤ}
    (h : order < 1 ∨ ¬ (0 ≤ cutoff ∧ cutoff < rate / 2) ∨ isNull = true ∨ maxB < (order + 1) / 2) :
    designLowpass exact q mem order rp rs cutoff rate isNull maxB = .error .fail ∧
    designHighpass exact q mem order rp rs cutoff rate isNull maxB = .error .fail := by
  by_cases h1 : order < 1
  · rw [designLowpass, designHighpass, proto_low exact h1]
    exact ⟨rfl, rfl⟩
  obtain ⟨n, rfl⟩ : ∃ n : ℕ, order = n := ⟨order.toNat, by omega⟩
  obtain ⟨f, e, hpr, -⟩ := elliptic_proto (N := n) (by omega) (by omega) hp hps mem
  have hc := hpr.count
  have h' : ¬ (0 ≤ cutoff ∧ cutoff < rate / 2) ∨ isNull = true ∨ maxB < (((f.numPoles + 1) / 2 : ℕ) : ℤ) := by
    rw [hc]
    push_cast
    exact h.resolve_left h1
  rw [designLowpass, designHighpass, e, withPrototype, withPrototype]
  simp only [lowpass_error q (show 1 ≤ f.numPoles by omega) h', highpass_error q (show 1 ≤ f.numPoles by omega) h', and_self]

/-- **C98.** So do the bandpass and bandstop designs, up to order 15. -/
theorem C98_band_failure (q : QSort) (mem : Zpk) {order : ℤ} (h15 : order ≤ 15) {rp rs : ℝ} (hp : 0 < rp) (hps : rp < rs)
    {low high rate : ℝ} {isNull : Bool} {maxB : ℤ}
    (h : order < 1 ∨ ¬ (0 ≤ low ∧ low ≤ high ∧ high < rate / 2) ∨ isNull = true ∨ maxB < order) :
    designBandpass exact q mem order rp rs low high rate isNull maxB = .error .fail ∧
    designBandstop exact q mem order rp rs low high rate isNull maxB = .error .fail := by
  by_cases h1 : order < 1
  · rw [designBandpass, designBandstop, proto_low exact h1]
    exact ⟨rfl, rfl⟩
  obtain ⟨n, rfl⟩ : ∃ n : ℕ, order = n := ⟨order.toNat, by omega⟩
  obtain ⟨f, e, hpr, -⟩ := elliptic_proto (N := n) (by omega) (by omega) hp hps mem
  have hc := hpr.count
  have hz := hpr.proper
  have h' : ¬ (0 ≤ low ∧ low ≤ high ∧ high < rate / 2) ∨ isNull = true ∨ maxB < f.numPoles := by
    rw [hc]
    exact h.resolve_left h1
  rw [designBandpass, designBandstop, e, withPrototype, withPrototype]
  simp only [bandpass_error q (show 1 ≤ f.numPoles by omega) (by omega) (by omega) h',
    bandstop_error q (show 1 ≤ f.numPoles by omega) (by omega) (by omega) h', and_self]

theorem assemble_structure (o : Ops) (n : ℕ) (ε k Kk v : ℝ) (mem : Zpk) :
    (poles (assemble o n ε k Kk v mem)).length = n ∧ (zeros (assemble o n ε k Kk v mem)).length = n - n % 2 ∧
    RealFilter (assemble o n ε k Kk v mem) ∧ ∀ z ∈ zeros (assemble o n ε k Kk v mem), z.re = 0 := by
  have hz : zeros (assemble o n ε k Kk v mem) =
      (List.range (n / 2)).flatMap fun i => [starRingEnd ℂ (zeroAt o n k Kk i).val, (zeroAt o n k Kk i).val] := by
    show entries (writeList mem.zeros (pairs n (zeroAt o n k Kk))) (n - n % 2) = _
    rw [entries_writeList _ (by rw [pairs_length]; omega), pairs_val (p := fun i => (zeroAt o n k Kk i).val) fun i _ => rfl]
  have hp : ∃ l : List ℝ, poles (assemble o n ε k Kk v mem) = l.map Complex.ofReal ++
      (List.range (n / 2)).flatMap fun i => [starRingEnd ℂ (poleAt o n k Kk v i).val, (poleAt o n k Kk v i).val] := by
    refine ⟨if n % 2 = 1 then [-(jacobiSN o ⟨0, v * Kk⟩ (k * k)).imag] else [], ?_⟩
    show entries (writeList mem.poles ((if n % 2 = 1 then [(⟨-(jacobiSN o ⟨0, v * Kk⟩ (k * k)).imag, 0⟩ : CD)] else [])
      ++ pairs n (poleAt o n k Kk v))) n = _
    rw [entries_writeList, List.map_append, pairs_val (p := fun i => (poleAt o n k Kk v i).val) fun i _ => rfl]
    · congr 1
      split_ifs
      · rfl
      · rfl
    · rw [List.length_append, pairs_length]
      split_ifs
      · simp; omega
      · simp; omega
  obtain ⟨l, hp⟩ := hp
  refine ⟨by rw [poles, entries_length]; rfl, by rw [zeros, entries_length]; rfl, ⟨?_, ?_⟩, ?_⟩
  · rw [hz]
    exact pairs_closed _ _
  · rw [hp, List.map_append]
    refine List.Perm.append (List.Perm.of_eq ?_) (pairs_closed _ _)
    rw [List.map_map]
    apply List.map_congr_left
    intro x _
    exact Complex.conj_ofReal x
  · intro z h
    rw [hz] at h
    obtain ⟨i, -, h | h⟩ := pairs_mem h
    · rw [h, Complex.conj_re]; rfl
    · rw [h]; rfl

/-- **C98.** Whatever the elliptic functions return (so with those of elliptic_fun.c, rounding included): a prototype is a
real filter with `order` poles and `order` zeros (`order - 1` if odd), all zeros on the imaginary axis. -/
theorem C98_structure (o : Ops) {order : ℤ} {rp rs : ℝ} {mem f : Zpk} (h : prototype o order rp rs mem = .ok f) :
    (1 ≤ order ∧ order ≤ 30) ∧ ((poles f).length : ℤ) = order ∧ ((zeros f).length : ℤ) = order - order % 2 ∧ RealFilter f ∧
      ∀ z ∈ zeros f, z.re = 0 := by
  unfold prototype at h
  by_cases h1 : order < 1
  · rw [if_pos h1] at h
    cases h
  rw [if_neg h1] at h
  dsimp only at h
  by_cases h2 : order.toNat > maxDegree
  · rw [if_pos h2] at h
    cases h
  rw [if_neg h2] at h
  have h3 : ∃ ε k Kk v, f = assemble o order.toNat ε k Kk v mem := by
    split_ifs at h
    split at h
    · split_ifs at h
      split at h
      · exact ⟨_, _, _, _, (Except.ok.inj h).symm⟩
      · cases h
    · cases h
  obtain ⟨ε, k, Kk, v, rfl⟩ := h3
  obtain ⟨s1, s2, s3, s4⟩ := assemble_structure o order.toNat ε k Kk v mem
  unfold maxDegree at h2
  exact ⟨⟨by omega, by omega⟩, by rw [s1]; omega, by rw [s2]; omega, s3, s4⟩

/-- **C98, violated.** An order above 30 is not rejected: the poles are written past the end of the array. -/
theorem C98_order_violation (o : Ops) (q : QSort) (mem : Zpk) {order : ℤ} (h : 30 < order) (rp rs low high rate : ℝ)
    (isNull : Bool) (maxB : ℤ) :
    designLowpass o q mem order rp rs low rate isNull maxB = .error .ub ∧
    designHighpass o q mem order rp rs low rate isNull maxB = .error .ub ∧
    designBandpass o q mem order rp rs low high rate isNull maxB = .error .ub ∧
    designBandstop o q mem order rp rs low high rate isNull maxB = .error .ub := by
  have e : prototype o order rp rs mem = .error .ub := by
    rw [prototype, if_neg (by omega)]
    dsimp only
    rw [if_pos (by unfold maxDegree; omega)]
  rw [designLowpass, designHighpass, designBandpass, designBandstop, e]
  exact ⟨rfl, rfl, rfl, rfl⟩

/-- **C98, violated.** The header says that the two ripples are independently adjustable; if the passband ripple is not
below the stopband ripple, or not positive, no prototype exists: its roots are NaN, and no error is reported. -/
theorem C98_ripple_violation (mem : Zpk) {order : ℤ} (h1 : 1 ≤ order) (h30 : order ≤ 30) {rp rs : ℝ} (h : ¬ (0 < rp ∧ rp < rs)) :
    prototype exact order rp rs mem = .error .nan := by
  rw [prototype, if_neg (by omega)]
  dsimp only
  rw [if_neg (by unfold maxDegree; omega)]
  by_cases h0 : ¬ 0 < rp ∨ ¬ 0 < rs
  · rw [if_pos h0]
  rw [if_neg h0]
  push Not at h0
  have hle : rs ≤ rp := by
    by_contra hc
    exact h ⟨h0.1, not_le.1 hc⟩
  obtain ⟨a1, a2⟩ := EllipticDesign.epsilon_pos h0.1
  obtain ⟨b1, b2⟩ := EllipticDesign.epsilon_pos h0.2
  rw [epsilon_same, epsilon_same]
  have hpow : (10 : ℝ) ^ (rs / 10) ≤ (10 : ℝ) ^ (rp / 10) :=
    Real.rpow_le_rpow_of_exponent_le (by norm_num) (by linarith)
  have hge : EllipticDesign.epsilon rs ≤ EllipticDesign.epsilon rp := le_of_sq_le_sq (by linarith) a1.le
  have h2 : 1 ≤ EllipticDesign.epsilon rp / EllipticDesign.epsilon rs := (one_le_div b1).2 hge
  generalize EllipticDesign.epsilon rp / EllipticDesign.epsilon rs = k1 at *
  split_ifs with h3
  · rfl
  · have h4 : ¬ (0 ≤ k1 * k1 ∧ k1 * k1 < 1) := by
      intro h5
      nlinarith
    have h5 : exact.K (k1 * k1) = none := if_neg h4
    rw [h5]

/-- **C98, violated.** A bandpass of an order from 16 to 30 reports success with `ceil(order / 2)` biquads and the gain of
the passband at frequency 0, which is in the stopband. -/
theorem C98_bandpass_violation (q : QSort) (mem : Zpk) {n : ℕ} (h16 : 16 ≤ n) (h30 : n ≤ 30) {rp rs : ℝ}
    (hp : 2 / 10 ^ 5 ≤ rp) (hps : rp < rs) (hs : rs ≤ 120) {rate : ℝ} (hr : 0 < rate) {maxB : ℤ}
    (hm : (((n + 1) / 2 : ℕ) : ℤ) ≤ maxB) :
    ∃ cs, designBandpass exact q mem n rp rs (rate / 6) (rate / 3) rate false maxB = .ok cs ∧
      cs.length = (n + 1) / 2 ∧ (10 : ℝ) ^ (-rp / 10) ≤ ‖response cs 0‖ ^ 2 := by
  have hp0 : 0 < rp := lt_of_lt_of_le (by norm_num) hp
  obtain ⟨f, e, h, -⟩ := elliptic_proto (N := n) (by omega) h30 hp0 hps mem
  obtain ⟨cs, e2, h3, h4⟩ := bandpass_wrong h h16 q (low := rate / 6) (high := rate / 3) (by linarith) (by linarith)
    (by linarith) hm (σ := 1 / 45000) (by norm_num) (fun r hr' => elliptic_sep (by omega) h30 hp hps hs mem e hr')
    (band_bound hr le_rfl)
  refine ⟨cs, ?_, h3, ?_⟩
  · rw [designBandpass, e, withPrototype]
    simp only [e2]
  · rw [h4]
    obtain ⟨b1, -, -, -, b5, -⟩ := proto_bounds (N := n) (by omega) hp0 hps 0
    have h6 : (1 : ℝ) ≤ (2 ^ (n - f.numZeros)) ^ 2 := one_le_pow₀ (one_le_pow₀ (by norm_num))
    have h7 := b1 (by norm_num)
    nlinarith

/-! ### Witnesses -/

example : ∃ k cs, designLowpass exact mergeSort onePole 5 1 60 1000 48000 false 3 = .ok cs ∧ cs.length = 3 ∧
    StopRipple cs 60 {θ | |θ| < Real.pi} (fun θ => k * |lowFreq 1000 48000 θ| < 1) := by
  obtain ⟨k, cs, e, -, -, h, -, h2⟩ := C98_lowpass_partial mergeSort onePole (N := 5) (rp := 1) (rs := 60)
    (cutoff := 1000) (rate := 48000) (maxB := 3) (by norm_num) (by norm_num) (by norm_num) (by norm_num) (by norm_num)
    (by norm_num) (by norm_num) (by norm_num) (by norm_num)
  exact ⟨k, cs, e, h.count, h2⟩

example : ∃ cs, designHighpass exact mergeSort onePole 4 1 40 1000 48000 false 2 = .ok cs ∧ cs.length = 2 := by
  obtain ⟨k, cs, e, -, -, h, -⟩ := C98_highpass_partial mergeSort onePole (N := 4) (rp := 1) (rs := 40)
    (cutoff := 1000) (rate := 48000) (maxB := 2) (by norm_num) (by norm_num) (by norm_num) (by norm_num) (by norm_num)
    (by norm_num) (by norm_num) (by norm_num) (by norm_num)
  exact ⟨cs, e, h.count⟩

example : (∃ cs, designBandpass exact mergeSort onePole 4 1 40 20 20000 48000 false 4 = .ok cs ∧ cs.length = 4) ∧
    ∃ cs, designBandstop exact mergeSort onePole 4 1 40 20 20000 48000 false 4 = .ok cs ∧ cs.length = 4 := by
  constructor
  · obtain ⟨k, cs, e, -, -, h, -⟩ := C98_bandpass_partial mergeSort onePole (N := 4) (rp := 1) (rs := 40)
      (low := 20) (high := 20000) (rate := 48000) (maxB := 4) (by norm_num) (by norm_num) (by norm_num) (by norm_num)
      (by norm_num) (by norm_num) (by norm_num) (by norm_num) (by norm_num) (by norm_num) (by norm_num)
    exact ⟨cs, e, h.count⟩
  · obtain ⟨k, cs, e, -, -, h, -⟩ := C98_bandstop_partial mergeSort onePole (N := 4) (rp := 1) (rs := 40)
      (low := 20) (high := 20000) (rate := 48000) (maxB := 4) (by norm_num) (by norm_num) (by norm_num) (by norm_num)
      (by norm_num) (by norm_num) (by norm_num) (by norm_num) (by norm_num) (by norm_num) (by norm_num)
    exact ⟨cs, e, h.count⟩

/-- A real pole: the first-order filter with ripples of about 3 dB and 20 dB and the band from 1 kHz to 2 kHz at 6 kHz. -/
example : ∃ cs, designBandpass exact mergeSort onePole 1 (10 * Real.logb 10 2) 20 1000 2000 6000 false 1 = .ok cs ∧
    cs.length = 1 := by
  have hl0 : (1 / 5 : ℝ) ≤ Real.logb 10 2 := by
    rw [Real.le_logb_iff_rpow_le (by norm_num) (by norm_num)]
    have : (10 : ℝ) ^ (1 / 5 : ℝ) ≤ (32 : ℝ) ^ (1 / 5 : ℝ) := Real.rpow_le_rpow (by norm_num) (by norm_num) (by norm_num)
    refine this.trans (le_of_eq ?_)
    rw [show (32 : ℝ) = 2 ^ ((5 : ℕ) : ℝ) by norm_num, ← Real.rpow_mul (by norm_num)]
    norm_num
  have hl1 : Real.logb 10 2 < 1 := by
    rw [← Real.logb_self_eq_one (b := 10) (by norm_num)]
    exact Real.logb_lt_logb (by norm_num) (by norm_num) (by norm_num)
  have hp : 0 < 10 * Real.logb 10 2 := by linarith
  have hps : 10 * Real.logb 10 2 < 20 := by linarith
  have hε : EllipticDesign.epsilon (10 * Real.logb 10 2) = 1 := by
    rw [EllipticDesign.epsilon, mul_div_cancel_left₀ _ (by norm_num), Real.rpow_logb (by norm_num) (by norm_num) (by norm_num)]
    norm_num
  obtain ⟨k, cs, e, -, -, h, -⟩ := C98_bandpass_partial mergeSort onePole (N := 1) (rp := 10 * Real.logb 10 2) (rs := 20)
    (low := 1000) (high := 2000) (rate := 6000) (maxB := 1) (by norm_num) (by norm_num) (by linarith) hps (by norm_num)
    (by norm_num) (by norm_num) (by norm_num) (by norm_num) (by norm_num) (fun _ f hf p hpf => by
      obtain ⟨f', e', -, -, -, pp⟩ := elliptic_proto (N := 1) (by norm_num) (by norm_num) hp hps onePole
      obtain rfl : f' = f := Except.ok.inj (e'.symm.trans hf)
      have hm := pp.mem_iff.1 hpf
      have hl := (EllipticDesign.proto_length (N := 1) (by norm_num) hp hps).1
      rw [PoleZero.Spec.poles, EllipticDesign.proto_one hp hps, List.length_eq_zero_iff.1 hl, hε] at hm
      have h1 : p = -1 := by
        have : (p : ℂ) = ((-1 : ℝ) : ℂ) := by simpa using hm
        exact Complex.ofReal_injective this
      rw [h1]
      have := realClear_example (rate := 6000) (p := -1) (by norm_num) (by norm_num)
      rwa [show (6000 : ℝ) / 6 = 1000 by norm_num, show (6000 : ℝ) / 3 = 2000 by norm_num] at this)
  exact ⟨cs, e, h.count⟩

/-- Equal ripples. -/
example : prototype exact 4 40 40 onePole = .error .nan := C98_ripple_violation onePole (by norm_num) (by norm_num) (by norm_num)

/-- A result for the hypothesis of `C98_structure`. -/
example : ∃ f, prototype exact 4 1 40 onePole = .ok f :=
  let ⟨_, f, e, _⟩ := C98_prototype (N := 4) (by norm_num) (by norm_num) (rp := 1) (rs := 40) (by norm_num) (by norm_num) onePole
  ⟨f, e⟩

end Verif.IirElliptic
