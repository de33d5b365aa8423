import Verif.Proof.IirDesign

/-!
# Bandpass and bandstop: `ShiftFromBaseband`
-/

namespace Verif.IirDesign
open Verif.PortableComplex Spec
open scoped ComplexConjugate

theorem shiftLoop_eq (c : ℝ) (n : ℕ) (roots : ℕ → CD) (j : ℕ) :
    shiftLoop c n roots j =
      if j < 2 * n then
        (if j % 2 = 0 then sub (roots (j / 2)) (shiftSqrt c (roots (j / 2)))
          else add (roots (j / 2)) (shiftSqrt c (roots (j / 2))))
      else roots j := by
  induction n generalizing roots with
  | zero => simp [shiftLoop]
  | succ n ih =>
    rw [shiftLoop]
    rw [ih]
    by_cases h1 : j < 2 * n
    · have h2 : j / 2 ≠ 2 * n + 1 := by omega
      have h3 : j / 2 ≠ 2 * n := by omega
      rw [if_pos h1, if_pos (by omega : j < 2 * (n + 1)), Function.update_of_ne h2, Function.update_of_ne h3]
    · rw [if_neg h1]
      by_cases h2 : j = 2 * n + 1
      · subst h2
        rw [Function.update_self, if_pos (by omega), if_neg (by omega)]
        have : (2 * n + 1) / 2 = n := by omega
        rw [this]
      · rw [Function.update_of_ne h2]
        by_cases h3 : j = 2 * n
        · subst h3
          rw [Function.update_self, if_pos (by omega), if_pos (by omega)]
          have : 2 * n / 2 = n := by omega
          rw [this]
        · rw [Function.update_of_ne h3, if_neg (by omega)]

/-- The square root that is taken. -/
noncomputable def sq (c : ℝ) (r : ℂ) : ℂ := (shiftSqrt c ⟨r.re, r.im⟩).val

theorem sq_val (c : ℝ) (r : CD) : (shiftSqrt c r).val = sq c r.val := rfl

theorem sq_sq (c : ℝ) (r : ℂ) : sq c r ^ 2 = r ^ 2 - c := by
  unfold sq shiftSqrt
  rw [(sqrt_spec _).1]
  apply Complex.ext
  · simp [CD.val, pow_two]
  · simp [CD.val, pow_two]; ring

/-- The two roots that a root becomes. -/
noncomputable def two (c : ℝ) (r : ℂ) : List ℂ := [r - sq c r, r + sq c r]

theorem entries_succ (a : ℕ → CD) (n : ℕ) : entries a (n + 1) = entries a n ++ [(a n).val] := by
  simp [entries, List.range_succ]

theorem entries_two (a : ℕ → CD) (c : ℝ) (b : ℕ → CD) (n : ℕ)
    (h : ∀ i < n, b (2 * i) = sub (a i) (shiftSqrt c (a i)) ∧ b (2 * i + 1) = add (a i) (shiftSqrt c (a i))) :
    entries b (2 * n) = (entries a n).flatMap (two c) := by
  induction n with
  | zero => rfl
  | succ n ih =>
    have h1 := h n (by omega)
    rw [show 2 * (n + 1) = 2 * n + 1 + 1 by ring, entries_succ, entries_succ, ih fun i hi => h i (by omega),
      entries_succ, List.flatMap_append, h1.1, h1.2]
    have e1 := (C49_ring (a n) (shiftSqrt c (a n)) 0).2.2.2.1
    have e2 := (C49_ring (a n) (shiftSqrt c (a n)) 0).2.2.1
    rw [e1, e2, sq_val]
    simp [two]

theorem shiftLoop_entries (c : ℝ) (n : ℕ) (roots : ℕ → CD) :
    entries (shiftLoop c n roots) (2 * n) = (entries roots n).flatMap (two c) := by
  apply entries_two
  intro i hi
  rw [shiftLoop_eq, shiftLoop_eq, if_pos (by omega), if_pos (by omega), if_pos (by omega), if_neg (by omega)]
  have e1 : 2 * i / 2 = i := by omega
  have e2 : (2 * i + 1) / 2 = i := by omega
  rw [e1, e2]
  exact ⟨rfl, rfl⟩

theorem two_root {c : ℝ} {r s : ℂ} (h : s ∈ two c r) : s ^ 2 - 2 * r * s + c = 0 := by
  have h1 := sq_sq c r
  rcases List.mem_cons.1 h with rfl | h
  · linear_combination h1
  · rw [List.mem_singleton.1 h]
    linear_combination h1

theorem ps_two (c : ℝ) (L : List ℂ) {s : ℂ} (hs : s ≠ 0) :
    ps (L.flatMap (two c)) s = (2 * s) ^ L.length * ps L ((s ^ 2 + c) / (2 * s)) := by
  induction L with
  | nil => simp
  | cons r L ih =>
    rw [List.flatMap_cons, ps_append, ih, List.length_cons, ps_cons, pow_succ]
    have h1 := sq_sq c r
    have : ps (two c r) s = 2 * s * ((s ^ 2 + c) / (2 * s) - r) := by
      rw [two, ps_cons, ps_cons, ps_nil]
      field_simp
      linear_combination -h1
    rw [this]
    ring

theorem two_conj (c : ℝ) (r : ℂ) : ((two c r).map conj).Perm (two c (conj r)) := by
  have h1 : conj (sq c r) ^ 2 = sq c (conj r) ^ 2 := by
    rw [sq_sq, ← map_pow, sq_sq]
    simp
  unfold two
  rw [List.map_cons, List.map_cons, List.map_nil, map_sub, map_add]
  rcases sq_eq_sq_iff_eq_or_eq_neg.1 h1 with h | h
  · rw [h]
  · rw [h, sub_neg_eq_add, ← sub_eq_add_neg]
    exact List.Perm.swap _ _ _

theorem flatMap_conj (c : ℝ) {L : List ℂ} (h : (L.map conj).Perm L) :
    ((L.flatMap (two c)).map conj).Perm (L.flatMap (two c)) := by
  have h1 : ((L.flatMap (two c)).map conj).Perm (L.flatMap fun r => two c (conj r)) := by
    rw [List.map_flatMap]
    exact List.Perm.flatMap_left _ fun r _ => two_conj c r
  refine h1.trans ?_
  have h2 : (L.flatMap fun r => two c (conj r)) = (L.map conj).flatMap (two c) := by
    rw [List.flatMap_map]
  rw [h2]
  exact h.flatMap_right _

/-- `ShiftFromBaseband` for at most 15 zeros and poles. -/
theorem shift_spec (f : Zpk) (center : ℝ) (h1 : f.numZeros ≤ f.numPoles) (h2 : f.numPoles ≤ 15) :
    (shiftFromBaseband f center).2 = true ∧
    zeros (shiftFromBaseband f center).1 =
      (zeros f).flatMap (two (center * center)) ++ List.replicate (f.numPoles - f.numZeros) 0 ∧
    poles (shiftFromBaseband f center).1 = (poles f).flatMap (two (center * center)) ∧
    (shiftFromBaseband f center).1.numZeros = f.numPoles + f.numZeros ∧
    (shiftFromBaseband f center).1.numPoles = 2 * f.numPoles ∧
    (shiftFromBaseband f center).1.gain = f.gain := by
  unfold shiftFromBaseband
  have hc : ¬ (2 * f.numZeros > maxDegree ∨ 2 * f.numPoles > maxDegree) := by
    unfold maxDegree
    omega
  rw [if_neg hc]
  refine ⟨rfl, ?_, shiftLoop_entries _ _ _, ?_, rfl, rfl⟩
  · show entries (mapRange _ _ _ _) _ = _
    rw [entries_fill _ (by omega), shiftLoop_entries, Nat.add_sub_cancel_left]
    rfl
  · dsimp only
    omega

theorem shift_fails (f : Zpk) (center : ℝ) (h : 15 < f.numZeros ∨ 15 < f.numPoles) :
    shiftFromBaseband f center = (f, false) := by
  unfold shiftFromBaseband
  rw [if_pos]
  unfold maxDegree
  omega

theorem shift_system (f : Zpk) (center : ℝ) (h1 : f.numZeros ≤ f.numPoles) (h2 : f.numPoles ≤ 15) {s : ℂ}
    (hs : s ≠ 0) : system (shiftFromBaseband f center).1 s * 2 ^ (f.numPoles - f.numZeros)
      = system f ((s ^ 2 + (center : ℂ) * center) / (2 * s)) := by
  obtain ⟨-, e1, e2, -, -, e5⟩ := shift_spec f center h1 h2
  have l1 : (zeros f).length = f.numZeros := entries_length _ _
  have l2 : (poles f).length = f.numPoles := entries_length _ _
  rw [system_eq, system_eq, e1, e2, e5, ps_append, ps_two _ _ hs, ps_two _ _ hs, ps_replicate, l1, l2, sub_zero,
    Complex.ofReal_mul]
  have e : (2 * s) ^ f.numPoles = (2 * s) ^ f.numZeros * (s ^ (f.numPoles - f.numZeros) * 2 ^ (f.numPoles - f.numZeros)) := by
    rw [mul_comm (s ^ _), ← mul_pow, ← pow_add]
    congr 1
    omega
  rw [e]
  have q1 : (2 * s) ^ f.numZeros ≠ 0 := pow_ne_zero _ (mul_ne_zero two_ne_zero hs)
  have q2 : s ^ (f.numPoles - f.numZeros) ≠ 0 := pow_ne_zero _ hs
  have q3 : (2 : ℂ) ^ (f.numPoles - f.numZeros) ≠ 0 := pow_ne_zero _ two_ne_zero
  by_cases h0 : ps (poles f) ((s ^ 2 + (center : ℂ) * center) / (2 * s)) = 0
  · rw [h0]; simp
  field_simp

theorem shift_real {f : Zpk} (center : ℝ) (hf : RealFilter f) (h1 : f.numZeros ≤ f.numPoles) (h2 : f.numPoles ≤ 15) :
    RealFilter (shiftFromBaseband f center).1 := by
  obtain ⟨-, e1, e2, -, -, -⟩ := shift_spec f center h1 h2
  constructor
  · rw [e1, List.map_append, replicate_conj _ (by simp)]
    exact (flatMap_conj _ hf.1).append (List.Perm.refl _)
  · rw [e2]
    exact flatMap_conj _ hf.2

/-- The filter of the first step of the bandpass. -/
noncomputable def halfBand (f : Zpk) (b : ℝ) : Zpk :=
  { toLowpass f (b / 2) with gain := (toLowpass f (b / 2)).gain * 2 ^ ((f.numPoles : ℤ) - f.numZeros) }

theorem toBandpass_eq (f : Zpk) (low high : ℝ) :
    toBandpass f low high = shiftFromBaseband (halfBand f (high - low)) √(low * high) := rfl

theorem halfBand_system (f : Zpk) {b : ℝ} (hb : b ≠ 0) (h1 : f.numZeros ≤ f.numPoles) (s : ℂ) :
    system (halfBand f b) s = 2 ^ (f.numPoles - f.numZeros) * system f (2 * s / b) := by
  have e : system (halfBand f b) s = 2 ^ (f.numPoles - f.numZeros) * system (toLowpass f (b / 2)) s := by
    have hz : zeros (halfBand f b) = zeros (toLowpass f (b / 2)) := rfl
    have hp : poles (halfBand f b) = poles (toLowpass f (b / 2)) := rfl
    have hg : ((halfBand f b).gain : ℂ) = (toLowpass f (b / 2)).gain * 2 ^ (f.numPoles - f.numZeros) := by
      show (((toLowpass f (b / 2)).gain * 2 ^ ((f.numPoles : ℤ) - f.numZeros) : ℝ) : ℂ) = _
      have : ((f.numPoles : ℤ) - f.numZeros) = ((f.numPoles - f.numZeros : ℕ) : ℤ) := by omega
      rw [this, zpow_natCast]
      push_cast
      rfl
    rw [system_eq, system_eq, hz, hp, hg]
    ring
  rw [e, toLowpass_system f (by simpa using hb)]
  congr 2
  push_cast
  have : (b : ℂ) ≠ 0 := by exact_mod_cast hb
  field_simp

theorem toBandpass_spec {f : Zpk} {low high : ℝ} (hl : 0 < low) (hh : low < high) (hf : RealFilter f)
    (h1 : f.numZeros ≤ f.numPoles) (h2 : f.numPoles ≤ 15) :
    (toBandpass f low high).2 = true ∧ RealFilter (toBandpass f low high).1 ∧
    (toBandpass f low high).1.numPoles = 2 * f.numPoles ∧
    (toBandpass f low high).1.numZeros = f.numPoles + f.numZeros ∧
    (∀ p ∈ poles (toBandpass f low high).1, ∃ q ∈ poles f, p ^ 2 - q * ((high : ℂ) - low) * p + low * high = 0) ∧
    (∀ p ∈ zeros (toBandpass f low high).1, p = 0 ∨
      ∃ q ∈ zeros f, p ^ 2 - q * ((high : ℂ) - low) * p + low * high = 0) ∧
    ∀ s : ℂ, s ≠ 0 → system (toBandpass f low high).1 s = system f ((s ^ 2 + low * high) / (s * ((high : ℂ) - low))) := by
  have hc : ((√(low * high) * √(low * high) : ℝ)) = low * high := Real.mul_self_sqrt (by nlinarith)
  have hb : high - low ≠ 0 := by linarith
  have hb' : (high : ℂ) - low ≠ 0 := by
    have : ((high - low : ℝ) : ℂ) ≠ 0 := by exact_mod_cast hb
    simpa using this
  have hr : RealFilter (halfBand f (high - low)) := toLowpass_real _ hf
  have g1 : (halfBand f (high - low)).numZeros = f.numZeros := rfl
  have g2 : (halfBand f (high - low)).numPoles = f.numPoles := rfl
  rw [toBandpass_eq]
  obtain ⟨e0, e1, e2, e3, e4, e5⟩ := shift_spec (halfBand f (high - low)) √(low * high) h1 h2
  have ez : zeros (halfBand f (high - low)) = (zeros f).map (· * (((high - low) / 2 : ℝ) : ℂ)) := toLowpass_zeros f _
  have ep : poles (halfBand f (high - low)) = (poles f).map (· * (((high - low) / 2 : ℝ) : ℂ)) := toLowpass_poles f _
  have key : ∀ (L : List ℂ) (p : ℂ),
      p ∈ (L.map (· * (((high - low) / 2 : ℝ) : ℂ))).flatMap (two (√(low * high) * √(low * high))) →
      ∃ q ∈ L, p ^ 2 - q * ((high : ℂ) - low) * p + low * high = 0 := by
    intro L p hp
    rw [List.mem_flatMap] at hp
    obtain ⟨r, hr, hp⟩ := hp
    obtain ⟨q, hq, rfl⟩ := List.mem_map.1 hr
    refine ⟨q, hq, ?_⟩
    have := two_root hp
    rw [hc] at this
    push_cast at this
    linear_combination this
  refine ⟨e0, shift_real _ hr h1 h2, e4, e3, ?_, ?_, ?_⟩
  · intro p hp
    rw [e2, ep] at hp
    exact key _ p hp
  · intro p hp
    rw [e1, ez, List.mem_append] at hp
    rcases hp with hp | hp
    · exact Or.inr (key _ p hp)
    · exact Or.inl (List.eq_of_mem_replicate hp)
  · intro s hs
    have h := shift_system (halfBand f (high - low)) √(low * high) h1 h2 hs
    rw [halfBand_system f hb h1, g1, g2, mul_comm] at h
    have h3 : (2 : ℂ) ^ (f.numPoles - f.numZeros) ≠ 0 := pow_ne_zero _ two_ne_zero
    rw [mul_left_cancel₀ h3 h]
    congr 1
    rw [← Complex.ofReal_mul, hc]
    push_cast
    field_simp

theorem toBandstop_eq (f : Zpk) (low high : ℝ) :
    toBandstop f low high = shiftFromBaseband (toHighpass f ((high - low) / 2)) √(low * high) := rfl

theorem toBandstop_spec {f : Zpk} {low high : ℝ} (hl : 0 < low) (hh : low < high) (hf : RealFilter f)
    (hz : ∀ r ∈ zeros f, r ≠ 0) (hp : ∀ r ∈ poles f, r ≠ 0)
    (h1 : f.numZeros ≤ f.numPoles) (h2 : f.numPoles ≤ 15) :
    (toBandstop f low high).2 = true ∧ RealFilter (toBandstop f low high).1 ∧
    (toBandstop f low high).1.numPoles = 2 * f.numPoles ∧
    (toBandstop f low high).1.numZeros = 2 * f.numPoles ∧
    (∀ p ∈ poles (toBandstop f low high).1, ∃ q ∈ poles f, p ^ 2 - ((high : ℂ) - low) / q * p + low * high = 0) ∧
    (∀ p ∈ zeros (toBandstop f low high).1, p ^ 2 + low * high = 0 ∨
      ∃ q ∈ zeros f, p ^ 2 - ((high : ℂ) - low) / q * p + low * high = 0) ∧
    ∀ s : ℂ, s ≠ 0 → s ^ 2 + low * high ≠ 0 →
      system (toBandstop f low high).1 s = system f (s * ((high : ℂ) - low) / (s ^ 2 + low * high)) := by
  have hc : ((√(low * high) * √(low * high) : ℝ)) = low * high := Real.mul_self_sqrt (by nlinarith)
  have hr : RealFilter (toHighpass f ((high - low) / 2)) := toHighpass_real _ hf hz hp
  have g1 : (toHighpass f ((high - low) / 2)).numZeros = f.numPoles := by
    rw [toHighpass_numZeros, max_eq_right h1]
  have g2 : (toHighpass f ((high - low) / 2)).numPoles = f.numPoles := rfl
  have h1' : (toHighpass f ((high - low) / 2)).numZeros ≤ (toHighpass f ((high - low) / 2)).numPoles := by
    rw [g1, g2]
  rw [toBandstop_eq]
  obtain ⟨e0, e1, e2, e3, e4, e5⟩ := shift_spec (toHighpass f ((high - low) / 2)) √(low * high) h1' h2
  rw [g1, g2, Nat.sub_self, List.replicate_zero, List.append_nil, toHighpass_zeros _ hz] at e1
  rw [toHighpass_poles _ hp] at e2
  have key : ∀ (L : List ℂ) (p : ℂ),
      p ∈ (L.map ((((high - low) / 2 : ℝ) : ℂ) / ·)).flatMap (two (√(low * high) * √(low * high))) →
      ∃ q ∈ L, p ^ 2 - ((high : ℂ) - low) / q * p + low * high = 0 := by
    intro L p hp
    rw [List.mem_flatMap] at hp
    obtain ⟨r, hr, hp⟩ := hp
    obtain ⟨q, hq, rfl⟩ := List.mem_map.1 hr
    refine ⟨q, hq, ?_⟩
    have := two_root hp
    rw [hc] at this
    push_cast at this
    rw [← this]
    ring
  refine ⟨e0, shift_real _ hr h1' h2, e4, by rw [e3, g1, g2]; ring, ?_, ?_, ?_⟩
  · intro p hp
    rw [e2] at hp
    exact key _ p hp
  · intro p hp
    rw [e1, List.flatMap_append, List.mem_append] at hp
    rcases hp with hp | hp
    · exact Or.inr (key _ p hp)
    · left
      rw [List.mem_flatMap] at hp
      obtain ⟨r, hr, hp⟩ := hp
      rw [List.eq_of_mem_replicate hr] at hp
      have := two_root hp
      rw [hc] at this
      push_cast at this
      linear_combination this
  · intro s hs hs2
    have h := shift_system (toHighpass f ((high - low) / 2)) √(low * high) h1' h2 hs
    rw [g1, g2, Nat.sub_self, pow_zero, mul_one] at h
    have h0 : (s ^ 2 + ((√(low * high) : ℝ) : ℂ) * ((√(low * high) : ℝ) : ℂ)) / (2 * s) ≠ 0 := by
      rw [← Complex.ofReal_mul, hc]
      push_cast
      exact div_ne_zero hs2 (mul_ne_zero two_ne_zero hs)
    rw [h, toHighpass_system _ hf h1 hz hp h0]
    congr 1
    rw [← Complex.ofReal_mul, hc]
    push_cast
    field_simp

/-! ### Half-planes -/

/-- The roots of the bandpass of a pole in the left half-plane lie in the left half-plane. -/
theorem quad_left {q p : ℂ} {b c : ℝ} (hb : 0 < b) (hc : 0 < c) (h : p ^ 2 - q * b * p + c = 0) :
    (p.re < 0 ↔ q.re < 0) ∧ (p.re ≤ 0 ↔ q.re ≤ 0) := by
  have hp : p ≠ 0 := by
    rintro rfl
    have : (c : ℂ) = 0 := by linear_combination h
    exact hc.ne' (by exact_mod_cast this)
  have hn : 0 < Complex.normSq p := Complex.normSq_pos.2 hp
  have h1 : q * b = p + c * p⁻¹ := by
    field_simp
    linear_combination -h
  have h2 : q.re * b = p.re * (1 + c / Complex.normSq p) := by
    have := congrArg Complex.re h1
    simp [Complex.inv_re] at this
    rw [this]
    ring
  have h3 : 0 < 1 + c / Complex.normSq p := by positivity
  constructor
  · constructor
    · intro hh
      by_contra h4
      push Not at h4
      nlinarith [mul_nonneg h4 hb.le, mul_neg_of_neg_of_pos hh h3]
    · intro hh
      by_contra h4
      push Not at h4
      nlinarith [mul_nonneg h4 h3.le, mul_neg_of_neg_of_pos hh hb]
  · constructor
    · intro hh
      by_contra h4
      push Not at h4
      nlinarith [mul_pos h4 hb, mul_nonneg (neg_nonneg.2 hh) h3.le]
    · intro hh
      by_contra h4
      push Not at h4
      nlinarith [mul_pos h4 h3, mul_nonneg (neg_nonneg.2 hh) hb.le]

theorem inv_left {r : ℂ} (c : ℝ) (hc : 0 < c) (h : r.re < 0) : ((c : ℂ) / r).re < 0 := by
  have hr : r ≠ 0 := by rintro rfl; simp at h
  have hn : 0 < Complex.normSq r := Complex.normSq_pos.2 hr
  rw [div_eq_mul_inv, Complex.re_ofReal_mul, Complex.inv_re]
  exact mul_neg_of_pos_of_neg hc (div_neg_of_neg_of_pos h hn)

theorem inv_left' {r : ℂ} (c : ℝ) (hc : 0 < c) (h : r.re ≤ 0) : ((c : ℂ) / r).re ≤ 0 := by
  rw [div_eq_mul_inv, Complex.re_ofReal_mul, Complex.inv_re]
  exact mul_nonpos_of_nonneg_of_nonpos hc.le (div_nonpos_of_nonpos_of_nonneg h (Complex.normSq_nonneg _))

/-- The bilinear transform maps the left half-plane to the unit disc. -/
theorem bl_disc {K : ℝ} (hK : 0 < K) {r : ℂ} (h : r.re < 0) : ‖bl K r‖ < 1 := by
  have h1 : (K : ℂ) - r ≠ 0 := by
    intro h0
    have := congrArg Complex.re h0
    simp at this
    linarith
  unfold bl
  rw [norm_div, div_lt_one (norm_pos_iff.2 h1), Complex.norm_def, Complex.norm_def]
  apply Real.sqrt_lt_sqrt (Complex.normSq_nonneg _)
  rw [Complex.normSq_apply, Complex.normSq_apply]
  simp
  nlinarith

end Verif.IirDesign
