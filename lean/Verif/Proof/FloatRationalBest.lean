import Verif.Proof.FloatRational

/-! # Lemmas for `Verif.Theorems.FloatRationalBest` -/

namespace Verif.FloatRational
open Verif.Rounding
open Verif.RationalApproximation (Frac append bound Exit ck_of bound_spec append_spec fib46 Inv Best finish_best converged_best
  gcd_of_det)
open Verif.NumberUtil (ck intMin intMax)
open Verif.FloatAuditory (r64)

/-- The fractional part of a double is a double. -/
theorem fract_exact {r : ℝ} (h : binary64 r = r) (h0 : 0 ≤ r) : binary64 (r - ⌊r⌋) = r - ⌊r⌋ := by
  obtain ⟨m, e, h1, h2, h3⟩ := ieee_representable 53 (-1074) r
  have hr : r = m * 2 ^ e := by rw [← h3]; exact h.symm
  have hf := Int.floor_le r
  have hf' := Int.lt_floor_add_one r
  have hf0 : 0 ≤ ⌊r⌋ := Int.floor_nonneg.2 h0
  rcases le_or_gt 0 e with he | he
  · lift e to ℕ using he
    have hi : r = ((m * 2 ^ e : ℤ) : ℝ) := by rw [hr]; push_cast; rw [zpow_natCast]
    have : r - ⌊r⌋ = 0 := by
      rw [hi, Int.floor_intCast, sub_self]
    rw [this]
    exact binary64_regular.zero
  · obtain ⟨k, rfl⟩ : ∃ k : ℕ, e = -k := ⟨e.natAbs, by omega⟩
    have h2k : (0 : ℝ) < 2 ^ k := by positivity
    have e1 : r * 2 ^ k = m := by
      rw [hr, zpow_neg, zpow_natCast]; field_simp
    have e2 : r - ⌊r⌋ = ((m - ⌊r⌋ * 2 ^ k : ℤ) : ℝ) * 2 ^ (-(k : ℤ)) := by
      push_cast
      rw [zpow_neg, zpow_natCast, ← e1]; field_simp
    refine ieee_of_representable (by norm_num) ⟨_, _, ?_, h2, e2⟩
    have m0 : 0 ≤ m := by
      have : (0 : ℝ) ≤ m := by rw [← e1]; positivity
      exact_mod_cast this
    have q : 0 ≤ m - ⌊r⌋ * 2 ^ k := by
      have : (0 : ℝ) ≤ ((m - ⌊r⌋ * 2 ^ k : ℤ) : ℝ) := by
        push_cast
        rw [← e1]
        have := mul_le_mul_of_nonneg_right hf h2k.le
        linarith
      exact_mod_cast this
    have : 0 ≤ ⌊r⌋ * 2 ^ k := by positivity
    rw [abs_of_nonneg q]
    rw [abs_of_nonneg m0] at h1
    omega

/-- A double below 1 is at most `1 - 2^-53`. -/
theorem below_one {ρ : ℝ} (h : binary64 ρ = ρ) (h1 : ρ < 1) : ρ ≤ 1 - 1 / 2 ^ 53 := by
  obtain ⟨m, e, h1', h2, h3⟩ := ieee_representable 53 (-1074) ρ
  have hr : ρ = m * 2 ^ e := by rw [← h3]; exact h.symm
  have hm : (m : ℝ) ≤ 2 ^ 53 := by exact_mod_cast (le_abs_self m).trans h1'
  rcases le_or_gt (-53) e with he | he
  · obtain ⟨k, hk⟩ : ∃ k : ℕ, e = -53 + k := ⟨(e + 53).toNat, by omega⟩
    have e1 : ρ = ((m * 2 ^ k : ℤ) : ℝ) / 2 ^ 53 := by
      rw [hr, hk, zpow_add₀ (by norm_num), zpow_natCast]
      push_cast
      norm_num
      ring
    have : m * 2 ^ k < 2 ^ 53 := by
      have : ((m * 2 ^ k : ℤ) : ℝ) < 2 ^ 53 := by
        rw [e1, div_lt_one (by positivity)] at h1
        exact h1
      exact_mod_cast this
    have : ((m * 2 ^ k : ℤ) : ℝ) ≤ 2 ^ 53 - 1 := by
      have : m * 2 ^ k ≤ 2 ^ 53 - 1 := by omega
      exact_mod_cast this
    rw [e1, div_le_iff₀ (by positivity)]
    norm_num at *
    linarith
  · have h4 : (2 : ℝ) ^ e ≤ 2 ^ (-54 : ℤ) := zpow_le_zpow_right₀ (by norm_num) (by omega)
    have h5 : (0 : ℝ) < 2 ^ e := by positivity
    have : ρ ≤ 2 ^ 53 * 2 ^ (-54 : ℤ) := by
      rw [hr]
      exact (mul_le_mul_of_nonneg_right hm h5.le).trans (mul_le_mul_of_nonneg_left h4 (by positivity))
    norm_num at *
    linarith

/-- The rounded reciprocal of a double below 1 is above 1. -/
theorem recip_gt_one {ρ : ℝ} (h : binary64 ρ = ρ) (h0 : 0 < ρ) (h1 : ρ < 1) : 1 < binary64 (1 / ρ) := by
  have hb := below_one h h1
  have hz : 1 / (1 - 1 / 2 ^ 53 : ℝ) ≤ 1 / ρ := one_div_le_one_div_of_le h0 hb
  have hm := binary64_regular.mono hz
  refine lt_of_lt_of_le ?_ hm
  have e : binary64 (1 / (1 - 1 / 2 ^ 53 : ℝ)) = ((2 ^ 52 + 1 : ℤ) : ℝ) * 2 ^ (-52 : ℤ) := by
    refine ieee_eq (by norm_num) (by norm_num) (by norm_num) (Or.inl ?_)
    rw [abs_lt]
    constructor <;> norm_num
  rw [e]
  norm_num

/-- The value of the continued fraction that ends with the residual `ρ`. -/
noncomputable def valueAt (p c : Frac) (ρ : ℝ) : ℝ := (c.a + ρ * p.a) / (c.b + ρ * p.b)

/-- Another residual: a nearby value. -/
theorem Inv.move {y : ℝ} {maxDen : ℤ} {ρ ρ' : ℝ} {p c : Frac} {m : ℕ} (h : Inv y maxDen ρ p c m) (h0 : 0 ≤ ρ') (h1 : ρ' < 1) :
    Inv (valueAt p c ρ') maxDen ρ' p c m ∧ |y - valueAt p c ρ'| ≤ |ρ - ρ'| := by
  have cb : (1 : ℝ) ≤ c.b := by exact_mod_cast h.cb
  have pb : (0 : ℝ) ≤ p.b := by exact_mod_cast h.pb
  have d' : (1 : ℝ) ≤ c.b + ρ' * p.b := by have := mul_nonneg h0 pb; linarith
  have d : (1 : ℝ) ≤ c.b + ρ * p.b := by have := mul_nonneg h.r0 pb; linarith
  constructor
  · exact ⟨by unfold valueAt; field_simp, h0, h1, h.det, h.pb, h.pc, h.cb, h.cbM, h.ca, h.caM, h.pa, h.paM, h.m1, h.fibc, h.fibp,
      h.first⟩
  · have hy : y = (c.a + ρ * p.a) / (c.b + ρ * p.b) := by
      rw [eq_div_iff (by linarith)]; exact h.eq
    have key : y - valueAt p c ρ' = (ρ' - ρ) * (c.a * p.b - p.a * c.b) / ((c.b + ρ * p.b) * (c.b + ρ' * p.b)) := by
      rw [hy]; unfold valueAt
      rw [div_sub_div _ _ (by linarith) (by linarith)]
      congr 1
      ring
    have hdet : |(c.a * p.b - p.a * c.b : ℝ)| = 1 := by
      rcases h.det with hd | hd
      · have : (c.a * p.b - p.a * c.b : ℝ) = 1 := by exact_mod_cast hd
        rw [this]; simp
      · have : (c.a * p.b - p.a * c.b : ℝ) = -1 := by exact_mod_cast hd
        rw [this]; simp
    rw [key, abs_div, abs_mul, hdet, mul_one, abs_sub_comm]
    refine div_le_self (abs_nonneg _) ?_
    rw [abs_of_nonneg (by nlinarith)]
    nlinarith

/-- A convergent is within 1 of the value. -/
theorem Inv.near {y : ℝ} {maxDen : ℤ} {ρ : ℝ} {p c : Frac} {m : ℕ} (h : Inv y maxDen ρ p c m) : |y - c.val| ≤ 1 := by
  obtain ⟨_, h2⟩ := Inv.move h le_rfl one_pos
  have : valueAt p c 0 = c.val := by unfold valueAt Frac.val; simp
  rw [this, sub_zero, abs_of_nonneg h.r0] at h2
  linarith [h.r1]

/-- What holds of the result for a nonnegative double. -/
structure NearBest (x : ℝ) (maxDen : ℤ) (E : ℝ) (f : Frac) : Prop where
  a0 : 0 ≤ f.a
  aM : f.a ≤ 2 ^ 31 - 1
  b1 : 1 ≤ f.b
  bM : f.b ≤ maxDen
  red : Int.gcd f.a f.b = 1
  opt : ∀ a' b' : ℤ, 1 ≤ b' → b' ≤ maxDen → a' ≤ 2 ^ 31 - 1 → |x - f.a / f.b| ≤ |x - (a' : ℝ) / b'| + E

theorem NearBest.of_best {x y : ℝ} {maxDen : ℤ} {E : ℝ} {f : Frac} (h : Best y maxDen f) (hE : |x - y| ≤ E) :
    NearBest x maxDen (2 * E) f := by
  refine ⟨h.a0, h.aM, h.b1, h.bM, h.red, fun a' b' h1 h2 h3 => ?_⟩
  have := h.opt a' b' h1 h2 h3
  unfold Frac.val at this
  have t1 := abs_sub_le x y (f.a / f.b)
  have t2 := abs_sub_le y x ((a' : ℝ) / b')
  rw [abs_sub_comm y x] at t2
  linarith

theorem NearBest.mono {x : ℝ} {maxDen : ℤ} {E E' : ℝ} {f : Frac} (h : NearBest x maxDen E f) (hE : E ≤ E') :
    NearBest x maxDen E' f :=
  ⟨h.a0, h.aM, h.b1, h.bM, h.red, fun a' b' h1 h2 h3 => (h.opt a' b' h1 h2 h3).trans (by linarith)⟩

/-- The distance computed at lines 192-193. -/
theorem distance_error {x s A : ℝ} (h : |x - s| = A) (hs : |s| ≤ x + 4) (hA : A ≤ 3) :
    |(|binary64 (x - binary64 s)|) - A| ≤ 1 / 2 ^ 52 * (x + 8) := by
  have x4 : 0 ≤ x + 4 := (abs_nonneg s).trans hs
  have e1 := r64 s
  have e2 := r64 (x - binary64 s)
  have tiny : (1 / 2 ^ 200 : ℝ) ≤ 1 / 2 ^ 100 := by norm_num
  generalize (1 / 2 ^ 200 : ℝ) = η at *
  have η2 : η ≤ 1 / 2 ^ 100 := tiny
  have t1 : |x - binary64 s| ≤ A + |binary64 s - s| := by
    have := abs_sub_le x s (binary64 s)
    rw [abs_sub_comm s] at this
    linarith
  have t2 : |(|binary64 (x - binary64 s)|) - A| ≤ |binary64 (x - binary64 s) - (x - s)| := by
    rw [← h]; exact abs_abs_sub_abs_le_abs_sub _ _
  have t3 : |binary64 (x - binary64 s) - (x - s)| ≤ |binary64 (x - binary64 s) - (x - binary64 s)| + |binary64 s - s| := by
    have := abs_sub_le (binary64 (x - binary64 s)) (x - binary64 s) (x - s)
    have e : x - binary64 s - (x - s) = -(binary64 s - s) := by ring
    rw [e, abs_neg] at this
    exact this
  norm_num at *
  linarith

/-- After the loop: what `finish` does for a value near to the one of the continued fraction. -/
theorem finish_near {x y E : ℝ} {maxDen : ℤ} {ρ : ℝ} {p c : Frac} {m : ℕ} (h : Inv y maxDen ρ p c m) (hM : maxDen ≤ 2 ^ 31 - 1)
    (hr : 0 < ρ) {n : ℤ} (hn : bound maxDen p c = some n) (hle : n ≤ ⌊1 / ρ⌋) (ht : ⌊1 / ρ⌋ ≤ 2 ^ 53) (hE : |x - y| ≤ E)
    (x0 : 0 ≤ x) (hE1 : E ≤ 1) :
    ∃ f, finish binary64 x n ⌊1 / ρ⌋ p c = some f ∧ NearBest x maxDen (2 * E + 1 / 2 ^ 51 * (x + 8)) f := by
  obtain ⟨f, ef, bf⟩ := finish_best h hM hr hn hle
  obtain ⟨n', en, n0, nb, na, nM, hv⟩ :=
    bound_spec (maxDen := maxDen) (p := p) (c := c) hM h.pb (h.pc.trans h.cbM) h.cb h.ca h.pa h.paM
  rw [hn] at en
  cases en
  have t1 : 1 ≤ ⌊1 / ρ⌋ := Int.le_floor.2 (by rw [Int.cast_one, le_div_iff₀ hr]; linarith [h.r1])
  generalize ⌊1 / ρ⌋ = t at *
  have hlow : binary64 ((t : ℝ) / 2) = t / 2 := by
    refine ieee_of_representable (by norm_num) ⟨t, -1, ?_, by norm_num, ?_⟩
    · rw [abs_of_nonneg (by omega)]; exact_mod_cast ht
    · rw [zpow_neg_one]; ring
  have extra : 0 ≤ 1 / 2 ^ 51 * (x + 8) := by positivity
  unfold RationalApproximation.finish at ef
  unfold finish
  simp only at ef ⊢
  rw [hlow]
  by_cases c1 : (n : ℝ) ≥ (t : ℝ) / 2
  · rw [if_pos c1, if_neg (by omega)] at ef ⊢
    have n1 : 1 ≤ n := by
      by_contra hc
      have : n = 0 := by omega
      rw [this] at c1
      have : (1 : ℝ) ≤ t := by exact_mod_cast t1
      norm_num at c1
      linarith
    have hcb := h.cb
    have hpb := h.pb
    have hncb : c.b ≤ n * c.b := le_mul_of_one_le_left (by omega) n1
    have happ := append_spec (c := c) (p := p) n0 (by omega) h.ca h.pb h.pa (by omega) (by omega)
    simp only [Option.bind_eq_bind, Option.bind_some, happ, pure, Option.some.injEq] at ef
    rw [Option.bind_some, happ, Option.bind_some]
    obtain ⟨s, hs⟩ : ∃ s : Frac, s = ⟨n * c.a + p.a, n * c.b + p.b⟩ := ⟨_, rfl⟩
    rw [← hs] at ef ⊢
    refine ⟨_, rfl, ?_⟩
    by_cases c2 : (n : ℝ) > (t : ℝ) / 2
    · rw [if_pos (Or.inl c2)] at ef ⊢
      rw [ef]
      exact (NearBest.of_best bf hE).mono (by linarith)
    · -- the tie
      have hcn := Inv.near h
      have hsb : 1 ≤ s.b := by rw [hs]; simp only; omega
      have hdet : s.a * c.b - c.a * s.b = -(c.a * p.b - p.a * c.b) := by rw [hs]; ring
      have hscop : Int.gcd s.a s.b = 1 := by
        refine gcd_of_det (x := c.b) (y := c.a) ?_
        rw [hdet]
        rcases h.det with hd | hd <;> rw [hd] <;> simp
      have hsc : |s.val - c.val| ≤ (1 : ℝ) := by
        have cb' : (1 : ℝ) ≤ c.b := by exact_mod_cast h.cb
        have sb' : (1 : ℝ) ≤ s.b := by exact_mod_cast hsb
        unfold Frac.val
        rw [div_sub_div _ _ (by linarith) (by linarith), abs_div]
        have hd : |(s.a : ℝ) * c.b - s.b * c.a| = 1 := by
          have e : (s.a : ℝ) * c.b - s.b * c.a = ((s.a * c.b - c.a * s.b : ℤ) : ℝ) := by push_cast; ring
          rw [e, hdet]
          rcases h.det with hd | hd <;> rw [hd] <;> norm_num
        rw [hd, abs_of_pos (by nlinarith), div_le_one (by nlinarith)]
        nlinarith
      have hxc : |x - c.val| ≤ 2 := by
        have := abs_sub_le x y c.val
        linarith
      have hxs : |x - s.val| ≤ 3 := by
        have := abs_sub_le x c.val s.val
        rw [abs_sub_comm c.val] at this
        linarith
      have hca : |(c.val : ℝ)| ≤ x + 4 := by
        have := abs_sub_abs_le_abs_sub (c.val : ℝ) x
        rw [abs_of_nonneg x0, abs_sub_comm] at this
        linarith
      have hsa : |(s.val : ℝ)| ≤ x + 4 := by
        have := abs_sub_abs_le_abs_sub (s.val : ℝ) x
        rw [abs_of_nonneg x0, abs_sub_comm] at this
        linarith
      obtain ⟨d1, d2⟩ := abs_le.1 (distance_error rfl hsa hxs)
      obtain ⟨d3, d4⟩ := abs_le.1 (distance_error rfl hca (by linarith))
      have sNB : ∀ F, (∀ a' b' : ℤ, 1 ≤ b' → b' ≤ maxDen → a' ≤ 2 ^ 31 - 1 → |x - s.a / s.b| ≤ |x - (a' : ℝ) / b'| + F) →
          NearBest x maxDen F s := fun F hF =>
        ⟨by rw [hs]; have := mul_nonneg n0 h.ca; have := h.pa; simp only; omega, by rw [hs]; exact na, hsb, by rw [hs]; exact nb,
          hscop, hF⟩
      have cNB : ∀ F, (∀ a' b' : ℤ, 1 ≤ b' → b' ≤ maxDen → a' ≤ 2 ^ 31 - 1 → |x - c.a / c.b| ≤ |x - (a' : ℝ) / b'| + F) →
          NearBest x maxDen F c := fun F hF => ⟨h.ca, h.caM, h.cb, h.cbM, gcd_of_det h.det, hF⟩
      have hNB := NearBest.of_best bf hE
      by_cases c3 : |y - s.val| < |y - c.val|
      · rw [if_pos (Or.inr c3)] at ef
        rw [← ef] at hNB
        by_cases c4 : |binary64 (x - toDouble binary64 s)| < |binary64 (x - toDouble binary64 c)|
        · rw [if_pos (Or.inr c4)]
          exact hNB.mono (by linarith)
        · rw [if_neg (by rintro (hc | hc); exacts [c2 hc, c4 hc])]
          refine cNB _ fun a' b' h1 h2 h3 => ?_
          have := hNB.opt a' b' h1 h2 h3
          unfold toDouble at c4
          unfold Frac.val at d1 d2 d3 d4
          push Not at c4
          linarith
      · rw [if_neg (by rintro (hc | hc); exacts [c2 hc, c3 hc])] at ef
        rw [← ef] at hNB
        by_cases c4 : |binary64 (x - toDouble binary64 s)| < |binary64 (x - toDouble binary64 c)|
        · rw [if_pos (Or.inr c4)]
          refine sNB _ fun a' b' h1 h2 h3 => ?_
          have := hNB.opt a' b' h1 h2 h3
          unfold toDouble at c4
          unfold Frac.val at d1 d2 d3 d4
          linarith
        · rw [if_neg (by rintro (hc | hc); exacts [c2 hc, c4 hc])]
          exact hNB.mono (by linarith)
  · rw [if_neg c1] at ef ⊢
    cases ef
    exact ⟨c, rfl, (NearBest.of_best bf hE).mono (by linarith)⟩

/-- The tolerance, more precisely. -/
theorem tolD_sharp : tolD ≤ 11 / 10 ^ 10 := by
  have e1 := ε_small
  obtain ⟨a, b⟩ := r64ε (x := 1 / 10 ^ 9) (by norm_num)
  unfold tolD
  generalize binary64 (1 / 10 ^ 9) = w at *
  norm_num at *
  linarith

/-- The whole loop. -/
theorem run_near {x : ℝ} {maxDen : ℤ} (hM : maxDen ≤ 400000000) (x0 : 0 ≤ x) (left m : ℕ) (hlm : 46 ≤ left + m) (hl : left ≤ 45)
    (r : ℝ) (hr : binary64 r = r) (r0 : 0 ≤ r) (p c : Frac) (y : ℝ) (h : Inv y maxDen (r - ⌊r⌋) p c m)
    (hE : |x - y| ≤ (45 - left) * ε) :
    ∃ f, run binary64 tolD maxDen left r ⌊r⌋ p c x = some f ∧ NearBest x maxDen (92 * ε + 1 / 2 ^ 51 * (x + 8)) f := by
  induction left generalizing m r p c y with
  | zero =>
    exfalso
    have f1 : (Nat.fib 46 : ℤ) ≤ Nat.fib m := by exact_mod_cast Nat.fib_mono (by omega)
    rw [fib46] at f1
    have := h.fibc
    have := h.cbM
    push_cast at f1
    omega
  | succ left ih =>
    have e0 := ε_pos
    have e1 := ε_small
    obtain ⟨t0, t1⟩ := tolD_bounds
    have ts := tolD_sharp
    have hex := fract_exact hr r0
    have extra : 0 ≤ 1 / 2 ^ 51 * (x + 8) := by positivity
    have hlr : (left : ℝ) ≥ 0 := by positivity
    by_cases hc : |binary64 (r - ⌊r⌋)| ≤ tolD
    · refine ⟨c, run_converged hc, ?_⟩
      rw [hex] at hc
      have hb : Best y maxDen c := by
        refine converged_best h (by omega) ((le_abs_self _).trans hc) ?_
        have : (maxDen : ℝ) ≤ 400000000 := by exact_mod_cast hM
        have m0 : (0 : ℝ) ≤ 2 * maxDen + 1 := by
          have : 1 ≤ maxDen := h.cb.trans h.cbM
          have : (1 : ℝ) ≤ maxDen := by exact_mod_cast this
          linarith
        refine (mul_le_mul ts (by linarith : (2 * (maxDen : ℝ) + 1) ≤ 800000001) m0 (by norm_num)).trans ?_
        norm_num
      refine (NearBest.of_best hb hE).mono ?_
      push_cast
      have : 0 ≤ (left : ℝ) * ε := by positivity
      linarith
    · have hρ0 := h.r0
      have hρ1 := h.r1
      have hρt : tolD < r - ⌊r⌋ := by
        rw [hex, abs_of_nonneg hρ0] at hc
        exact not_le.1 hc
      have hρpos : 0 < r - ⌊r⌋ := lt_trans (lt_of_lt_of_le (by norm_num) t0) hρt
      have hw1 := recip_gt_one hex hρpos hρ1
      have hwd := r64ε (x := 1 / (r - ⌊r⌋)) (by
        rw [le_div_iff₀ hρpos]
        refine le_trans ?_ (by norm_num : (1 : ℝ) / 2 ^ 100 * 1 ≤ 1)
        exact mul_le_mul_of_nonneg_left hρ1.le (by positivity))
      obtain ⟨w, hw⟩ : ∃ w, w = binary64 (1 / (r - ⌊r⌋)) := ⟨_, rfl⟩
      rw [← hw] at hw1 hwd
      have hw0 : 0 < w := by linarith
      have hwrep : binary64 w = w := by rw [hw]; exact binary64_regular.idem _
      have hwbig : w ≤ 10 ^ 11 := by
        refine hwd.2.trans ?_
        have : 1 / (r - ⌊r⌋) ≤ 1 / (1 / 10 ^ 10 : ℝ) := one_div_le_one_div_of_le (by norm_num) (by linarith)
        have : 1 / (r - ⌊r⌋) * (1 + ε) ≤ 1 / (1 / 10 ^ 10 : ℝ) * 2 := mul_le_mul this (by linarith) (by linarith) (by norm_num)
        refine this.trans ?_
        norm_num
      -- the residual that corresponds to the rounded reciprocal
      have hρ' : 0 < 1 / w := by positivity
      have hρ'1 : 1 / w < 1 := by rw [div_lt_one hw0]; exact hw1
      obtain ⟨i2, hd⟩ := Inv.move h hρ'.le hρ'1
      have hrec : 1 / (1 / w) = w := one_div_one_div w
      have hdiff : |r - ⌊r⌋ - 1 / w| ≤ ε := by
        obtain ⟨a1, a2⟩ := hwd
        have b1 : (1 - ε) ≤ w * (r - ⌊r⌋) := by
          have := mul_le_mul_of_nonneg_right a1 hρpos.le
          rwa [mul_right_comm, one_div_mul_cancel hρpos.ne', one_mul] at this
        have b2 : w * (r - ⌊r⌋) ≤ 1 + ε := by
          have := mul_le_mul_of_nonneg_right a2 hρpos.le
          rwa [mul_right_comm, one_div_mul_cancel hρpos.ne', one_mul] at this
        have e : r - ⌊r⌋ - 1 / w = (w * (r - ⌊r⌋) - 1) / w := by field_simp
        rw [e, abs_div, abs_of_pos hw0]
        refine (div_le_self (abs_nonneg _) hw1.le).trans ?_
        rw [abs_le]; constructor <;> linarith
      have hE2 : |x - valueAt p c (1 / w)| ≤ (45 - left) * ε := by
        have := abs_sub_le x y (valueAt p c (1 / w))
        push_cast at hE
        linarith
      have hE1 : |x - valueAt p c (1 / w)| ≤ 45 * ε := by
        have : 0 ≤ (left : ℝ) * ε := by positivity
        linarith
      obtain ⟨n, en, n0, nb, na, nM, _⟩ :=
        bound_spec (maxDen := maxDen) (p := p) (c := c) (by omega) h.pb (h.pc.trans h.cbM) h.cb h.ca h.pa h.paM
      have hfl53 : ⌊w⌋ ≤ 2 ^ 53 := by
        have : ⌊w⌋ < 2 ^ 53 := Int.floor_lt.2 (by push_cast; refine lt_of_le_of_lt hwbig (by norm_num))
        omega
      unfold run
      rw [loop]
      simp only
      rw [if_neg hc, hex, ← hw, en, Option.bind_some]
      by_cases hn : ⌊w⌋ ≥ n
      · rw [if_pos hn, Option.bind_some]
        have := finish_near (x := x) (E := 45 * ε) i2 (by omega) hρ' en (by rw [hrec]; exact hn) (by rw [hrec]; exact hfl53) hE1 x0
          (by linarith)
        rw [hrec] at this
        obtain ⟨f, f1, f2⟩ := this
        exact ⟨f, f1, f2.mono (by linarith)⟩
      · rw [if_neg hn]
        have hf1 : 1 ≤ ⌊w⌋ := Int.le_floor.2 (by push_cast; linarith)
        have k1 : ⌊w⌋ * c.b ≤ n * c.b := mul_le_mul_of_nonneg_right (by omega) (by have := h.cb; omega)
        have k2 : ⌊w⌋ * c.a ≤ n * c.a := mul_le_mul_of_nonneg_right (by omega) h.ca
        have hcb := h.cb
        rw [append_spec (by omega) (by omega) h.ca h.pb h.pa (by omega) (by omega), Option.bind_some]
        have hstep := i2.step hρ' (by rw [hrec]; omega) (by rw [hrec]; omega)
        rw [hrec] at hstep
        exact ih (m + 1) (by omega) (by omega) w hwrep hw0.le c _ _ hstep hE2

end Verif.FloatRational
