import Verif.Proof.Stream
import Mathlib.RingTheory.PowerSeries.Basic
import Mathlib.Tactic.Ring
import Mathlib.Tactic.LinearCombination

/-!
Signals as power series in the delay operator: helper lemmas to prove difference equations.
-/

namespace Verif.Series
open PowerSeries Finset Verif.LinearFilter.Spec Verif.Stream

variable {R : Type} [CommRing R]

/-- The signal of a list, extended by zeros. -/
noncomputable def ps (l : List R) : R⟦X⟧ := PowerSeries.mk (fun n => l.getD n 0)

@[simp] theorem coeff_ps (l : List R) (n : ℕ) : coeff n (ps l) = l.getD n 0 := by simp [ps]

theorem ps_nil : ps ([] : List R) = 0 := by ext n; simp

theorem ps_cons (a : R) (l : List R) : ps (a :: l) = C a + X * ps l := by
  ext n
  cases n with
  | zero => simp
  | succ n => simp [coeff_succ_X_mul, coeff_C]

/-- A sequence that starts with zero and then repeats `g` is `g` delayed. -/
theorem mk_delay {f g : ℕ → R} (h0 : f 0 = 0) (hs : ∀ n, f (n + 1) = g n) :
    PowerSeries.mk f = X * PowerSeries.mk g := by
  ext n
  cases n with
  | zero => simp [h0]
  | succ n => simp [coeff_succ_X_mul, hs]

theorem coeff_ps_mul (a : List R) (f : ℕ → R) (n : ℕ) :
    coeff n (ps a * PowerSeries.mk f)
      = ∑ k ∈ range a.length, a.getD k 0 * (if k ≤ n then f (n - k) else 0) := by
  rw [coeff_mul, Finset.Nat.sum_antidiagonal_eq_sum_range_succ_mk]
  simp only [coeff_ps, coeff_mk]
  have e1 : ∑ k ∈ range (n + 1), a.getD k 0 * f (n - k)
      = ∑ k ∈ range (n + 1 + a.length), a.getD k 0 * (if k ≤ n then f (n - k) else 0) := by
    rw [sum_range_add _ (n + 1)]
    have : ∑ x ∈ range a.length, a.getD (n + 1 + x) 0 * (if n + 1 + x ≤ n then f (n - (n + 1 + x)) else 0) = 0 := by
      apply sum_eq_zero
      intro x _
      rw [if_neg (by omega), mul_zero]
    rw [this, add_zero]
    apply sum_congr rfl
    intro k hk
    rw [mem_range] at hk
    rw [if_pos (by omega)]
  have e2 : ∑ k ∈ range a.length, a.getD k 0 * (if k ≤ n then f (n - k) else 0)
      = ∑ k ∈ range (a.length + (n + 1)), a.getD k 0 * (if k ≤ n then f (n - k) else 0) := by
    rw [sum_range_add]
    have : ∑ x ∈ range (n + 1), a.getD (a.length + x) 0 * (if a.length + x ≤ n then f (n - (a.length + x)) else 0) = 0 := by
      apply sum_eq_zero
      intro x _
      rw [List.getD_eq_getElem?_getD, List.getElem?_eq_none (by omega)]
      simp
    rw [this, add_zero]
  rw [e1, e2, Nat.add_comm]

variable {σ α β : Type}

/-- State before sample `n` of an infinite input. -/
def stateAt (step : σ → α → σ × β) (s : σ) (x : ℕ → α) : ℕ → σ
  | 0 => s
  | n + 1 => (step (stateAt step s x n) (x n)).1

/-- Output at sample `n` of an infinite input. -/
def outAt (step : σ → α → σ × β) (s : σ) (x : ℕ → α) (n : ℕ) : β :=
  (step (stateAt step s x n) (x n)).2

theorem stateAt_shift (step : σ → α → σ × β) (s : σ) (x : ℕ → α) (n : ℕ) :
    stateAt step s x (n + 1) = stateAt step (step s (x 0)).1 (fun k => x (k + 1)) n := by
  induction n with
  | zero => rfl
  | succ n ih =>
    rw [stateAt, ih]
    rfl

theorem runSamples_outAt (step : σ → α → σ × β) : ∀ (xs : List α) (s : σ) (x : ℕ → α),
    (∀ n, (h : n < xs.length) → x n = xs[n]) →
    ∀ n, n < xs.length → (runSamples step s xs).2[n]? = some (outAt step s x n)
  | [], s, x, _ => by intro n hn; simp at hn
  | y :: ys, s, x, hx => by
    intro n hn
    have h0 : x 0 = y := hx 0 (by simp)
    cases n with
    | zero => simp [runSamples, outAt, stateAt, h0]
    | succ n =>
      simp only [runSamples, List.getElem?_cons_succ]
      rw [runSamples_outAt step ys _ (fun k => x (k + 1)) (fun k hk => hx (k + 1) (by simpa using hk)) n
        (by simpa using hn)]
      rw [outAt, outAt, stateAt_shift, h0]

theorem getD_eq_getElem' (l : List R) (n : ℕ) (h : n < l.length) : l.getD n 0 = l[n] := by
  rw [List.getD_eq_getElem?_getD, List.getElem?_eq_getElem h]; rfl

/-- A series identity for the response to the zero-extended input gives the difference equation. -/
theorem diffEq_of_series {step : σ → R → σ × R} {s : σ} {b a xs : List R}
    (h : ps a * PowerSeries.mk (outAt step s (fun n => xs.getD n 0))
      = ps b * PowerSeries.mk (fun n => xs.getD n 0)) :
    DiffEq b a xs (runSamples step s xs).2 := by
  refine ⟨by simp, ?_⟩
  intro n hn
  have hc := congrArg (coeff n) h
  rw [coeff_ps_mul, coeff_ps_mul] at hc
  have e1 : ∀ k, past (runSamples step s xs).2 n k
      = if k ≤ n then outAt step s (fun n => xs.getD n 0) (n - k) else 0 := by
    intro k
    unfold past
    split
    · rw [List.getD_eq_getElem?_getD, runSamples_outAt step xs s (fun n => xs.getD n 0)
        (fun m hm => getD_eq_getElem' xs m hm) (n - k) (by omega)]
      rfl
    · rfl
  have e2 : ∀ k, past xs n k = if k ≤ n then xs.getD (n - k) 0 else 0 := fun k => rfl
  simp only [e1, e2]
  exact hc

/-- Agreement of two series on the first `N` coefficients. -/
def EqUpTo (N : ℕ) (P Q : R⟦X⟧) : Prop := ∀ n, n < N → coeff n P = coeff n Q

theorem EqUpTo.mul_left {N : ℕ} {P Q : R⟦X⟧} (h : EqUpTo N P Q) (S : R⟦X⟧) :
    EqUpTo N (S * P) (S * Q) := by
  intro n hn
  rw [coeff_mul, coeff_mul]
  apply sum_congr rfl
  intro p hp
  rw [mem_antidiagonal] at hp
  rw [h p.2 (by omega)]

theorem EqUpTo.trans {N : ℕ} {P Q S : R⟦X⟧} (h : EqUpTo N P Q) (h2 : EqUpTo N Q S) :
    EqUpTo N P S := fun n hn => (h n hn).trans (h2 n hn)

theorem EqUpTo.symm {N : ℕ} {P Q : R⟦X⟧} (h : EqUpTo N P Q) : EqUpTo N Q P :=
  fun n hn => (h n hn).symm

theorem EqUpTo.of_eq {N : ℕ} {P Q : R⟦X⟧} (h : P = Q) : EqUpTo N P Q := fun n _ => by rw [h]

theorem diffEq_iff (b a xs ys : List R) :
    DiffEq b a xs ys ↔
      ys.length = xs.length ∧ EqUpTo xs.length (ps a * ps ys) (ps b * ps xs) := by
  unfold DiffEq EqUpTo
  apply and_congr_right
  intro _
  apply forall_congr'
  intro n
  apply imp_congr_right
  intro _
  rw [show ps ys = PowerSeries.mk (fun n => ys.getD n 0) from rfl,
    show ps xs = PowerSeries.mk (fun n => xs.getD n 0) from rfl, coeff_ps_mul, coeff_ps_mul]
  rfl

/-- Composition of two filters in series. -/
theorem DiffEq.comp {b a d c xs us ys ba ac : List R} (h1 : DiffEq b a xs us)
    (h2 : DiffEq d c us ys) (hba : ps ba = ps d * ps b) (hac : ps ac = ps c * ps a) :
    DiffEq ba ac xs ys := by
  rw [diffEq_iff] at *
  refine ⟨h2.1.trans h1.1, ?_⟩
  rw [hba, hac]
  have e1 := h2.2.mul_left (ps a)
  rw [h1.1] at e1
  have e2 := h1.2.mul_left (ps d)
  refine (EqUpTo.of_eq (by ring)).trans (e1.trans ((EqUpTo.of_eq (by ring)).trans
    (e2.trans (EqUpTo.of_eq (by ring)))))

/-- Scaling numerator and denominator by a common unit factor does not change the response. -/
theorem DiffEq.scale {b a b' a' xs ys : List R} (u : R) (hb : ps b' = C u * ps b)
    (ha : ps a' = C u * ps a) (h : DiffEq b a xs ys) : DiffEq b' a' xs ys := by
  rw [diffEq_iff] at *
  refine ⟨h.1, ?_⟩
  rw [hb, ha]
  refine (EqUpTo.of_eq (by ring)).trans ((h.2.mul_left (C u)).trans (EqUpTo.of_eq (by ring)))

theorem isConv_iff_diffEq (h xs ys : List R) : IsConv h xs ys ↔ DiffEq h [1] xs ys := by
  unfold IsConv DiffEq
  apply and_congr_right
  intro _
  apply forall_congr'
  intro n
  apply imp_congr_right
  intro _
  simp [past_zero]

end Verif.Series
