import Verif.Proof.NelderMead
import Mathlib.Data.Rat.Defs
import Mathlib.Algebra.Order.Ring.Rat
import Mathlib.Algebra.Field.Rat
import Mathlib.Tactic.NormNum
import Mathlib.Tactic.FinCases
import Mathlib.Tactic.Order

/-!
# C18, C56: Nelder-Mead search

`Reach e s`: the searcher `s` was constructed and then any calls of the setters and of `MinimizeObjective`
succeeded, in any order. `d` is the number of dimensions (the constructor requires `d > 0`), `f` the
objective function, `t.trace` the points at which the last call evaluated the objective.
-/

namespace Verif.NelderMead

variable {d : ℕ} {K : Type} [Field K] [LinearOrder K] [IsStrictOrderedRing K]

/-- C18. From every reachable searcher with an objective `f`, `MinimizeObjective` ends (after at most
`max_evaluations + 1` tests of its loop condition, whatever the objective), and then:
* `GetMin()` is the objective at `GetArgMin()`, and `GetArgMin()` respects the bounds and was evaluated;
* `GetMin()` is at most the objective at every initial vertex, moved into the bounds;
* every point at which the objective was evaluated respects the bounds, and `num_evaluations()` is their
  number, which is at most `max_evaluations + d + 1` (or the `d + 1` of the initial simplex);
* the search stopped for one of the three documented reasons, or because a value is infinite. -/
theorem C18_minimize (e : Env d K) (he : e.Ok) (hd : 0 < d) (s : State d K) (hs : Reach e s)
    (f : Point d K → WithTop K) (hf : s.objective = some f) (maxEvals : ℤ) (tol : K) (goal : Option K) :
    ∃ t x v, (∀ fuel, maxEvals.toNat < fuel → s.minimize e maxEvals tol goal fuel = some t) ∧
      t.objective = some f ∧ t.lower = s.lower ∧ t.upper = s.upper ∧
      t.getArgMin = some x ∧ t.getMin = some v ∧ v = f x ∧ InBox s.lower s.upper x ∧ x ∈ t.trace ∧
      (∀ i, InBox s.lower s.upper (s.clamp (s.simplex i)) ∧ v ≤ f (s.clamp (s.simplex i))) ∧
      (∀ i, InBox s.lower s.upper (s.simplex i) → v ≤ f (s.simplex i)) ∧
      (∀ p ∈ t.trace, InBox s.lower s.upper p) ∧ t.trace.length = t.evals ∧
      (t.evals : ℤ) ≤ max ((d : ℤ) + 1) (maxEvals + d + 1) ∧
      (maxEvals ≤ t.evals ∨ (∃ g, goal = some g ∧ v ≤ (g : WithTop K)) ∨ (∃ i, t.values i = ⊤) ∨
        (0 ≤ tol ∧ ∃ w : Fin (d + 1) → K, (∀ i, t.values i = (w i : WithTop K)) ∧
          ∑ i, (w i - (∑ j, w j) / (d + 1)) ^ 2 ≤ tol ^ 2)) := by
  have hb := reach_bounds he hd hs
  obtain ⟨t, g0, g1, g2, g3, g4, g4', g5, g6, g7⟩ := minimize_spec he hd maxEvals tol goal s hb hf
  refine ⟨t, t.simplex (e.amin t.values), t.values (e.amin t.values), g0, g3.trans hf, g1.lower, g1.upper, ?_, ?_,
    g1.vals _, g1.feas _, g1.mem _, fun i => ⟨clamp_inBox s hb _, g2 i⟩, ?_, g1.tr, g1.cnt, g4, ?_⟩
  · simp [State.getArgMin, g1.amin]
  · simp [State.getMin, g1.amin]
  · intro i hi
    have := g2 i
    rwa [clamp_eq s _ hi] at this
  · unfold State.continues at g7
    simp only [Bool.and_eq_false_iff, decide_eq_false_iff_not, not_lt] at g7
    rcases g7 with (h | h) | h
    · exact Or.inl h
    · right; left
      cases hg : goal with
      | none => rw [hg] at h; simp at h
      | some g =>
        rw [hg] at h
        simp only [gt_iff_lt, decide_eq_false_iff_not, not_lt] at h
        exact ⟨g, rfl, h⟩
    · right; right
      unfold deviationAbove finiteValues at h
      by_cases hfin : ∀ i, t.values i ≠ ⊤
      · right
        rw [if_pos hfin] at h
        simp only [decide_eq_false_iff_not, not_or, not_lt] at h
        refine ⟨h.1, fun i => (t.values i).untopD 0, ?_, h.2⟩
        intro i
        have := hfin i
        cases hv : t.values i with
        | top => exact absurd hv this
        | coe x =>
          show (x : WithTop K) = ((t.values i).untopD 0 : K)
          rw [hv]
          rfl
      · left
        push Not at hfin
        exact hfin

/-- C18. `GetMin()` never increases: calling `MinimizeObjective` again, with the same objective and
bounds and any other arguments, ends with a minimum that is at most the one before. -/
theorem C18_never_increases (e : Env d K) (he : e.Ok) (hd : 0 < d) (s t : State d K) (hs : Reach e s)
    (maxEvals maxEvals' : ℤ) (tol tol' : K) (goal goal' : Option K) (fuel : ℕ)
    (ht : s.minimize e maxEvals tol goal fuel = some t) :
    ∃ t' v v', (∀ fuel, maxEvals'.toNat < fuel → t.minimize e maxEvals' tol' goal' fuel = some t') ∧
      t.getMin = some v ∧ t'.getMin = some v' ∧ v' ≤ v := by
  have ht' := Reach.minimize _ _ _ _ hs ht
  cases hf : s.objective with
  | none =>
    unfold State.minimize at ht
    rw [hf] at ht
    simp at ht
  | some f =>
    obtain ⟨r, x, v, h1, h2, h3, h4, h5, h6, h7, h8, -⟩ := C18_minimize e he hd s hs f hf maxEvals tol goal
    have hrt : r = t := by
      have key : ∀ (k j : ℕ) (q : State d K), State.loop e f maxEvals tol goal k q = some t →
          State.loop e f maxEvals tol goal (k + j) q = some t := by
        intro k j
        induction k with
        | zero => intro q h; simp [State.loop] at h
        | succ k ih =>
          intro q h
          rw [State.loop] at h
          rw [show k + 1 + j = (k + j) + 1 by omega, State.loop]
          cases hm : q.argmin with
          | none => rw [hm] at h; simp at h
          | some m =>
            rw [hm] at h
            simp only at h ⊢
            split_ifs at h ⊢ with hc
            · exact ih _ h
            · exact h
      have e1 := h1 (fuel + (maxEvals.toNat + 1)) (by omega)
      have e2 : s.minimize e maxEvals tol goal (fuel + (maxEvals.toNat + 1)) = some t := by
        rw [minimize_eq s hf] at ht ⊢
        exact key _ _ _ ht
      rw [e1] at e2
      exact Option.some.inj e2
    subst hrt
    obtain ⟨t', x', v', k1, k2, k3, k4, k5, k6, k7, k8, k9, k10, k11, -⟩ :=
      C18_minimize e he hd r ht' f h2 maxEvals' tol' goal'
    refine ⟨t', v, v', k1, h6, k6, ?_⟩
    unfold State.getArgMin at h5
    cases hm : r.argmin with
    | none => rw [hm] at h5; simp at h5
    | some m =>
      rw [hm] at h5
      simp only [Option.map_some, Option.some.injEq] at h5
      rw [h7, ← h5]
      refine k11 m ?_
      rw [h3, h4, h5]
      exact h8

/-- C18. `MinimizeObjective` without an objective function is refused. -/
theorem C18_no_objective (e : Env d K) (s : State d K) (h : s.objective = none) (maxEvals : ℤ) (tol : K)
    (goal : Option K) (fuel : ℕ) : s.minimize e maxEvals tol goal fuel = none := by
  unfold State.minimize
  rw [h]

/-- C56. "Returns the lowest value of the objective function seen so far": where the conversion of the
highest value to `float` does not lower it (always for `Scalar = float`), `GetMin()` is at most the
objective at every point that was evaluated. -/
theorem C56_lowest_seen_partial (e : Env d K) (he : e.Ok) (hd : 0 < d) (s : State d K) (hs : Reach e s)
    (f : Point d K → WithTop K) (hf : s.objective = some f) (hnar : ∀ x, x ≤ e.narrow x) (maxEvals : ℤ) (tol : K)
    (goal : Option K) :
    ∃ t v, (∀ fuel, maxEvals.toNat < fuel → s.minimize e maxEvals tol goal fuel = some t) ∧
      t.getMin = some v ∧ ∀ p ∈ t.trace, v ≤ f p := by
  have hb := reach_bounds he hd hs
  obtain ⟨t, g0, g1, g2, g3, g4, g4', g5, g6, g7⟩ := minimize_spec he hd maxEvals tol goal s hb hf
  exact ⟨t, _, g0, by simp only [State.getMin, g1.amin, Option.map_some]; rfl, g6 hnar⟩

/-- C56. A negative tolerance is ignored: the search stops only when the budget is used up, the goal is
reached, or a value is infinite. -/
theorem C56_negative_tolerance (e : Env d K) (he : e.Ok) (hd : 0 < d) (s : State d K) (hs : Reach e s)
    (f : Point d K → WithTop K) (hf : s.objective = some f) (maxEvals : ℤ) (tol : K) (htol : tol < 0)
    (goal : Option K) :
    ∃ t v, (∀ fuel, maxEvals.toNat < fuel → s.minimize e maxEvals tol goal fuel = some t) ∧
      t.getMin = some v ∧
      (maxEvals ≤ t.evals ∨ (∃ g, goal = some g ∧ v ≤ (g : WithTop K)) ∨ ∃ i, t.values i = ⊤) := by
  obtain ⟨t, x, v, h1, -, -, -, -, h6, -, -, -, -, -, -, -, -, h⟩ :=
    C18_minimize e he hd s hs f hf maxEvals tol goal
  refine ⟨t, v, h1, h6, ?_⟩
  rcases h with h | h | h | h
  · exact Or.inl h
  · exact Or.inr (Or.inl h)
  · exact Or.inr (Or.inr h)
  · exact absurd h.1 (not_le.mpr htol)

/-! ### Examples and violations -/

/-- First smallest of three. -/
def amin3 (v : Fin 3 → WithTop ℚ) : Fin 3 := if v 0 ≤ v 1 ∧ v 0 ≤ v 2 then 0 else if v 1 ≤ v 2 then 1 else 2

/-- First largest of three. -/
def amax3 (v : Fin 3 → WithTop ℚ) : Fin 3 := if v 1 ≤ v 0 ∧ v 2 ≤ v 0 then 0 else if v 2 ≤ v 1 then 1 else 2

/-- Conversion of a `double` near 1 to `float`, as rounding to nearest does it. -/
def narrowNearOne (x : WithTop ℚ) : WithTop ℚ :=
  if ((1 : ℚ) : WithTop ℚ) ≤ x ∧ x ≤ ((1 + 1 / 2 ^ 25 : ℚ) : WithTop ℚ) then ((1 : ℚ) : WithTop ℚ) else x

/-- Searchers for two-dimensional `float` and `double` problems. -/
def floatEnv : Env 2 ℚ := ⟨id, amin3, amax3⟩
def doubleEnv : Env 2 ℚ := ⟨narrowNearOne, amin3, amax3⟩

theorem amin3_ok (v : Fin 3 → WithTop ℚ) (i : Fin 3) : v (amin3 v) ≤ v i := by
  unfold amin3
  rcases le_total (v 0) (v 1) with h1 | h1 <;> rcases le_total (v 0) (v 2) with h2 | h2 <;>
    rcases le_total (v 1) (v 2) with h3 | h3 <;> fin_cases i <;> split_ifs <;> simp_all <;> order

theorem amax3_ok (v : Fin 3 → WithTop ℚ) (i : Fin 3) : v i ≤ v (amax3 v) := by
  unfold amax3
  rcases le_total (v 0) (v 1) with h1 | h1 <;> rcases le_total (v 0) (v 2) with h2 | h2 <;>
    rcases le_total (v 1) (v 2) with h3 | h3 <;> fin_cases i <;> split_ifs <;> simp_all <;> order

theorem floatEnv_ok : floatEnv.Ok := ⟨amin3_ok, amax3_ok⟩
theorem doubleEnv_ok : doubleEnv.Ok := ⟨amin3_ok, amax3_ok⟩

/-- `(x - 1)^2 + y^2` with `x ≤ 1/2`, from `(0, 0)` with offset 1. -/
def bowl (p : Point 2 ℚ) : WithTop ℚ := (((p 0 - 1) ^ 2 + p 1 ^ 2 : ℚ) : WithTop ℚ)

def start : State 2 ℚ := State.init (fun _ _ => 0) (fun _ => 0) 0

example : ∃ s1 s2, start.setUpper ![((1 / 2 : ℚ) : WithTop ℚ), ⊤] = some s1 ∧
    (s1.setObjective bowl).setGuess ![0, 0] 1 = some s2 ∧ Reach floatEnv s2 ∧ s2.objective = some bowl := by
  have h1 : start.setUpper ![((1 / 2 : ℚ) : WithTop ℚ), ⊤] =
      some { start with upper := some ![((1 / 2 : ℚ) : WithTop ℚ), ⊤] } := by
    unfold State.setUpper
    rw [if_pos]
    simp [start, State.init, boundsOk]
  have h2 : ∃ s2, (State.setObjective { start with upper := some ![((1 / 2 : ℚ) : WithTop ℚ), ⊤] } bowl).setGuess
      ![0, 0] 1 = some s2 ∧ s2.objective = some bowl := by
    unfold State.setGuess
    rw [if_pos]
    · exact ⟨_, rfl, rfl⟩
    · rw [feasible_iff]
      refine ⟨fun b hb => by simp [State.setObjective, start, State.init] at hb, fun b hb i => ?_⟩
      simp only [State.setObjective, Option.some.injEq] at hb
      subst hb
      fin_cases i
      · show ((0 : ℚ) : WithTop ℚ) ≤ ((1 / 2 : ℚ) : WithTop ℚ)
        exact WithTop.coe_le_coe.mpr (by norm_num)
      · exact le_top
  obtain ⟨s2, h2, h3⟩ := h2
  exact ⟨_, s2, h1, h2, .setGuess _ _ (.setObjective _ (.setUpper _ (.init _ _ _) h1)) h2, h3⟩

example : ∀ x, x ≤ floatEnv.narrow x := fun x => le_refl x

/-- A `double` objective with nearly equal values at the initial vertices and 1 at `(1/4, 1/2)`. -/
def flat (p : Point 2 ℚ) : WithTop ℚ :=
  if p 0 = 0 ∧ p 1 = 0 then ((1 + 1 / 2 ^ 30 : ℚ) : WithTop ℚ)
  else if p 0 = 1 ∧ p 1 = 0 then ((1 + 1 / 2 ^ 30 : ℚ) : WithTop ℚ)
  else if p 0 = 0 ∧ p 1 = 1 then ((1 + 1 / 2 ^ 29 : ℚ) : WithTop ℚ)
  else if p 0 = 1 / 4 ∧ p 1 = 1 / 2 then ((1 : ℚ) : WithTop ℚ)
  else ((5 : ℚ) : WithTop ℚ)

/-- C56 fails for `Scalar = double`: `const float highest` (nelder_mead_searcher.h:300) rounds, so a contraction
point with a lower value than all vertices is dropped: the objective was 1 at an evaluated point, but
`GetMin()` is `1 + 2^-30`. -/
theorem C56_lowest_seen_violation : ∃ s t, Reach doubleEnv s ∧ s.objective = some flat ∧
    s.minimize doubleEnv 4 0 none 5 = some t ∧
    ![1 / 4, 1 / 2] ∈ t.trace ∧ flat ![1 / 4, 1 / 2] = ((1 : ℚ) : WithTop ℚ) ∧
    t.getMin = some ((1 + 1 / 2 ^ 30 : ℚ) : WithTop ℚ) := by
  obtain ⟨s, hs⟩ : ∃ s, s = (start.setObjective flat).setSimplex ![![0, 0], ![1, 0], ![0, 1]] := ⟨_, rfl⟩
  have hr : Reach doubleEnv s := hs ▸ .setSimplex _ (.setObjective _ (.init _ _ _))
  obtain ⟨t, -, -, ht, -⟩ := C18_minimize doubleEnv doubleEnv_ok (by omega) s hr flat (by rw [hs]; rfl) 4 0 none
  have h1 : ((s.minimize doubleEnv 4 0 none 5).map fun t =>
      decide (![1 / 4, 1 / 2] ∈ t.trace) && decide (t.getMin = some ((1 + 1 / 2 ^ 30 : ℚ) : WithTop ℚ))) =
      some true := by
    subst hs
    decide +kernel
  rw [ht 5 (by decide)] at h1
  simp only [Option.map_some, Option.some.injEq, Bool.and_eq_true, decide_eq_true_eq] at h1
  exact ⟨s, t, hr, by rw [hs]; rfl, ht 5 (by decide), h1.1, by decide +kernel, h1.2⟩

/-- C56 fails for a tolerance of zero, which "is ignored if less or equal to zero": with a constant
objective the search stops after the initial evaluations, with budget left and no goal. -/
theorem C56_zero_tolerance_violation : ∃ s t, Reach floatEnv s ∧ s.minimize floatEnv 1000 0 none 1001 = some t ∧
    t.evals = 3 ∧ ∀ i, t.values i ≠ ⊤ := by
  obtain ⟨s, hs⟩ : ∃ s, s = (start.setObjective fun _ => ((1 : ℚ) : WithTop ℚ)).setSimplex
    ![![0, 0], ![1, 0], ![0, 1]] := ⟨_, rfl⟩
  have hr : Reach floatEnv s := hs ▸ .setSimplex _ (.setObjective _ (.init _ _ _))
  obtain ⟨t, -, -, ht, -⟩ := C18_minimize floatEnv floatEnv_ok (by omega) s hr
    (fun _ => ((1 : ℚ) : WithTop ℚ)) (by rw [hs]; rfl) 1000 0 none
  have h1 : ((s.minimize floatEnv 1000 0 none 1001).map fun t =>
      decide (t.evals = 3) && decide (∀ i, t.values i ≠ ⊤)) = some true := by
    subst hs
    decide +kernel
  rw [ht 1001 (by decide)] at h1
  simp only [Option.map_some, Option.some.injEq, Bool.and_eq_true, decide_eq_true_eq] at h1
  exact ⟨s, t, hr, ht 1001 (by decide), h1.1, h1.2⟩

/-- C56 fails for `SetSimplex`, "If any bounds are active they will be applied to simplex": with an upper
bound of 0 the simplex is stored as given (it is moved into the bounds only by the next
`MinimizeObjective`). -/
theorem C56_set_simplex_violation : ∃ s x, Reach floatEnv s ∧ s.upper = some (fun _ => ((0 : ℚ) : WithTop ℚ)) ∧
    (s.setSimplex x).simplex = x ∧ ¬ InBox s.lower s.upper ((s.setSimplex x).simplex 0) := by
  have h1 : start.setUpper (fun _ => ((0 : ℚ) : WithTop ℚ)) =
      some { start with upper := some fun _ => ((0 : ℚ) : WithTop ℚ) } := by
    unfold State.setUpper
    rw [if_pos]
    simp [start, State.init, boundsOk]
  refine ⟨_, fun _ _ => 1, .setUpper _ (.init _ _ _) h1, rfl, rfl, ?_⟩
  intro h
  have h2 := WithTop.coe_le_coe.mp (h.2 _ rfl 0)
  have h3 : (1 : ℚ) ≤ 0 := h2
  norm_num at h3

end Verif.NelderMead
