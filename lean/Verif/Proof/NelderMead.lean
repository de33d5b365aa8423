import Verif.Spec.NelderMead
import Mathlib.Tactic.Linarith
import Mathlib.Tactic.FieldSimp
import Mathlib.Tactic.Ring
import Mathlib.Algebra.Order.BigOperators.Group.Finset
import Mathlib.Data.List.Nodup

/-! Lemmas about the model of `NelderMeadSearcher`. -/

namespace Verif.NelderMead

variable {d : ℕ} {K : Type} [Field K] [LinearOrder K]

theorem feasible_iff (s : State d K) (p : Point d K) : s.feasible p = true ↔ InBox s.lower s.upper p := by
  unfold State.feasible InBox
  cases hu : s.upper <;> cases hl : s.lower <;> simp
  tauto

/-- A number between bounds, coordinate by coordinate. -/
theorem inBox_iff (l : Option (Fin d → WithBot K)) (u : Option (Fin d → WithTop K)) (p : Point d K) :
    InBox l u p ↔ (∀ b, l = some b → ∀ i (x : K), b i = (x : WithBot K) → x ≤ p i) ∧
      (∀ b, u = some b → ∀ i (x : K), b i = (x : WithTop K) → p i ≤ x) := by
  unfold InBox
  refine and_congr ?_ ?_
  · refine forall_congr' fun b => forall_congr' fun _ => forall_congr' fun i => ?_
    constructor
    · intro h x hx
      rw [hx] at h
      exact WithBot.coe_le_coe.mp h
    · intro h
      cases hb : b i with
      | bot => exact bot_le
      | coe x => exact WithBot.coe_le_coe.mpr (h x hb)
  · refine forall_congr' fun b => forall_congr' fun _ => forall_congr' fun i => ?_
    constructor
    · intro h x hx
      rw [hx] at h
      exact WithTop.coe_le_coe.mp h
    · intro h
      cases hb : b i with
      | top => exact le_top
      | coe x => exact WithTop.coe_le_coe.mpr (h x hb)

theorem clamp_inBox (s : State d K) (h : boundsOk s.lower s.upper) (p : Point d K) :
    InBox s.lower s.upper (s.clamp p) := by
  rw [inBox_iff]
  unfold State.clamp
  cases hl : s.lower with
  | none =>
    refine ⟨fun b hb => by simp at hb, ?_⟩
    cases hu : s.upper with
    | none => intro b hb; simp at hb
    | some u =>
      intro b hb i x hx
      simp only [Option.some.injEq] at hb
      subst hb
      simp only [hx]
      exact min_le_right _ _
  | some l =>
    cases hu : s.upper with
    | none =>
      refine ⟨?_, fun b hb => by simp at hb⟩
      intro b hb i x hx
      simp only [Option.some.injEq] at hb
      subst hb
      simp only [hx]
      exact le_max_right _ _
    | some u =>
      rw [hl, hu] at h
      simp only [boundsOk] at h
      constructor
      · intro b hb i x hx
        simp only [Option.some.injEq] at hb
        subst hb
        have h1 := h i x hx
        simp only [hx]
        cases hy : u i with
        | top => exact le_max_right _ _
        | coe y =>
          rw [hy] at h1
          exact le_min (le_max_right _ _) (WithTop.coe_le_coe.mp h1)
      · intro b hb i x hx
        simp only [Option.some.injEq] at hb
        subst hb
        simp only [hx]
        exact min_le_right _ _

theorem clamp_eq (s : State d K) (p : Point d K) (h : InBox s.lower s.upper p) : s.clamp p = p := by
  rw [inBox_iff] at h
  have e1 : ∀ l, s.lower = some l → ∀ i, clampLow (p i) (l i) = p i := by
    intro l hl i
    cases hb : l i with
    | bot => rfl
    | coe x => exact max_eq_left (h.1 l hl i x hb)
  have e2 : ∀ u, s.upper = some u → ∀ i, clampHigh (p i) (u i) = p i := by
    intro u hu i
    cases hb : u i with
    | top => rfl
    | coe x => exact min_eq_left (h.2 u hu i x hb)
  unfold State.clamp
  cases hl : s.lower with
  | none =>
    cases hu : s.upper with
    | none => rfl
    | some u => funext i; exact e2 u hu i
  | some l =>
    have e1' : (fun i => clampLow (p i) (l i)) = p := by funext i; exact e1 l hl i
    cases hu : s.upper with
    | none => exact e1'
    | some u =>
      funext i
      show clampHigh ((fun i => clampLow (p i) (l i)) i) (u i) = p i
      rw [e1']
      exact e2 u hu i

section
variable [IsStrictOrderedRing K]

/-- The box is convex: midpoints. -/
theorem InBox.mid {l : Option (Fin d → WithBot K)} {u : Option (Fin d → WithTop K)} {p q r : Point d K}
    (hp : InBox l u p) (hq : InBox l u q) (hr : ∀ i, r i = 1 / 2 * (p i + q i)) : InBox l u r := by
  rw [inBox_iff] at *
  constructor
  · intro b hb i x hx
    have h1 := hp.1 b hb i x hx
    have h2 := hq.1 b hb i x hx
    rw [hr i]
    linarith
  · intro b hb i x hx
    have h1 := hp.2 b hb i x hx
    have h2 := hq.2 b hb i x hx
    rw [hr i]
    linarith

theorem sum_erase (f : Fin (d + 1) → K) (m : Fin (d + 1)) :
    ∑ j, f j - f m = ∑ j ∈ Finset.univ.erase m, f j := by
  rw [← Finset.add_sum_erase Finset.univ f (Finset.mem_univ m)]
  ring

theorem centroid_inBox (s : State d K) (hd : 0 < d) {l : Option (Fin d → WithBot K)}
    {u : Option (Fin d → WithTop K)} (h : ∀ i, InBox l u (s.simplex i)) : InBox l u s.centroid := by
  have hd' : (0 : K) < d := by exact_mod_cast hd
  have hc : (Finset.univ.erase s.argmax : Finset (Fin (d + 1))).card = d := by
    rw [Finset.card_erase_of_mem (Finset.mem_univ _)]
    simp
  rw [inBox_iff]
  constructor
  · intro b hb i x hx
    show x ≤ (∑ j, s.simplex j i - s.simplex s.argmax i) / d
    rw [sum_erase (fun j => s.simplex j i), le_div_iff₀ hd', mul_comm]
    have h1 : ∑ j ∈ Finset.univ.erase s.argmax, x ≤ ∑ j ∈ Finset.univ.erase s.argmax, s.simplex j i :=
      Finset.sum_le_sum fun j _ => ((inBox_iff l u _).mp (h j)).1 b hb i x hx
    rwa [Finset.sum_const, hc, nsmul_eq_mul] at h1
  · intro b hb i x hx
    show (∑ j, s.simplex j i - s.simplex s.argmax i) / d ≤ x
    rw [sum_erase (fun j => s.simplex j i), div_le_iff₀ hd', mul_comm]
    have h1 : ∑ j ∈ Finset.univ.erase s.argmax, s.simplex j i ≤ ∑ j ∈ Finset.univ.erase s.argmax, x :=
      Finset.sum_le_sum fun j _ => ((inBox_iff l u _).mp (h j)).2 b hb i x hx
    rwa [Finset.sum_const, hc, nsmul_eq_mul] at h1

end

/-- Invariant of the loop. -/
structure Inv (e : Env d K) (f : Point d K → WithTop K) (l : Option (Fin d → WithBot K))
    (u : Option (Fin d → WithTop K)) (s : State d K) : Prop where
  lower : s.lower = l
  upper : s.upper = u
  feas : ∀ i, InBox l u (s.simplex i)
  vals : ∀ i, s.values i = f (s.simplex i)
  amin : s.argmin = some (e.amin s.values)
  amax : s.argmax = e.amax s.values
  mem : ∀ i, s.simplex i ∈ s.trace
  tr : ∀ p ∈ s.trace, InBox l u p
  cnt : s.trace.length = s.evals

/-- The value `GetMin` returns. -/
def low (e : Env d K) (s : State d K) : WithTop K := s.values (e.amin s.values)

variable {e : Env d K} {f : Point d K → WithTop K} {l : Option (Fin d → WithBot K)}
  {u : Option (Fin d → WithTop K)}

theorem Inv.evaluate {s : State d K} (h : Inv e f l u s) (p : Point d K) (hp : InBox l u p) :
    s.evaluate f p = (f p, { s with evals := s.evals + 1, trace := p :: s.trace }) ∧
      Inv e f l u { s with evals := s.evals + 1, trace := p :: s.trace } := by
  constructor
  · unfold State.evaluate
    rw [if_pos]
    rw [feasible_iff, h.lower, h.upper]
    exact hp
  · exact ⟨h.lower, h.upper, h.feas, h.vals, h.amin, h.amax, fun i => List.mem_cons_of_mem _ (h.mem i),
      fun q hq => by
        rcases List.mem_cons.mp hq with rfl | hq
        · exact hp
        · exact h.tr q hq, by simp [h.cnt]⟩

theorem Inv.evaluate_not {s : State d K} (h : Inv e f l u s) (p : Point d K) (hp : ¬ InBox l u p) :
    s.evaluate f p = (⊤, s) := by
  unfold State.evaluate
  rw [if_neg]
  rw [feasible_iff, h.lower, h.upper]
  exact hp

theorem Inv.replace {s : State d K} (h : Inv e f l u s) (he : e.Ok) (hd : 0 < d) (p : Point d K)
    (hp : p ∈ s.trace) : Inv e f l u (s.replaceArgMax e p (f p)) ∧
      low e (s.replaceArgMax e p (f p)) ≤ low e s ∧ low e (s.replaceArgMax e p (f p)) ≤ f p := by
  refine ⟨⟨h.lower, h.upper, ?_, ?_, rfl, rfl, ?_, h.tr, h.cnt⟩, ?_, ?_⟩
  · intro i
    show InBox l u (Function.update s.simplex s.argmax p i)
    by_cases hi : i = s.argmax
    · subst hi
      rw [Function.update_self]
      exact h.tr p hp
    · rw [Function.update_of_ne hi]
      exact h.feas i
  · intro i
    show Function.update s.values s.argmax (f p) i = f (Function.update s.simplex s.argmax p i)
    by_cases hi : i = s.argmax
    · subst hi
      rw [Function.update_self, Function.update_self]
    · rw [Function.update_of_ne hi, Function.update_of_ne hi]
      exact h.vals i
  · intro i
    show Function.update s.simplex s.argmax p i ∈ s.trace
    by_cases hi : i = s.argmax
    · subst hi
      rw [Function.update_self]
      exact hp
    · rw [Function.update_of_ne hi]
      exact h.mem i
  · have key : ∀ i, low e (s.replaceArgMax e p (f p)) ≤ Function.update s.values s.argmax (f p) i :=
      fun i => he.amin _ i
    by_cases hm : e.amin s.values = s.argmax
    · obtain ⟨j, hj⟩ : ∃ j, j ≠ s.argmax := by
        haveI : Nontrivial (Fin (d + 1)) := ⟨⟨0, ⟨1, by omega⟩, by
          intro hc
          have := congrArg Fin.val hc
          simp at this⟩⟩
        exact exists_ne _
      have h1 := key j
      rw [Function.update_of_ne hj] at h1
      refine le_trans h1 ?_
      unfold low
      rw [hm, h.amax]
      exact he.amax _ j
    · have h1 := key (e.amin s.values)
      rwa [Function.update_of_ne hm] at h1
  · have h1 : low e (s.replaceArgMax e p (f p)) ≤ Function.update s.values s.argmax (f p) s.argmax :=
      he.amin _ _
    rwa [Function.update_self] at h1

/-- The loop of `EvaluateObjectiveAtAllPoints`. -/
theorem foldl_evaluateVertex (L : List (Fin (d + 1))) (s : State d K) (hl : s.lower = l) (hu : s.upper = u)
    (hf : ∀ i, InBox l u (s.simplex i)) : L.foldl (State.evaluateVertex f) s =
      { s with
        values := fun i => if i ∈ L then f (s.simplex i) else s.values i
        evals := s.evals + L.length
        trace := (L.map s.simplex).reverse ++ s.trace } := by
  induction L generalizing s with
  | nil => simp
  | cons i L ih =>
    rw [List.foldl_cons]
    have e1 : State.evaluateVertex f s i = { s with
        values := Function.update s.values i (f (s.simplex i))
        evals := s.evals + 1
        trace := s.simplex i :: s.trace } := by
      unfold State.evaluateVertex State.evaluate
      rw [if_pos]
      rw [feasible_iff, hl, hu]
      exact hf i
    rw [e1, ih]
    · simp only [List.map_cons, List.reverse_cons, List.append_assoc, List.length_cons, State.mk.injEq,
        true_and, List.cons_append, List.nil_append, List.mem_cons]
      refine ⟨?_, by omega, trivial⟩
      funext j
      by_cases h1 : j = i
      · subst h1
        simp
      · simp [h1]
    · exact hl
    · exact hu
    · exact hf

/-- After `EnforceBoundsOnAllPoints` and `EvaluateObjectiveAtAllPoints`. -/
theorem start_inv (s : State d K) (hb : boundsOk s.lower s.upper) (f : Point d K → WithTop K) :
    ∃ t, t = (({ s with evals := 0, trace := [] } : State d K).enforce.evaluateAll e f) ∧
      Inv e f s.lower s.upper t ∧ t.evals = d + 1 ∧ (∀ i, t.simplex i = s.clamp (s.simplex i)) ∧
      (∀ p ∈ t.trace, ∃ i, p = s.clamp (s.simplex i)) ∧ t.objective = s.objective := by
  refine ⟨_, rfl, ?_⟩
  have h1 : ∀ i, InBox s.lower s.upper
      (({ s with evals := 0, trace := [] } : State d K).enforce.simplex i) :=
    fun i => clamp_inBox s hb (s.simplex i)
  unfold State.evaluateAll
  rw [foldl_evaluateVertex (l := s.lower) (u := s.upper) _
    ({ s with evals := 0, trace := [] } : State d K).enforce rfl rfl h1]
  refine ⟨⟨rfl, rfl, h1, ?_, rfl, rfl, ?_, ?_, ?_⟩, ?_, fun i => rfl, ?_, rfl⟩
  · intro i
    simp [State.updateArgs]
  · intro i
    simp [State.updateArgs, State.enforce]
  · intro p hp
    simp only [State.updateArgs, State.enforce, List.append_nil, List.mem_reverse, List.mem_map] at hp
    obtain ⟨i, _, rfl⟩ := hp
    exact h1 i
  · simp [State.updateArgs, State.enforce]
  · simp [State.updateArgs, State.enforce]
  · intro p hp
    simp only [State.updateArgs, State.enforce, List.append_nil, List.mem_reverse, List.mem_map] at hp
    obtain ⟨i, _, rfl⟩ := hp
    exact ⟨i, rfl⟩

section
variable [IsStrictOrderedRing K]

/-- The loop of `ShrinkSimplex`. -/
theorem foldl_shrinkVertex (m : Fin (d + 1)) (L : List (Fin (d + 1))) (hn : L.Nodup) (s : State d K)
    (hl : s.lower = l) (hu : s.upper = u) (hf : ∀ i, InBox l u (s.simplex i))
    (hv : ∀ i, s.values i = f (s.simplex i)) (hmem : ∀ i, s.simplex i ∈ s.trace)
    (htr : ∀ p ∈ s.trace, InBox l u p) (hc : s.trace.length = s.evals) :
    ∃ t, L.foldl (State.shrinkVertex f m) s = t ∧ t.lower = l ∧ t.upper = u ∧ t.objective = s.objective ∧
      (∀ i, InBox l u (t.simplex i)) ∧ (∀ i, t.values i = f (t.simplex i)) ∧ (∀ i, t.simplex i ∈ t.trace) ∧
      (∀ p ∈ t.trace, InBox l u p) ∧ t.trace.length = t.evals ∧
      t.evals = s.evals + (L.filter (· ≠ m)).length ∧ (∀ i, i ∉ L ∨ i = m → t.simplex i = s.simplex i) ∧
      (∀ p ∈ t.trace, p ∈ s.trace ∨ ∃ i, t.simplex i = p) ∧ (∀ p ∈ s.trace, p ∈ t.trace) := by
  induction L generalizing s with
  | nil => exact ⟨s, rfl, hl, hu, rfl, hf, hv, hmem, htr, hc, by simp, fun i _ => rfl, fun p h => Or.inl h,
      fun p h => h⟩
  | cons i L ih =>
    rw [List.foldl_cons]
    have hn' := List.nodup_cons.mp hn
    by_cases him : i = m
    · have e1 : State.shrinkVertex f m s i = s := by
        unfold State.shrinkVertex
        rw [if_pos him]
      rw [e1]
      obtain ⟨t, h0, h1, h2, h3, h4, h5, h6, h7, h8, h9, h10, h11, h12⟩ := ih hn'.2 s hl hu hf hv hmem htr hc
      refine ⟨t, h0, h1, h2, h3, h4, h5, h6, h7, h8, ?_, ?_, h11, h12⟩
      · rw [h9, List.filter_cons_of_neg (by simp [him])]
      · intro j hj
        apply h10
        rcases hj with hj | hj
        · exact Or.inl fun h => hj (List.mem_cons_of_mem _ h)
        · exact Or.inr hj
    · obtain ⟨q, hq⟩ : ∃ q : Point d K, q = fun k => (1 / 2) * (s.simplex i k + s.simplex m k) := ⟨_, rfl⟩
      have hqb : InBox l u q := InBox.mid (hf i) (hf m) (fun k => by rw [hq])
      have e1 : State.shrinkVertex f m s i = { s with
          simplex := Function.update s.simplex i q
          values := Function.update s.values i (f q)
          evals := s.evals + 1
          trace := q :: s.trace } := by
        unfold State.shrinkVertex State.evaluateVertex State.evaluate
        rw [if_neg him, ← hq]
        simp only [Function.update_self]
        rw [if_pos]
        rw [feasible_iff]
        show InBox s.lower s.upper q
        rw [hl, hu]
        exact hqb
      rw [e1]
      obtain ⟨t, h0, h1, h2, h3, h4, h5, h6, h7, h8, h9, h10, h11, h12⟩ := ih hn'.2 { s with
          simplex := Function.update s.simplex i q
          values := Function.update s.values i (f q)
          evals := s.evals + 1
          trace := q :: s.trace } hl hu (by
            intro j
            show InBox l u (Function.update s.simplex i q j)
            by_cases hj : j = i
            · subst hj
              rw [Function.update_self]
              exact hqb
            · rw [Function.update_of_ne hj]
              exact hf j) (by
            intro j
            show Function.update s.values i (f q) j = f (Function.update s.simplex i q j)
            by_cases hj : j = i
            · subst hj
              rw [Function.update_self, Function.update_self]
            · rw [Function.update_of_ne hj, Function.update_of_ne hj]
              exact hv j) (by
            intro j
            show Function.update s.simplex i q j ∈ q :: s.trace
            by_cases hj : j = i
            · subst hj
              rw [Function.update_self]
              exact List.mem_cons_self
            · rw [Function.update_of_ne hj]
              exact List.mem_cons_of_mem _ (hmem j)) (by
            intro p hp
            rcases List.mem_cons.mp hp with rfl | hp
            · exact hqb
            · exact htr p hp) (by simp [hc])
      refine ⟨t, h0, h1, h2, h3, h4, h5, h6, h7, h8, ?_, ?_, ?_, ?_⟩
      · rw [h9, List.filter_cons_of_pos (by simp [him])]
        simp only [List.length_cons]
        omega
      · intro j hj
        have hji : j ≠ i := by
          rcases hj with hj | hj
          · intro hc
            exact hj (hc ▸ List.mem_cons_self)
          · exact fun hc => him (hc ▸ hj)
        rw [h10 j]
        · show Function.update s.simplex i q j = _
          rw [Function.update_of_ne hji]
        · rcases hj with hj | hj
          · exact Or.inl fun h => hj (List.mem_cons_of_mem _ h)
          · exact Or.inr hj
      · intro p hp
        rcases h11 p hp with h | h
        · rcases List.mem_cons.mp h with rfl | h
          · right
            refine ⟨i, ?_⟩
            rw [h10 i (Or.inl hn'.1)]
            exact Function.update_self _ _ _
          · exact Or.inl h
        · exact Or.inr h
      · intro p hp
        exact h12 p (List.mem_cons_of_mem _ hp)

theorem length_filter_ne (m : Fin (d + 1)) : ((List.finRange (d + 1)).filter (· ≠ m)).length = d := by
  have h1 : ((List.finRange (d + 1)).filter (· ≠ m)).length = (Finset.univ.erase m).card := by
    rw [← List.toFinset_card_of_nodup ((List.nodup_finRange _).filter _)]
    congr 1
    ext i
    simp
  rw [h1, Finset.card_erase_of_mem (Finset.mem_univ _)]
  simp

theorem Inv.shrink {s : State d K} (h : Inv e f l u s) (he : e.Ok) :
    Inv e f l u (s.shrink e f (e.amin s.values)) ∧ low e (s.shrink e f (e.amin s.values)) ≤ low e s ∧
      (s.shrink e f (e.amin s.values)).evals = s.evals + d ∧
      (s.shrink e f (e.amin s.values)).objective = s.objective ∧
      (∀ p ∈ (s.shrink e f (e.amin s.values)).trace, p ∈ s.trace ∨
        low e (s.shrink e f (e.amin s.values)) ≤ f p) ∧
      (∀ p ∈ s.trace, p ∈ (s.shrink e f (e.amin s.values)).trace) := by
  obtain ⟨t, h0, h1, h2, h3, h4, h5, h6, h7, h8, h9, h10, h11, h12⟩ :=
    foldl_shrinkVertex (f := f) (e.amin s.values) (List.finRange (d + 1)) (List.nodup_finRange _) s
      h.lower h.upper h.feas h.vals h.mem h.tr h.cnt
  unfold State.shrink
  rw [h0]
  have hlow : ∀ i, low e (State.updateArgs e t) ≤ t.values i := fun i => he.amin _ i
  refine ⟨⟨h1, h2, h4, h5, rfl, rfl, h6, h7, h8⟩, ?_, ?_, h3, ?_, h12⟩
  · refine le_trans (hlow (e.amin s.values)) ?_
    rw [h5, h10 _ (Or.inr rfl), ← h.vals]
    exact le_refl _
  · show t.evals = _
    rw [h9, length_filter_ne]
  · intro p hp
    rcases h11 p hp with h | ⟨i, rfl⟩
    · exact Or.inl h
    · right
      have := hlow i
      rwa [h5] at this

/-- What one iteration preserves and how many evaluations it makes. -/
structure Step (e : Env d K) (f : Point d K → WithTop K) (l : Option (Fin d → WithBot K))
    (u : Option (Fin d → WithTop K)) (s t : State d K) : Prop where
  inv : Inv e f l u t
  low : low e t ≤ low e s
  obj : t.objective = s.objective
  more : s.evals + 1 ≤ t.evals
  most : t.evals ≤ s.evals + d + 2
  sub : ∀ p ∈ s.trace, p ∈ t.trace
  seen : (∀ x, x ≤ e.narrow x) → ∀ p ∈ t.trace, p ∈ s.trace ∨ NelderMead.low e t ≤ f p

/-- The state after evaluating the points `new`. -/
structure Extends (e : Env d K) (f : Point d K → WithTop K) (l : Option (Fin d → WithBot K))
    (u : Option (Fin d → WithTop K)) (s t : State d K) (new : List (Point d K)) : Prop where
  inv : Inv e f l u t
  simplex : t.simplex = s.simplex
  values : t.values = s.values
  argmax : t.argmax = s.argmax
  obj : t.objective = s.objective
  evals : t.evals = s.evals + new.length
  trace : t.trace = new ++ s.trace

theorem Inv.extends {s : State d K} (h : Inv e f l u s) : Extends e f l u s s [] :=
  ⟨h, rfl, rfl, rfl, rfl, rfl, rfl⟩

theorem Extends.evaluate {s t : State d K} {new : List (Point d K)} (h : Extends e f l u s t new)
    (p : Point d K) (hp : InBox l u p) : (t.evaluate f p).1 = f p ∧
      Extends e f l u s (t.evaluate f p).2 (p :: new) := by
  obtain ⟨h1, h2⟩ := h.inv.evaluate p hp
  rw [h1]
  refine ⟨rfl, h2, h.simplex, h.values, h.argmax, h.obj, ?_, ?_⟩
  · simp only [h.evals, List.length_cons]
    omega
  · simp only [h.trace, List.cons_append]

theorem Extends.low {s t : State d K} {new : List (Point d K)} (h : Extends e f l u s t new) :
    low e t = low e s := by
  unfold NelderMead.low
  rw [h.values]

theorem Extends.replace {s t : State d K} {new : List (Point d K)} (h : Extends e f l u s t new)
    (he : e.Ok) (hd : 0 < d) (hn : 1 ≤ new.length) (hn' : new.length ≤ 2) (p : Point d K) (hp : p ∈ new)
    (hq : ∀ q ∈ new, f p ≤ f q) : Step e f l u s (t.replaceArgMax e p (f p)) := by
  have hp' : p ∈ t.trace := by
    rw [h.trace]
    exact List.mem_append_left _ hp
  obtain ⟨r1, r2, r3⟩ := h.inv.replace he hd p hp'
  refine ⟨r1, le_trans r2 (le_of_eq h.low), h.obj, ?_, ?_, ?_, ?_⟩
  · show s.evals + 1 ≤ t.evals
    rw [h.evals]
    omega
  · show t.evals ≤ _
    rw [h.evals]
    omega
  · intro p hp
    show p ∈ t.trace
    rw [h.trace]
    exact List.mem_append_right _ hp
  · intro _ q hq'
    have h1 : q ∈ t.trace := hq'
    rw [h.trace] at h1
    rcases List.mem_append.mp h1 with h1 | h1
    · exact Or.inr (le_trans r3 (hq q h1))
    · exact Or.inl h1

theorem Extends.shrink {s t : State d K} {new : List (Point d K)} (h : Extends e f l u s t new)
    (he : e.Ok) (hn : 1 ≤ new.length) (hn' : new.length ≤ 2)
    (hq : (∀ x, x ≤ e.narrow x) → ∀ q ∈ new, NelderMead.low e s ≤ f q) :
    Step e f l u s (t.shrink e f (e.amin s.values)) := by
  obtain ⟨r1, r2, r3, r4, r5, r6⟩ := h.inv.shrink he
  rw [h.values] at r1 r2 r3 r4 r5 r6
  rw [h.low] at r2
  refine ⟨r1, r2, r4.trans h.obj, ?_, ?_, ?_, ?_⟩
  · rw [r3, h.evals]
    omega
  · rw [r3, h.evals]
    omega
  · intro p hp
    apply r6
    rw [h.trace]
    exact List.mem_append_right _ hp
  · intro hnar q hq'
    rcases r5 q hq' with h1 | h1
    · rw [h.trace] at h1
      rcases List.mem_append.mp h1 with h1 | h1
      · exact Or.inr (le_trans r2 (hq hnar q h1))
      · exact Or.inl h1
    · exact Or.inr h1

theorem Inv.iteration {s : State d K} (h : Inv e f l u s) (he : e.Ok) (hd : 0 < d) :
    Step e f l u s (s.iteration e f (e.amin s.values)) := by
  have hcen : InBox l u s.centroid := centroid_inBox s hd h.feas
  obtain ⟨c, hc⟩ : ∃ c, c = s.centroid := ⟨_, rfl⟩
  obtain ⟨refl, hrefl⟩ : ∃ refl : Point d K,
      refl = fun i => (1 + 1) * c i - 1 * s.simplex s.argmax i := ⟨_, rfl⟩
  obtain ⟨exp, hexp⟩ : ∃ exp : Point d K, exp = fun i =>
      2 * ((1 + 1) * c i - 1 * s.simplex s.argmax i) + (1 - 2) * c i := ⟨_, rfl⟩
  obtain ⟨con, hcon⟩ : ∃ con : Point d K, con = fun i =>
      c i + 1 / 2 * ((1 + 1) * c i - 1 * s.simplex s.argmax i - c i) := ⟨_, rfl⟩
  obtain ⟨ins, hins⟩ : ∃ ins : Point d K, ins = fun i => c i + 1 / 2 * (s.simplex s.argmax i - c i) := ⟨_, rfl⟩
  have hmin : NelderMead.low e s ≤ s.values s.argmax := he.amin _ _
  have insB : InBox l u ins := InBox.mid (hc ▸ hcen) (h.feas s.argmax) (fun i => by rw [hins]; ring)
  unfold State.iteration
  simp only [← hc, ← hrefl, ← hexp, ← hcon, ← hins]
  by_cases hr : InBox l u refl
  · -- reflection evaluated
    obtain ⟨ev, x1⟩ := h.extends.evaluate refl hr
    obtain ⟨s1, hs1⟩ : ∃ s1, s1 = (s.evaluate f refl).2 := ⟨_, rfl⟩
    rw [← hs1] at x1
    simp only [ev, ← hs1]
    have conB : InBox l u con := InBox.mid (hc ▸ hcen) hr (fun i => by rw [hcon, hrefl]; ring)
    split_ifs with c1 c2 c3 c4 c5 c6
    · by_cases hx : InBox l u exp
      · obtain ⟨ev2, x2⟩ := x1.evaluate exp hx
        rw [ev2] at c2 ⊢
        refine x2.replace he hd (by simp) (by simp) exp (by simp) ?_
        intro q hq
        simp only [List.mem_cons, List.not_mem_nil, or_false] at hq
        rcases hq with rfl | rfl
        · exact le_refl _
        · exact le_of_lt c2
      · rw [x1.inv.evaluate_not _ hx] at c2
        exact absurd c2 not_top_lt
    · by_cases hx : InBox l u exp
      · obtain ⟨ev2, x2⟩ := x1.evaluate exp hx
        rw [ev2] at c2
        refine x2.replace he hd (by simp) (by simp) refl (by simp) ?_
        intro q hq
        simp only [List.mem_cons, List.not_mem_nil, or_false] at hq
        rcases hq with rfl | rfl
        · exact not_lt.mp c2
        · exact le_refl _
      · rw [x1.inv.evaluate_not _ hx]
        exact x1.replace he hd (by simp) (by simp) refl (by simp) (by simp)
    · exact x1.replace he hd (by simp) (by simp) refl (by simp) (by simp)
    · obtain ⟨ev2, x2⟩ := x1.evaluate con conB
      rw [ev2] at c5 ⊢
      refine x2.replace he hd (by simp) (by simp) con (by simp) ?_
      intro q hq
      simp only [List.mem_cons, List.not_mem_nil, or_false] at hq
      rcases hq with rfl | rfl
      · exact le_refl _
      · exact c5
    · obtain ⟨ev2, x2⟩ := x1.evaluate con conB
      rw [ev2] at c5
      refine x2.shrink he (by simp) (by simp) ?_
      intro _ q hq
      simp only [List.mem_cons, List.not_mem_nil, or_false] at hq
      have h1 : NelderMead.low e s ≤ f refl := not_lt.mp c1
      rcases hq with rfl | rfl
      · exact le_trans h1 (le_of_lt (not_le.mp c5))
      · exact h1
    · obtain ⟨ev2, x2⟩ := x1.evaluate ins insB
      rw [ev2] at c6 ⊢
      by_cases hle : f ins ≤ f refl
      · refine x2.replace he hd (by simp) (by simp) ins (by simp) ?_
        intro q hq
        simp only [List.mem_cons, List.not_mem_nil, or_false] at hq
        rcases hq with rfl | rfl
        · exact le_refl _
        · exact hle
      · exact absurd (lt_of_le_of_lt (le_trans (not_lt.mp c4) (le_of_lt (not_le.mp hle))) c6) (lt_irrefl _)
    · obtain ⟨ev2, x2⟩ := x1.evaluate ins insB
      rw [ev2] at c6
      refine x2.shrink he (by simp) (by simp) ?_
      intro hnar q hq
      simp only [List.mem_cons, List.not_mem_nil, or_false] at hq
      have h1 : NelderMead.low e s ≤ f refl := not_lt.mp c1
      rcases hq with rfl | rfl
      · exact le_trans hmin (le_trans (hnar _) (not_lt.mp c6))
      · exact h1
  · rw [h.evaluate_not refl hr]
    have c1 : ¬ (⊤ : WithTop K) < s.values (e.amin s.values) := not_top_lt
    have c3 : ¬ (match s.secondHighest with
        | none => false
        | some h => decide ((⊤ : WithTop K) < e.narrow h)) = true := by
      cases s.secondHighest <;> simp
    have c4 : ¬ (⊤ : WithTop K) < e.narrow (s.values s.argmax) := not_top_lt
    obtain ⟨ev2, x2⟩ := h.extends.evaluate ins insB
    simp only []
    split_ifs with a1 a5
    · exact absurd a1 c3
    · rw [ev2]
      exact x2.replace he hd (by simp) (by simp) ins (by simp) (by simp)
    · rw [ev2] at a5
      refine x2.shrink he (by simp) (by simp) ?_
      intro hnar q hq
      simp only [List.mem_cons, List.not_mem_nil, or_false] at hq
      subst hq
      exact le_trans hmin (le_trans (hnar _) (not_lt.mp a5))

/-- The loop ends, keeps the invariant and never raises the minimum. -/
theorem loop_spec (he : e.Ok) (hd : 0 < d) (maxEvals : ℤ) (tol : K) (goal : Option K) (fuel : ℕ)
    (s : State d K) (h : Inv e f l u s) (hfuel : (maxEvals - s.evals).toNat < fuel) :
    ∃ t, State.loop e f maxEvals tol goal fuel s = some t ∧ Inv e f l u t ∧ low e t ≤ low e s ∧
      t.objective = s.objective ∧ (t.evals : ℤ) ≤ max (s.evals : ℤ) (maxEvals + d + 1) ∧
      s.evals ≤ t.evals ∧
      (∀ p ∈ s.trace, p ∈ t.trace) ∧
      ((∀ x, x ≤ e.narrow x) → (∀ p ∈ s.trace, low e s ≤ f p) → ∀ p ∈ t.trace, low e t ≤ f p) ∧
      t.continues (e.amin t.values) maxEvals tol goal = false ∧
      ∀ fuel', fuel ≤ fuel' → State.loop e f maxEvals tol goal fuel' s = some t := by
  induction fuel generalizing s with
  | zero => omega
  | succ fuel ih =>
    by_cases hc : s.continues (e.amin s.values) maxEvals tol goal = true
    · have st := h.iteration he hd
      obtain ⟨t1, ht1⟩ : ∃ t1, t1 = s.iteration e f (e.amin s.values) := ⟨_, rfl⟩
      rw [← ht1] at st
      have hlt : (s.evals : ℤ) < maxEvals := by
        unfold State.continues at hc
        simp only [Bool.and_eq_true, decide_eq_true_eq] at hc
        exact hc.1.1
      have more := st.more
      have most := st.most
      obtain ⟨t, g0, g1, g2, g3, g4, g4', g5, g6, g7, g8⟩ := ih t1 st.inv (by omega)
      have unf : ∀ n, State.loop e f maxEvals tol goal (n + 1) s = State.loop e f maxEvals tol goal n t1 := by
        intro n
        rw [State.loop, h.amin]
        simp only [hc, if_true, ht1]
      refine ⟨t, ?_, g1, le_trans g2 st.low, g3.trans st.obj, ?_, by omega, fun p hp => g5 p (st.sub p hp), ?_,
        g7, ?_⟩
      · rw [unf, g0]
      · refine le_trans g4 ?_
        rw [max_le_iff]
        constructor
        · refine le_trans ?_ (le_max_right _ _)
          omega
        · exact le_max_right _ _
      · intro hnar hs
        refine g6 hnar ?_
        intro p hp
        rcases st.seen hnar p hp with h1 | h1
        · exact le_trans st.low (hs p h1)
        · exact h1
      · intro fuel' hf
        obtain ⟨n, rfl⟩ : ∃ n, fuel' = n + 1 := ⟨fuel' - 1, by omega⟩
        rw [unf]
        exact g8 n (by omega)
    · have unf : ∀ n, State.loop e f maxEvals tol goal (n + 1) s = some s := by
        intro n
        rw [State.loop, h.amin]
        simp only [hc, Bool.false_eq_true, if_false]
      refine ⟨s, unf fuel, h, le_refl _, rfl, le_max_left _ _, le_refl _, fun p hp => hp, fun _ hs => hs,
        by simpa using hc, ?_⟩
      intro fuel' hf
      obtain ⟨n, rfl⟩ : ∃ n, fuel' = n + 1 := ⟨fuel' - 1, by omega⟩
      exact unf n

omit [IsStrictOrderedRing K] in
theorem minimize_eq (s : State d K) (hf : s.objective = some f) (maxEvals : ℤ) (tol : K) (goal : Option K)
    (fuel : ℕ) : s.minimize e maxEvals tol goal fuel = State.loop e f maxEvals tol goal fuel
      (({ s with evals := 0, trace := [] } : State d K).enforce.evaluateAll e f) := by
  unfold State.minimize
  split
  · next h => rw [hf] at h; simp at h
  · next f' h =>
    rw [hf, Option.some.injEq] at h
    subst h
    rfl

/-- `MinimizeObjective`. -/
theorem minimize_spec (he : e.Ok) (hd : 0 < d) (maxEvals : ℤ) (tol : K) (goal : Option K)
    (s : State d K) (hb : boundsOk s.lower s.upper) (hf : s.objective = some f) :
    ∃ t, (∀ fuel, maxEvals.toNat < fuel → s.minimize e maxEvals tol goal fuel = some t) ∧
      Inv e f s.lower s.upper t ∧ (∀ i, low e t ≤ f (s.clamp (s.simplex i))) ∧
      t.objective = s.objective ∧ (t.evals : ℤ) ≤ max ((d : ℤ) + 1) (maxEvals + d + 1) ∧ d + 1 ≤ t.evals ∧
      (∀ i, s.clamp (s.simplex i) ∈ t.trace) ∧
      ((∀ x, x ≤ e.narrow x) → ∀ p ∈ t.trace, low e t ≤ f p) ∧
      t.continues (e.amin t.values) maxEvals tol goal = false := by
  obtain ⟨t0, ht0, hi, hn, hx, htr, hob⟩ := start_inv (e := e) s hb f
  obtain ⟨t, g0, g1, g2, g3, g4, g4', g5, g6, g7, g8⟩ :=
    loop_spec he hd maxEvals tol goal (maxEvals.toNat + 1) t0 hi (by omega)
  have hlow : ∀ i, low e t0 ≤ f (s.clamp (s.simplex i)) := by
    intro i
    have := he.amin t0.values i
    rwa [hi.vals i, hx i] at this
  refine ⟨t, ?_, g1, fun i => le_trans g2 (hlow i), g3.trans hob, ?_, by omega, ?_, ?_, g7⟩
  · intro fuel hfuel
    unfold State.minimize
    split
    · next h => rw [hf] at h; simp at h
    · next f' h =>
      rw [hf, Option.some.injEq] at h
      subst h
      rw [← ht0]
      exact g8 fuel (by omega)
  · rw [hn] at g4
    push_cast at g4
    exact g4
  · intro i
    rw [← hx i]
    exact g5 _ (hi.mem i)
  · intro hnar
    refine g6 hnar ?_
    intro p hp
    obtain ⟨i, rfl⟩ := htr p hp
    exact hlow i

/-- The bounds of a reachable searcher are consistent. -/
theorem reach_bounds (he : e.Ok) (hd : 0 < d) {s : State d K} (h : Reach e s) : boundsOk s.lower s.upper := by
  induction h with
  | init => trivial
  | setGuess g o _ heq ih =>
    unfold State.setGuess at heq
    split_ifs at heq
    simp only [Option.some.injEq] at heq
    subst heq
    exact ih
  | setSimplex x _ ih => exact ih
  | setObjective f _ ih => exact ih
  | setLower l _ heq ih =>
    unfold State.setLower at heq
    split_ifs at heq with hc
    simp only [Option.some.injEq] at heq
    subst heq
    exact hc
  | setUpper u _ heq ih =>
    unfold State.setUpper at heq
    split_ifs at heq with hc
    simp only [Option.some.injEq] at heq
    subst heq
    exact hc
  | clearBounds _ ih => trivial
  | @minimize s s' n t g k _ heq ih =>
    cases hf : s.objective with
    | none =>
      unfold State.minimize at heq
      rw [hf] at heq
      simp at heq
    | some f =>
      obtain ⟨t0, ht0, hi, -, -, -, -⟩ := start_inv (e := e) s ih f
      have heq : State.loop e f n t g k t0 = some s' := by
        unfold State.minimize at heq
        split at heq
        · next h => rw [hf] at h; simp at h
        · next f' h =>
          rw [hf, Option.some.injEq] at h
          subst h
          rw [ht0]
          exact heq
      have key : ∀ (k : ℕ) (r : State d K), Inv e f s.lower s.upper r →
          State.loop e f n t g k r = some s' → Inv e f s.lower s.upper s' := by
        intro k
        induction k with
        | zero => intro r _ h; simp [State.loop] at h
        | succ k ihk =>
          intro r hr h
          rw [State.loop, hr.amin] at h
          simp only at h
          split_ifs at h with hc
          · exact ihk _ (hr.iteration he hd).inv h
          · simp only [Option.some.injEq] at h
            exact h ▸ hr
      have := key k t0 hi heq
      rw [this.lower, this.upper]
      exact ih

end

end Verif.NelderMead
