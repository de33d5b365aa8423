import Verif.Spec.ParametricEqualizer
import Verif.Proof.AuditoryFilterbank4

/-! # Lemmas about the coefficients of the parametric equalizer -/

namespace Verif.ParametricEqualizer
open Verif.BiquadCascade Verif.FilterDesign Verif.BiquadAnalysis Verif.AuditoryFilterbank Spec

theorem threshold_eq : threshold = 1 / 10 ^ 10 := rfl

theorem factor_pos (g : ℝ) : 0 < factor g := Real.rpow_pos_of_pos (by norm_num) _

theorem dbToLinear_eq (g : ℝ) : dbToLinear g = factor g := rfl

theorem factor_zero : factor 0 = 1 := by unfold factor; simp

theorem decibels_factor (g : ℝ) : decibels (factor g) = g := by
  unfold decibels factor
  rw [Real.logb_rpow (by norm_num) (by norm_num)]
  ring

theorem factor_add (g h : ℝ) : factor (g + h) = factor g * factor h := by
  unfold factor
  rw [add_div, Real.rpow_add (by norm_num)]

theorem one_le_factor {g : ℝ} : 1 ≤ factor g ↔ 0 ≤ g := by
  constructor
  · intro h
    by_contra hg
    push Not at hg
    have : factor g < 1 := Real.rpow_lt_one_of_one_lt_of_neg (by norm_num) (by linarith)
    linarith
  · intro h
    exact Real.one_le_rpow (by norm_num) (by linarith)

/-! ### Simplification -/

theorem findPair_none {ε : ℝ} {l : List (List ℝ)} (h : ∀ p ∈ l, isFirstOrder ε p = false) : findPair ε l = none := by
  unfold findPair
  rw [findIdx?_none_of h]

theorem mergeFirstOrder_none {ε : ℝ} {l : List (List ℝ)} (h : ∀ p ∈ l, isFirstOrder ε p = false) :
    ∀ n, mergeFirstOrder ε n l = some l
  | 0 => rfl
  | n + 1 => by
    unfold mergeFirstOrder
    rw [findPair_none h]

theorem zipWith_eta : ∀ l : List (Stage ℝ), List.zipWith Stage.mk (l.map (·.b)) (l.map (·.a)) = l
  | [] => rfl
  | s :: l => by
    simp only [List.map_cons, List.zipWith_cons_cons, List.cons.injEq]
    exact ⟨trivial, zipWith_eta l⟩

theorem simplify_noFirst {ε : ℝ} {l : List (Stage ℝ)}
    (h : ∀ s ∈ l, isFirstOrder ε s.b = false ∧ isFirstOrder ε s.a = false) :
    simplify ε l = some (mergeZeroOrder ε l.length l) := by
  unfold simplify
  rw [mergeFirstOrder_none (by
      intro p hp; obtain ⟨s, hs, rfl⟩ := List.mem_map.1 hp; exact (h s hs).1),
    mergeFirstOrder_none (by
      intro p hp; obtain ⟨s, hs, rfl⟩ := List.mem_map.1 hp; exact (h s hs).2)]
  simp only [Option.bind_eq_bind, Option.bind_some, Option.pure_def]
  rw [zipWith_eta]

theorem second_notFirst {p : List ℝ} (h : threshold < |p.getD 2 0|) : isFirstOrder threshold p = false := by
  unfold isFirstOrder
  simp only [decide_eq_false_iff_not, not_and]
  intro h1
  exact absurd h1 (not_le.2 h)

theorem second_notZero {p : List ℝ} (h : threshold < |p.getD 2 0|) : isZeroOrder threshold p = false := by
  unfold isZeroOrder
  simp only [decide_eq_false_iff_not, not_and]
  intro _ h1
  exact absurd h1 (not_le.2 h)

theorem threshold_pos : 0 < threshold := by unfold threshold; positivity

theorem one_notFirst : isFirstOrder threshold [1, 0, 0] = false := by
  unfold isFirstOrder
  have := threshold_pos
  simp only [decide_eq_false_iff_not, not_and, not_lt]
  intro _
  simpa using this.le

theorem one_isZero : isZeroOrder threshold [1, 0, 0] = true := by
  unfold isZeroOrder
  have := threshold_pos
  simp
  exact this.le

theorem findIdx?_middle {α : Type} {q : α → Bool} {xs ys : List α} {a : α} (hx : ∀ x ∈ xs, q x = false)
    (ha : q a = true) : (xs ++ a :: ys).findIdx? q = some xs.length := by
  rw [List.findIdx?_append, findIdx?_none_of hx, List.findIdx?_cons, if_pos ha]
  simp

theorem simplify_identity {xs ys : List (Stage ℝ)} (hx : ∀ s ∈ xs, SecondOrder s) (hy : ∀ s ∈ ys, SecondOrder s)
    (hne : xs ++ ys ≠ []) : simplify threshold (xs ++ identityStage :: ys) = some (xs ++ ys) := by
  rw [simplify_noFirst]
  · congr 1
    have hl : (xs ++ identityStage :: ys).length = (xs ++ ys).length + 1 := by simp; omega
    have hpos := List.length_pos_of_ne_nil hne
    rw [hl, mergeZeroOrder, if_pos (by rw [hl]; omega)]
    have hf : findZeroOrder threshold (xs ++ identityStage :: ys) = some (xs.length, xs.length) := by
      unfold findZeroOrder
      rw [findIdx?_middle (fun s hs => second_notZero (hx s hs).2) one_isZero]
      dsimp only
      rw [findIdx?_middle (fun s hs => second_notZero (hx s hs).1) one_isZero]
    rw [hf]
    dsimp only
    have hd : dropZeroOrder (xs ++ identityStage :: ys) xs.length xs.length = xs ++ ys := by
      unfold dropZeroOrder
      have : (xs ++ identityStage :: ys).getD xs.length ⟨[], []⟩ = identityStage := by simp
      simp only [this, ne_eq, not_true_eq_false, if_false]
      have : identityStage.b.getD 0 0 / identityStage.a.getD 0 0 = 1 := by simp [identityStage]
      rw [this, if_neg (by simp)]
      simp [List.eraseIdx_append_of_length_le]
    rw [hd]
    apply mergeZeroOrder_id
    intro s hs
    rcases List.mem_append.1 hs with h | h
    · exact (hx s h).2
    · exact (hy s h).2
  · intro s hs
    rcases List.mem_append.1 hs with h | h
    · exact ⟨second_notFirst (hx s h).1, second_notFirst (hx s h).2⟩
    · rcases List.mem_cons.1 h with rfl | h
      · exact ⟨one_notFirst, one_notFirst⟩
      · exact ⟨second_notFirst (hy s h).1, second_notFirst (hy s h).2⟩

theorem simplify_one_identity : simplify threshold [identityStage] = some [identityStage] := by
  rw [simplify_noFirst]
  · rfl
  · intro s hs
    rw [List.mem_singleton.1 hs]
    exact ⟨one_notFirst, one_notFirst⟩

theorem simplify_two_identity : simplify threshold [identityStage, identityStage] = some [identityStage] := by
  rw [simplify_noFirst]
  · congr 1
    have hf : findZeroOrder threshold [identityStage, identityStage] = some (0, 0) := by
      unfold findZeroOrder
      rw [List.findIdx?_cons, if_pos (show isZeroOrder threshold identityStage.a = true from one_isZero)]
      dsimp only
      rw [List.findIdx?_cons, if_pos (show isZeroOrder threshold identityStage.b = true from one_isZero)]
    rw [show [identityStage, identityStage].length = 1 + 1 from rfl, mergeZeroOrder, if_pos (by simp), hf]
    dsimp only
    have hd : dropZeroOrder [identityStage, identityStage] 0 0 = [identityStage] := by
      unfold dropZeroOrder
      simp [identityStage]
    rw [hd, mergeZeroOrder, if_neg (by simp)]
  · intro s hs
    simp only [List.mem_cons, List.not_mem_nil, or_false, or_self] at hs
    rw [hs]
    exact ⟨one_notFirst, one_notFirst⟩

/-- The cascade after some stages, of which those that are enabled have the coefficients `ds`. -/
def shown (ds : List (Stage ℝ)) : List (Stage ℝ) := if ds = [] then [identityStage] else ds

theorem append_identity {ds : List (Stage ℝ)} (h : ∀ s ∈ ds, SecondOrder s) :
    appendBiquad threshold (shown ds) identityStage = some (shown ds) := by
  unfold appendBiquad shown
  split_ifs with hd
  · exact simplify_two_identity
  · have := simplify_identity (xs := ds) (ys := []) h (by simp) (by simpa using hd)
    rw [List.append_nil] at this
    exact this

theorem append_design {ds : List (Stage ℝ)} {d : Stage ℝ} (h : ∀ s ∈ ds, SecondOrder s) (hd : SecondOrder d) :
    appendBiquad threshold (shown ds) d = some (shown (ds ++ [d])) := by
  unfold appendBiquad shown
  rw [if_neg (by simp : ¬ ds ++ [d] = [])]
  split_ifs with he
  · subst he
    exact simplify_identity (xs := []) (ys := [d]) (by simp) (by simpa using hd) (by simp)
  · apply simplify_id
    intro s hs
    rcases List.mem_append.1 hs with hs | hs
    · exact h s hs
    · rw [List.mem_singleton.1 hs]; exact hd

/-- The designs of the bands in use. -/
def Designs (rate : ℝ) (bs : List Band) (ds : List (Stage ℝ)) : Prop :=
  List.Forall₂ (fun s c => design rate s = some c ∧ SecondOrder c) bs ds

theorem loop_from {rate : ℝ} : ∀ (ss : List Band) (os : List Bool) (es ds : List (Stage ℝ)), (∀ s ∈ es, SecondOrder s) →
    Designs rate ((ss.zip os).filterMap fun x => if x.2 = true then some x.1 else none) ds →
    coefficientLoop rate ss os (shown es) = .ok (shown (es ++ ds))
  | [], os, es, ds, he, h => by
    cases os <;> (cases h; unfold coefficientLoop; rw [List.append_nil])
  | s :: ss, [], es, ds, he, h => by
    cases h; unfold coefficientLoop; rw [List.append_nil]
  | s :: ss, on :: os, es, ds, he, h => by
    rw [coefficientLoop]
    unfold stageFor
    cases on with
    | false =>
      rw [if_neg (by simp)]
      dsimp only
      rw [append_identity he]
      dsimp only
      exact loop_from ss os es ds he (by simpa using h)
    | true =>
      rw [if_pos rfl]
      have h' : Designs rate (s :: (ss.zip os).filterMap fun x => if x.2 = true then some x.1 else none) ds := by
        simpa using h
      cases h' with
      | cons h1 h2 =>
        rw [h1.1]
        dsimp only
        rw [append_design he h1.2]
        dsimp only
        rw [loop_from ss os _ _ (by
          intro t ht
          rcases List.mem_append.1 ht with ht | ht
          · exact he t ht
          · rw [List.mem_singleton.1 ht]; exact h1.2) h2, List.append_assoc]
        rfl

theorem loop_start {rate : ℝ} {ss : List Band} {os : List Bool} {ds : List (Stage ℝ)} (hs : ss ≠ []) (ho : os ≠ [])
    (h : Designs rate ((ss.zip os).filterMap fun x => if x.2 = true then some x.1 else none) ds) :
    coefficientLoop rate ss os [] = .ok (shown ds) := by
  match ss, os, hs, ho with
  | s :: ss, on :: os, _, _ =>
    rw [coefficientLoop]
    unfold stageFor
    cases on with
    | false =>
      rw [if_neg (by simp)]
      dsimp only
      rw [show appendBiquad threshold [] identityStage = some [identityStage] from simplify_one_identity]
      dsimp only
      have := loop_from ss os [] ds (by simp) (by simpa using h)
      simpa [shown] using this
    | true =>
      rw [if_pos rfl]
      have h' : Designs rate (s :: (ss.zip os).filterMap fun x => if x.2 = true then some x.1 else none) ds := by
        simpa using h
      cases h' with
      | @cons _ d _ ds' h1 h2 =>
        rw [h1.1]
        dsimp only
        rw [show appendBiquad threshold [] d = some [d] from simplify_id (l := [d]) (by
          intro s hs; rw [List.mem_singleton.1 hs]; exact h1.2)]
        dsimp only
        have := loop_from ss os [d] ds' (by simpa using h1.2) h2
        simpa [shown] using this

theorem coefficients_eq {rate : ℝ} {p : Params} {ds : List (Stage ℝ)} (hr : 0 < rate) (hp : p.stages ≠ [])
    (hl : p.stages.length = p.enabled.length) (h : Designs rate (enabledBands p) ds) :
    getCoefficients p rate = .ok (adjustGain (factor p.gain) (shown ds)) := by
  unfold getCoefficients
  rw [if_pos hr, loop_start hp (by
    intro h
    rw [h] at hl
    exact hp (List.length_eq_zero_iff.1 hl)) h]
  have : shown ds ≠ [] := by
    unfold shown
    split_ifs with h
    · simp
    · exact h
  match hs : shown ds, this with
  | c :: cs, _ => rfl

end Verif.ParametricEqualizer
