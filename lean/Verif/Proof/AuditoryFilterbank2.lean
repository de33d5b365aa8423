import Verif.Proof.AuditoryFilterbank

/-! # The stages designed one after the other -/

namespace Verif.AuditoryFilterbank
open Verif.BiquadCascade Verif.FilterDesign Verif.BiquadAnalysis

export Spec (noStage)

theorem foldl_mul (l : List ℂ) : ∀ a : ℂ, l.foldl (· * ·) a = a * l.prod := by
  induction l with
  | nil => intro a; simp
  | cons x l ih => intro a; rw [List.foldl_cons, ih, List.prod_cons, mul_assoc]

theorem prod_range_list (f : ℕ → ℂ) : ∀ n, ∏ j ∈ Finset.range n, f j = ((List.range n).map f).prod
  | 0 => by simp
  | n + 1 => by rw [Finset.prod_range_succ, prod_range_list f n, List.range_succ, List.map_append]; simp

theorem gainMagnitude_eq (cs : List (Stage ℝ)) (R : ℕ → ℝ) (k : ℕ) (h : cs.length = k + 1) (hz : ℝ) :
    gainMagnitude cs ((List.range (k + 1)).map R) hz = Spec.gain (fun j => cs.getD j noStage) R k hz := by
  unfold gainMagnitude Spec.gain responses
  congr 1
  · rw [foldl_mul, one_mul]
    have : List.zipWith (fun c r => response c (2 * Real.pi * hz / r)) cs ((List.range (k + 1)).map R) =
        (List.range (k + 1)).map fun j => response (cs.getD j noStage) (radians hz (R j)) := by
      apply List.ext_getElem
      · simp [h]
      · intro n h1 h2
        simp only [List.length_map, List.length_range] at h2
        rw [List.getElem_zipWith, List.getElem_map, List.getElem_map, List.getElem_range, List.getD_eq_getElem _ _ (by omega)]
        rfl
    rw [this, ← prod_range_list, norm_prod]
  · have : ((List.range (k + 1)).map R).getLastD 0 = R k := by
      rw [List.range_succ, List.map_append]
      simp
    rw [this]
    unfold radians
    congr 4
    push_cast
    ring

theorem gain_congr {c c' : ℕ → Stage ℝ} {R : ℕ → ℝ} {k : ℕ} (h : ∀ j ≤ k, c j = c' j) (hz : ℝ) :
    Spec.gain c R k hz = Spec.gain c' R k hz := by
  unfold Spec.gain
  congr 1
  apply Finset.prod_congr rfl
  intro j hj
  rw [h j (by simpa [Nat.lt_succ_iff] using hj)]

/-- A stage as designed: the coefficients of stage `k` are those of the resonator divided by the gain at the peak found. -/
structure GoodAt (p : Params) (allow : Bool) (rate : ℝ) (cs : List (Stage ℝ)) (peaks : List ℝ) (k : ℕ) (r : Stage ℝ)
    (g : ℝ) : Prop where
  made : resonator p (Spec.rateOf p allow rate k) (Spec.freq p rate k) = some r
  res : Res p.zeta (Spec.rateOf p allow rate k) (Spec.freq p rate k) r
  found : bisection (gainMagnitude (cs.take k ++ [r]) ((List.range (k + 1)).map (Spec.rateOf p allow rate))) 0
    (Spec.rateOf p allow rate k / 2) = some (peaks.getD k 0, g)
  pos : 0 < g
  stage : cs[k]? = some (adjustStage r (1 / g))
  peak : 0 < peaks.getD k 0 ∧ peaks.getD k 0 < Spec.rateOf p allow rate k / 2
  value : g = Spec.gain (fun j => (cs.take k ++ [r]).getD j noStage) (Spec.rateOf p allow rate) k (peaks.getD k 0)
  grid : ∀ j : ℕ, 1 ≤ j → j ≤ 98 →
    Spec.gain (fun j => (cs.take k ++ [r]).getD j noStage) (Spec.rateOf p allow rate) k
      (j * (Spec.rateOf p allow rate k / 2 / 99)) ≤ g

/-- All stages as designed. -/
def Good (p : Params) (allow : Bool) (rate : ℝ) (cs : List (Stage ℝ)) (peaks : List ℝ) : Prop :=
  peaks.length = cs.length ∧ ∀ k < cs.length, ∃ r g, GoodAt p allow rate cs peaks k r g

theorem response_adjust (r : Stage ℝ) {g : ℝ} (hg : 0 < g) (ω : ℝ) :
    ‖response (adjustStage r (1 / g)) ω‖ = ‖response r ω‖ / g := by
  have := gainAt_adjust r (1 / g) ω
  unfold gainAt at this
  rw [this, abs_of_pos (by positivity)]
  ring

theorem radians_range {hz rate : ℝ} (h0 : 0 < hz) (h1 : hz < rate / 2) :
    0 < radians hz rate ∧ radians hz rate < Real.pi := by
  have hpi := Real.pi_pos
  have hr : 0 < rate := by linarith
  unfold radians
  refine ⟨by positivity, ?_⟩
  rw [div_lt_iff₀ hr]
  nlinarith

theorem diff_pos {ω : ℝ} (h0 : 0 < ω) (h1 : ω < Real.pi) : 0 < ‖(1 : ℂ) - Complex.exp ((ω : ℝ) * Complex.I)‖ := by
  rw [norm_pos_iff]
  intro h
  have := congrArg Complex.re (sub_eq_zero.1 h)
  rw [Complex.exp_ofReal_mul_I_re, Complex.one_re] at this
  have h2 := Real.cos_lt_cos_of_nonneg_of_le_pi (le_refl 0) h1.le h0
  rw [Real.cos_zero] at h2
  linarith

theorem GoodAt.response_pos {p : Params} {allow : Bool} {rate : ℝ} {cs : List (Stage ℝ)} {peaks : List ℝ} {k : ℕ}
    {r : Stage ℝ} {g : ℝ} (h : GoodAt p allow rate cs peaks k r g) (hz : 0 < p.zeta) {ω : ℝ} (h0 : 0 < ω)
    (h1 : ω < Real.pi) : 0 < ‖response (cs.getD k noStage) ω‖ := by
  rw [List.getD_eq_getElem?_getD, h.stage]
  show 0 < ‖response (adjustStage r (1 / g)) ω‖
  rw [response_adjust r h.pos]
  have := (h.res.gain ω h0 h1).1
  exact div_pos (by linarith) h.pos

theorem getD_append_self {α : Type} (l : List α) (a d : α) : (l ++ [a]).getD l.length d = a := by
  rw [List.getD_append_right _ _ _ _ (le_refl _)]
  simp

/-- The gain with the next resonator is positive between zero and the Nyquist frequency. -/
theorem Good.gain_pos {p : Params} {allow : Bool} {rate : ℝ} {cs : List (Stage ℝ)} {peaks : List ℝ}
    (h : Good p allow rate cs peaks) (hr : 0 < rate) (hz : 0 < p.zeta) {r : Stage ℝ}
    (hres : ∀ ω, 0 < ω → ω < Real.pi → p.zeta / 3 ≤ ‖response r ω‖) {f : ℝ} (h0 : 0 < f)
    (h1 : f < Spec.rateOf p allow rate cs.length / 2) :
    0 < Spec.gain (fun j => (cs ++ [r]).getD j noStage) (Spec.rateOf p allow rate) cs.length f := by
  unfold Spec.gain
  have hrange : ∀ j ≤ cs.length, 0 < radians f (Spec.rateOf p allow rate j) ∧
      radians f (Spec.rateOf p allow rate j) < Real.pi := by
    intro j hj
    exact radians_range h0 (by have := rateOf_anti (p := p) (allow := allow) hr hj; linarith)
  apply mul_pos
  · apply Finset.prod_pos
    intro j hj
    rw [Finset.mem_range] at hj
    obtain ⟨w0, w1⟩ := hrange j (by omega)
    dsimp only
    rcases Nat.lt_or_ge j cs.length with hj' | hj'
    · obtain ⟨r', g, hg⟩ := h.2 j hj'
      rw [List.getD_append _ _ _ _ hj']
      exact hg.response_pos hz w0 w1
    · obtain rfl : j = cs.length := by omega
      rw [getD_append_self]
      have := hres _ w0 w1
      linarith
  · obtain ⟨w0, w1⟩ := hrange cs.length le_rfl
    exact diff_pos w0 w1

/-- One more stage. -/
theorem Good.step {p : Params} {allow : Bool} {rate : ℝ} {cs : List (Stage ℝ)} {peaks : List ℝ}
    (h : Good p allow rate cs peaks) (hu : Usable p allow rate)
    (hk : ∀ j ≤ cs.length, p.minPole < Spec.freq p rate j) :
    ∃ r g x, Good p allow rate (cs ++ [adjustStage r (1 / g)]) (peaks ++ [x]) ∧
      GoodAt p allow rate (cs ++ [adjustStage r (1 / g)]) (peaks ++ [x]) cs.length r g := by
  obtain ⟨h1, h2, h3, h4, h5, h6, h7, h8, h9, -, -⟩ := id hu.ok
  have hpole := hu.pole_lt cs.length hk
  obtain ⟨r, e1, hr⟩ := resonator_spec h7 h8 (h9.trans (hk cs.length le_rfl)) hpole
  have hR := rateOf_pos (p := p) (allow := allow) h1 cs.length
  obtain ⟨fn, hfn⟩ : ∃ fn, fn = gainMagnitude (cs ++ [r]) ((List.range (cs.length + 1)).map (Spec.rateOf p allow rate)) :=
    ⟨_, rfl⟩
  have hfn' : ∀ x, fn x = Spec.gain (fun j => (cs ++ [r]).getD j noStage) (Spec.rateOf p allow rate) cs.length x := by
    intro x
    rw [hfn, gainMagnitude_eq _ _ _ (by simp)]
  have hfpos : ∀ x, 0 < x → x < Spec.rateOf p allow rate cs.length / 2 → 0 < fn x := by
    intro x x0 x1
    rw [hfn']
    exact h.gain_pos h1 h7 (fun ω w0 w1 => (hr.gain ω w0 w1).1) x0 x1
  obtain ⟨x, b1, b2, b3, b4⟩ := C73_bisection_grid (fn := fn) (lo := 0) (hi := Spec.rateOf p allow rate cs.length / 2)
    (by linarith) ⟨1, le_rfl, by norm_num, hfpos _ (by push_cast; linarith) (by push_cast; linarith)⟩
  have htake : (cs ++ [adjustStage r (1 / fn x)]).take cs.length = cs := by simp
  have hpk : (peaks ++ [x]).getD cs.length 0 = x := by rw [← h.1]; exact getD_append_self _ _ _
  have hgood : GoodAt p allow rate (cs ++ [adjustStage r (1 / fn x)]) (peaks ++ [x]) cs.length r (fn x) := by
    refine ⟨e1, hr, ?_, hfpos x b2 b3, by simp, ?_, ?_, ?_⟩
    · rw [htake, hpk, ← hfn, b1]
    · rw [hpk]; exact ⟨b2, b3⟩
    · rw [htake, hpk, hfn']
    · rw [htake]
      intro j j1 j2
      have := b4 j j1 j2
      rwa [hfn', zero_add, sub_zero] at this
  refine ⟨r, fn x, x, ⟨by simp [h.1], fun k hk' => ?_⟩, hgood⟩
  rcases Nat.lt_or_ge k cs.length with hlt | hge
  · obtain ⟨r', g', hg'⟩ := h.2 k hlt
    have t1 : (cs ++ [adjustStage r (1 / fn x)]).take k = cs.take k := by
      rw [List.take_append_of_le_length hlt.le]
    have t2 : (peaks ++ [x]).getD k 0 = peaks.getD k 0 := List.getD_append _ _ _ _ (by rw [h.1]; exact hlt)
    refine ⟨r', g', ⟨hg'.made, hg'.res, ?_, hg'.pos, ?_, ?_, ?_, ?_⟩⟩
    · rw [t1, t2]; exact hg'.found
    · rw [List.getElem?_append_left hlt]; exact hg'.stage
    · rw [t2]; exact hg'.peak
    · rw [t1, t2]; exact hg'.value
    · rw [t1]; exact hg'.grid
  · obtain rfl : k = cs.length := by simp at hk'; omega
    exact ⟨r, fn x, hgood⟩

theorem good_exists {p : Params} {allow : Bool} {rate : ℝ} (hu : Usable p allow rate) :
    ∀ n, (∀ j < n, p.minPole < Spec.freq p rate j) → ∃ cs peaks, cs.length = n ∧ Good p allow rate cs peaks
  | 0, _ => ⟨[], [], rfl, rfl, by simp⟩
  | n + 1, hk => by
    obtain ⟨cs, peaks, rfl, h⟩ := good_exists hu n fun j hj => hk j (by omega)
    obtain ⟨r, g, x, h', -⟩ := h.step hu fun j hj => hk j (by omega)
    exact ⟨_, _, by simp, h'⟩

/-- The gain of the path to a channel, at the peak found and on the grid. -/
theorem GoodAt.unit {p : Params} {allow : Bool} {rate : ℝ} {cs : List (Stage ℝ)} {peaks : List ℝ} {k : ℕ} {r : Stage ℝ}
    {g : ℝ} (h : GoodAt p allow rate cs peaks k r g) (hz : ℝ) :
    Spec.gain (fun j => cs.getD j noStage) (Spec.rateOf p allow rate) k hz =
      Spec.gain (fun j => (cs.take k ++ [r]).getD j noStage) (Spec.rateOf p allow rate) k hz / g := by
  have hk : k < cs.length := (List.getElem?_eq_some_iff.1 h.stage).1
  have hlen : (cs.take k).length = k := by simp; omega
  unfold Spec.gain
  rw [Finset.prod_range_succ, Finset.prod_range_succ]
  have e1 : ∀ ω, ‖response (cs.getD k noStage) ω‖ = ‖response ((cs.take k ++ [r]).getD k noStage) ω‖ / g := by
    intro ω
    have : (cs.take k ++ [r]).getD k noStage = r := by
      conv_lhs => rw [← hlen]
      simp only [hlen]
      have := getD_append_self (cs.take k) r noStage
      rwa [hlen] at this
    rw [this, List.getD_eq_getElem?_getD, h.stage]
    exact response_adjust r h.pos ω
  rw [e1]
  have e2 : ∏ x ∈ Finset.range k, ‖response (cs.getD x noStage) (radians hz (Spec.rateOf p allow rate x))‖ =
      ∏ x ∈ Finset.range k, ‖response ((cs.take k ++ [r]).getD x noStage) (radians hz (Spec.rateOf p allow rate x))‖ := by
    apply Finset.prod_congr rfl
    intro j hj
    rw [Finset.mem_range] at hj
    rw [List.getD_append _ _ _ _ (by omega), List.getD_eq_getElem?_getD, List.getD_eq_getElem?_getD,
      List.getElem?_take_of_lt hj]
  rw [e2]
  ring

/-! ### The loop over the stages -/

variable {C : ℕ}

/-- The filter of a stage. -/
noncomputable def filterOf (c : Stage ℝ) : Biquad.Filter ℝ := (Biquad.init c.coeffs).getD ⟨0, 0, 0, 0, 0⟩

/-- Whether the input of a stage is decimated. -/
noncomputable def decimated (p : Params) (allow : Bool) (rate : ℝ) (k : ℕ) : Bool :=
  decimateFirst p allow k (prevRate p allow rate k) (Spec.freq p rate k)

/-- The filterbank after `k` stages. -/
noncomputable def built (s : Bank C) (rate : ℝ) (cs : List (Stage ℝ)) (peaks : List ℝ) : Bank C :=
  { s with
    peaks := peaks
    coeffs := cs
    filters := cs.map fun c => (filterOf c, fun _ => Biquad.resetState)
    rates := (List.range cs.length).map (Spec.rateOf s.params s.allow rate)
    diffs := List.replicate cs.length 0
    decimators := ((List.range cs.length).filter (decimated s.params s.allow rate)).map fun _ => false }

theorem GoodAt.lens {p : Params} {allow : Bool} {rate : ℝ} {cs : List (Stage ℝ)} {peaks : List ℝ} {k : ℕ} {r : Stage ℝ}
    {g : ℝ} (h : GoodAt p allow rate cs peaks k r g) :
    (cs.getD k noStage).b.length = 3 ∧ (cs.getD k noStage).a.length = 3 ∧ (cs.getD k noStage).a.getD 0 0 = 1 ∧
      1 / 3 ≤ (cs.getD k noStage).a.getD 2 0 ∧ 1 / 5 / g ≤ (cs.getD k noStage).b.getD 2 0 := by
  rw [List.getD_eq_getElem?_getD, h.stage]
  refine ⟨?_, h.res.lenA, h.res.a0, h.res.a2, ?_⟩
  · show (r.b.map _).length = 3
    rw [List.length_map, h.res.lenB]
  · show 1 / 5 / g ≤ (r.b.map (· * (1 / g))).getD 2 0
    have : (r.b.map (· * (1 / g))).getD 2 0 = r.b.getD 2 0 * (1 / g) := by
      rw [List.getD_eq_getElem _ _ (by rw [List.length_map, h.res.lenB]; norm_num), List.getElem_map,
        List.getD_eq_getElem _ _ (by rw [h.res.lenB]; norm_num)]
    rw [this, mul_one_div]
    exact div_le_div_of_nonneg_right h.res.b2 h.pos.le

theorem init_filterOf {c : Stage ℝ} (h : c.a.getD 0 0 = 1) : Biquad.init c.coeffs = some (filterOf c) := by
  unfold filterOf
  cases e : Biquad.init c.coeffs with
  | some f => rfl
  | none =>
    rw [Biquad.C21_init_check] at e
    have : c.coeffs.a0 = c.a.getD 0 0 := rfl
    rw [this, h] at e
    norm_num at e

theorem designStage_ok {s : Bank C} {rate : ℝ} {cs : List (Stage ℝ)} {peaks : List ℝ} {r : Stage ℝ} {g x : ℝ}
    (h : Good s.params s.allow rate cs peaks)
    (h' : GoodAt s.params s.allow rate (cs ++ [adjustStage r (1 / g)]) (peaks ++ [x]) cs.length r g)
    (hb : ∀ k < cs.length, 1 / 10 ^ 10 < |(cs.getD k noStage).b.getD 2 0|) :
    (built s rate cs peaks).designStage cs.length (prevRate s.params s.allow rate cs.length)
        (Spec.freq s.params rate cs.length) =
      .ok (built s rate (cs ++ [adjustStage r (1 / g)]) (peaks ++ [x]), Spec.rateOf s.params s.allow rate cs.length) := by
  have hpk : (peaks ++ [x]).getD cs.length 0 = x := by rw [← h.1]; exact getD_append_self _ _ _
  have htake : (cs ++ [adjustStage r (1 / g)]).take cs.length = cs := by simp
  have hfound := h'.found
  rw [htake, hpk] at hfound
  unfold Bank.designStage
  simp only [decimateFirst_rate, show (built s rate cs peaks).params = s.params from rfl,
    show (built s rate cs peaks).allow = s.allow from rfl, h'.made]
  have hs : appendBiquad (1 / 10 ^ 10) (built s rate cs peaks).coeffs r = some (cs ++ [r]) := by
    show simplify (1 / 10 ^ 10) (cs ++ [r]) = _
    apply simplify_id
    intro c hc
    rw [List.mem_append, List.mem_singleton] at hc
    rcases hc with hc | rfl
    · obtain ⟨k, hk, rfl⟩ := List.getElem_of_mem hc
      obtain ⟨r', g', hg'⟩ := h.2 k hk
      have h1 := hb k hk
      have h2 := hg'.lens.2.2.2.1
      rw [List.getD_eq_getElem _ _ hk] at h1 h2
      refine ⟨h1, ?_⟩
      rw [abs_of_pos (by linarith)]
      exact lt_of_lt_of_le (by norm_num) h2
    · have h1 := h'.res.b2
      have h2 := h'.res.a2
      constructor
      · rw [abs_of_pos (by linarith)]
        exact lt_of_lt_of_le (by norm_num) h1
      · rw [abs_of_pos (by linarith)]
        exact lt_of_lt_of_le (by norm_num) h2
  have hrates : (built s rate cs peaks).rates ++ [Spec.rateOf s.params s.allow rate cs.length] =
      (List.range (cs.length + 1)).map (Spec.rateOf s.params s.allow rate) := by
    rw [List.range_succ, List.map_append]
    rfl
  have hadj : adjustLast (cs ++ [r]) (1 / g) = cs ++ [adjustStage r (1 / g)] := by
    unfold adjustLast
    simp
  have ha0 : (adjustStage r (1 / g)).a.getD 0 0 = 1 := h'.res.a0
  rw [hs]
  simp only [hrates, List.length_map, List.length_range, List.length_append, List.length_singleton, lt_self_iff_false,
    if_false, hfound, hadj, List.getLast?_append, List.getLast?_singleton, Option.some_or, init_filterOf ha0]
  congr 2
  unfold built
  congr 1
  · simp
  · simp
  · rw [show (cs ++ [adjustStage r (1 / g)]).length = cs.length + 1 by simp, List.replicate_succ']
  · rw [show (cs ++ [adjustStage r (1 / g)]).length = cs.length + 1 by simp, List.range_succ, List.filter_append]
    unfold decimated
    cases hd : decimateFirst s.params s.allow cs.length (prevRate s.params s.allow rate cs.length)
        (Spec.freq s.params rate cs.length) <;> simp [hd]

theorem Good.take {p : Params} {allow : Bool} {rate : ℝ} {cs : List (Stage ℝ)} {peaks : List ℝ}
    (h : Good p allow rate cs peaks) (n : ℕ) : Good p allow rate (cs.take n) (peaks.take n) := by
  refine ⟨by simp [h.1], fun k hk => ?_⟩
  rw [List.length_take] at hk
  obtain ⟨r, g, hg⟩ := h.2 k (by omega)
  have t1 : (cs.take n).take k = cs.take k := by rw [List.take_take, min_eq_left (by omega)]
  have t2 : (peaks.take n).getD k 0 = peaks.getD k 0 := by
    rw [List.getD_eq_getElem?_getD, List.getD_eq_getElem?_getD, List.getElem?_take_of_lt (by omega)]
  refine ⟨r, g, hg.made, hg.res, ?_, hg.pos, ?_, ?_, ?_, ?_⟩
  · rw [t1, t2]; exact hg.found
  · rw [List.getElem?_take_of_lt (by omega)]; exact hg.stage
  · rw [t2]; exact hg.peak
  · rw [t1, t2]; exact hg.value
  · rw [t1]; exact hg.grid

theorem designLoop_ok {s : Bank C} {rate : ℝ} {cs : List (Stage ℝ)} {peaks : List ℝ}
    (h : Good s.params s.allow rate cs peaks)
    (hb : ∀ k, k + 1 < cs.length → 1 / 10 ^ 10 < |(cs.getD k noStage).b.getD 2 0|) :
    ∀ m k, m + k = cs.length → (built s rate (cs.take k) (peaks.take k)).designLoop k
        (prevRate s.params s.allow rate k) ((List.range' k m).map (Spec.freq s.params rate)) = .ok (built s rate cs peaks)
  | 0, k, hk => by
    rw [List.range'_zero, List.map_nil, Bank.designLoop]
    rw [List.take_of_length_le (by omega), List.take_of_length_le (by rw [h.1]; omega)]
  | m + 1, k, hk => by
    obtain ⟨r, g, hg⟩ := h.2 k (by omega)
    have hlen : (cs.take k).length = k := by rw [List.length_take]; omega
    have e1 : cs.take (k + 1) = cs.take k ++ [adjustStage r (1 / g)] := by
      rw [List.take_add_one, hg.stage]; rfl
    have e2 : peaks.take (k + 1) = peaks.take k ++ [peaks.getD k 0] := by
      rw [List.take_add_one, List.getD_eq_getElem?_getD, List.getElem?_eq_getElem (by rw [h.1]; omega)]; rfl
    have hk' := (h.take (k + 1)).2 k (by rw [List.length_take]; omega)
    have hgt : GoodAt s.params s.allow rate (cs.take k ++ [adjustStage r (1 / g)]) (peaks.take k ++ [peaks.getD k 0])
        (cs.take k).length r g := by
      rw [← e1, ← e2, hlen]
      have t1 : (cs.take (k + 1)).take k = cs.take k := by rw [List.take_take, min_eq_left (by omega)]
      have t2 : (peaks.take (k + 1)).getD k 0 = peaks.getD k 0 := by
        rw [List.getD_eq_getElem?_getD, List.getD_eq_getElem?_getD, List.getElem?_take_of_lt (by omega)]
      refine ⟨hg.made, hg.res, ?_, hg.pos, ?_, ?_, ?_, ?_⟩
      · rw [t1, t2]; exact hg.found
      · rw [List.getElem?_take_of_lt (by omega)]; exact hg.stage
      · rw [t2]; exact hg.peak
      · rw [t1, t2]; exact hg.value
      · rw [t1]; exact hg.grid
    have hstep := designStage_ok (s := s) (h.take k) hgt (by
      intro j hj
      rw [hlen] at hj
      have := hb j (by omega)
      rwa [show (cs.take k).getD j noStage = cs.getD j noStage by
        rw [List.getD_eq_getElem?_getD, List.getElem?_take_of_lt hj, ← List.getD_eq_getElem?_getD]])
    rw [hlen] at hstep
    rw [List.range'_succ, List.map_cons, Bank.designLoop, hstep, ← e1, ← e2]
    exact designLoop_ok h hb m (k + 1) (by omega)

/-! ### The gain of the path to a channel -/

theorem GoodAt.gain_peak {p : Params} {allow : Bool} {rate : ℝ} {cs : List (Stage ℝ)} {peaks : List ℝ} {k : ℕ}
    {r : Stage ℝ} {g : ℝ} (h : GoodAt p allow rate cs peaks k r g) :
    Spec.gain (fun j => cs.getD j noStage) (Spec.rateOf p allow rate) k (peaks.getD k 0) = 1 := by
  rw [h.unit, ← h.value, div_self h.pos.ne']

theorem GoodAt.gain_grid {p : Params} {allow : Bool} {rate : ℝ} {cs : List (Stage ℝ)} {peaks : List ℝ} {k : ℕ}
    {r : Stage ℝ} {g : ℝ} (h : GoodAt p allow rate cs peaks k r g) {j : ℕ} (h1 : 1 ≤ j) (h2 : j ≤ 98) :
    Spec.gain (fun j => cs.getD j noStage) (Spec.rateOf p allow rate) k (j * (Spec.rateOf p allow rate k / 2 / 99)) ≤
      1 := by
  rw [h.unit, div_le_one h.pos]
  exact h.grid j h1 h2

theorem diff_le_two (ω : ℝ) : ‖(1 : ℂ) - Complex.exp ((ω : ℝ) * Complex.I)‖ ≤ 2 := by
  refine (norm_sub_le _ _).trans ?_
  rw [Complex.norm_exp_ofReal_mul_I, norm_one]
  norm_num

theorem diff_ge_one {ω : ℝ} (h : Real.cos ω ≤ 1 / 2) : 1 ≤ ‖(1 : ℂ) - Complex.exp ((ω : ℝ) * Complex.I)‖ := by
  have h2 : ‖(1 : ℂ) - Complex.exp ((ω : ℝ) * Complex.I)‖ ^ 2 = 2 - 2 * Real.cos ω := by
    rw [← Complex.normSq_eq_norm_sq, Complex.normSq_apply, Complex.sub_re, Complex.sub_im, Complex.exp_ofReal_mul_I_re,
      Complex.exp_ofReal_mul_I_im, Complex.one_re, Complex.one_im]
    have := Real.sin_sq_add_cos_sq ω
    linear_combination this
  by_contra hc
  push Not at hc
  have h0 := norm_nonneg ((1 : ℂ) - Complex.exp ((ω : ℝ) * Complex.I))
  nlinarith

/-- Bounds for the product of the gains by which the first stages were divided. -/
theorem Good.products {p : Params} {allow : Bool} {rate : ℝ} {cs : List (Stage ℝ)} {peaks : List ℝ}
    (h : Good p allow rate cs peaks) (hr : 0 < rate) (hz : 0 < p.zeta) {r : ℕ → Stage ℝ} {g : ℕ → ℝ}
    (hg : ∀ k < cs.length, GoodAt p allow rate cs peaks k (r k) (g k)) {k : ℕ} (hk : k < cs.length) :
    (p.zeta / 3) ^ (k + 1) ≤ ∏ j ∈ Finset.range (k + 1), g j ∧
      ∏ j ∈ Finset.range (k + 1), g j ≤ 2 * (5 / (4 * p.zeta)) ^ (k + 1) := by
  have hG : 0 < ∏ j ∈ Finset.range (k + 1), g j := by
    apply Finset.prod_pos
    intro j hj
    rw [Finset.mem_range] at hj
    exact (hg j (by omega)).pos
  have hgain : ∀ f, Spec.gain (fun j => cs.getD j noStage) (Spec.rateOf p allow rate) k f =
      (∏ j ∈ Finset.range (k + 1), ‖response (r j) (radians f (Spec.rateOf p allow rate j))‖) *
        ‖(1 : ℂ) - Complex.exp ((radians f (Spec.rateOf p allow rate k) : ℝ) * Complex.I)‖ /
        ∏ j ∈ Finset.range (k + 1), g j := by
    intro f
    unfold Spec.gain
    rw [mul_div_right_comm, ← Finset.prod_div_distrib]
    congr 1
    apply Finset.prod_congr rfl
    intro j hj
    rw [Finset.mem_range] at hj
    dsimp only
    rw [List.getD_eq_getElem?_getD, (hg j (by omega)).stage]
    exact response_adjust (r j) (hg j (by omega)).pos _
  have hrange : ∀ f, 0 < f → f < Spec.rateOf p allow rate k / 2 → ∀ j ≤ k,
      0 < radians f (Spec.rateOf p allow rate j) ∧ radians f (Spec.rateOf p allow rate j) < Real.pi := by
    intro f f0 f1 j hj
    exact radians_range f0 (by have := rateOf_anti (p := p) (allow := allow) hr hj; linarith)
  have hR := rateOf_pos (p := p) (allow := allow) hr k
  constructor
  · have hx0 : (0 : ℝ) < ((66 : ℕ) : ℝ) * (Spec.rateOf p allow rate k / 2 / 99) := by push_cast; positivity
    have hx1 : ((66 : ℕ) : ℝ) * (Spec.rateOf p allow rate k / 2 / 99) < Spec.rateOf p allow rate k / 2 := by
      push_cast; linarith
    have h1 := (hg k hk).gain_grid (j := 66) (by norm_num) (by norm_num)
    rw [hgain, div_le_one hG] at h1
    refine le_trans ?_ h1
    have hw : radians (((66 : ℕ) : ℝ) * (Spec.rateOf p allow rate k / 2 / 99)) (Spec.rateOf p allow rate k) =
        Real.pi - Real.pi / 3 := by
      unfold radians
      push_cast
      field_simp
      ring
    rw [hw]
    have hd := diff_ge_one (ω := Real.pi - Real.pi / 3) (by rw [Real.cos_pi_sub, Real.cos_pi_div_three]; norm_num)
    have hp : (p.zeta / 3) ^ (k + 1) ≤ ∏ j ∈ Finset.range (k + 1),
        ‖response (r j) (radians (((66 : ℕ) : ℝ) * (Spec.rateOf p allow rate k / 2 / 99)) (Spec.rateOf p allow rate j))‖ := by
      have := Finset.prod_le_prod (s := Finset.range (k + 1)) (f := fun _ => p.zeta / 3)
        (g := fun j => ‖response (r j) (radians (((66 : ℕ) : ℝ) * (Spec.rateOf p allow rate k / 2 / 99))
          (Spec.rateOf p allow rate j))‖) (fun _ _ => by positivity) (by
          intro j hj
          rw [Finset.mem_range] at hj
          obtain ⟨w0, w1⟩ := hrange _ hx0 hx1 j (by omega)
          exact ((hg j (by omega)).res.gain _ w0 w1).1)
      rwa [Finset.prod_const, Finset.card_range] at this
    calc (p.zeta / 3) ^ (k + 1) = (p.zeta / 3) ^ (k + 1) * 1 := (mul_one _).symm
      _ ≤ _ := mul_le_mul hp hd (by norm_num) (le_trans (by positivity) hp)
  · have h1 := (hg k hk).gain_peak
    obtain ⟨x0, x1⟩ := (hg k hk).peak
    rw [hgain, div_eq_one_iff_eq hG.ne'] at h1
    rw [← h1, mul_comm]
    apply mul_le_mul (diff_le_two _) _ (Finset.prod_nonneg fun _ _ => norm_nonneg _) (by norm_num)
    have := Finset.prod_le_prod (s := Finset.range (k + 1))
        (f := fun j => ‖response (r j) (radians (peaks.getD k 0) (Spec.rateOf p allow rate j))‖)
        (g := fun _ => 5 / (4 * p.zeta)) (fun _ _ => norm_nonneg _) (by
          intro j hj
          rw [Finset.mem_range] at hj
          obtain ⟨w0, w1⟩ := hrange _ x0 x1 j (by omega)
          exact ((hg j (by omega)).res.gain _ w0 w1).2)
    rwa [Finset.prod_const, Finset.card_range] at this

/-- With few stages the last feed-forward coefficients are not small. -/
theorem Good.numerators {p : Params} {allow : Bool} {rate : ℝ} {cs : List (Stage ℝ)} {peaks : List ℝ}
    (h : Good p allow rate cs peaks) (hr : 0 < rate) (hz : 0 < p.zeta) {k : ℕ} (hk : k < cs.length) :
    2 * p.zeta / 25 * (4 * p.zeta ^ 2 / 15) ^ k ≤ (cs.getD k noStage).b.getD 2 0 := by
  classical
  have hch : ∃ r : ℕ → Stage ℝ, ∃ g : ℕ → ℝ, ∀ k < cs.length, GoodAt p allow rate cs peaks k (r k) (g k) := by
    have : ∀ k, ∃ r g, k < cs.length → GoodAt p allow rate cs peaks k r g := by
      intro k
      by_cases hk : k < cs.length
      · obtain ⟨r, g, hg⟩ := h.2 k hk
        exact ⟨r, g, fun _ => hg⟩
      · exact ⟨noStage, 0, fun h => absurd h hk⟩
    choose r g hrg using this
    exact ⟨r, g, hrg⟩
  obtain ⟨r, g, hg⟩ := hch
  refine le_trans ?_ (hg k hk).lens.2.2.2.2
  rw [le_div_iff₀ (hg k hk).pos]
  have h2 := (h.products hr hz hg hk).2
  rw [Finset.prod_range_succ] at h2
  have h1 : (p.zeta / 3) ^ k ≤ ∏ j ∈ Finset.range k, g j := by
    cases k with
    | zero => simp
    | succ k => exact (h.products hr hz hg (by omega : k < cs.length)).1
  have h3 : (p.zeta / 3) ^ k * g k ≤ 2 * (5 / (4 * p.zeta)) ^ (k + 1) :=
    (mul_le_mul_of_nonneg_right h1 (hg k hk).pos.le).trans h2
  have e : 2 * p.zeta / 25 * (4 * p.zeta ^ 2 / 15) ^ k =
      2 * p.zeta / 25 * (4 * p.zeta / 5) ^ k * (p.zeta / 3) ^ k := by
    rw [mul_assoc, ← mul_pow]
    congr 2
    ring
  rw [e, mul_assoc]
  calc 2 * p.zeta / 25 * (4 * p.zeta / 5) ^ k * ((p.zeta / 3) ^ k * g k)
      ≤ 2 * p.zeta / 25 * (4 * p.zeta / 5) ^ k * (2 * (5 / (4 * p.zeta)) ^ (k + 1)) :=
        mul_le_mul_of_nonneg_left h3 (by positivity)
    _ = 1 / 5 * ((4 * p.zeta / 5) ^ k * (5 / (4 * p.zeta)) ^ k) := by
        rw [pow_succ]; field_simp; ring
    _ = 1 / 5 := by
        rw [← mul_pow, show 4 * p.zeta / 5 * (5 / (4 * p.zeta)) = 1 by field_simp, one_pow, mul_one]

/-- `Init` of a new filterbank. -/
theorem init_ok {p : Params} {allow : Bool} {rate : ℝ} (hp : p.Ok allow rate) {N : ℕ} (hN : Spec.IsCount p rate N)
    {cs : List (Stage ℝ)} {peaks : List ℝ} (hlen : cs.length = N) (h : Good p allow rate cs peaks)
    (hb : ∀ k, k + 1 < N → 1 / 10 ^ 10 < |(cs.getD k noStage).b.getD 2 0|) {l : List ℕ}
    (hsel : select p.selection N = .ok l) :
    (Bank.new p allow : Bank C).init rate = .ok
      ⟨p, allow, peaks, (List.range N).map fun k => Spec.erb (Spec.freq p rate k), cs,
        cs.map fun c => (filterOf c, fun _ => Biquad.resetState), (List.range N).map (Spec.rateOf p allow rate),
        List.replicate N [], List.replicate N 0,
        ((List.range N).filter (decimated p allow rate)).map fun _ => false, l⟩ := by
  obtain ⟨h1, h2, h3, h4, h5, h6, h7, h8, h9, -, -⟩ := id hp
  obtain ⟨M, hM, hM'⟩ := centers_spec (p := p) rate h9 h5
  obtain rfl := IsCount.unique hN hM'
  subst hlen
  unfold Bank.init
  simp only [show (Bank.new p allow : Bank C).params = p from rfl, show (Bank.new p allow : Bank C).allow = allow from rfl]
  rw [if_pos (show (Bank.new p allow : Bank C).params.Ok (Bank.new p allow : Bank C).allow rate from hp), hM]
  obtain ⟨s, hs⟩ : ∃ s : Bank C, s = { (Bank.new p allow : Bank C) with
    bandwidths := (List.range cs.length).map fun k => Spec.erb (Spec.freq p rate k) } := ⟨_, rfl⟩
  have hl := designLoop_ok (s := s) (rate := rate) (cs := cs) (peaks := peaks) (by rw [hs]; exact h)
    (by exact hb) cs.length 0 (by simp)
  have e0 : built s rate (cs.take 0) (peaks.take 0) = s := by rw [hs]; rfl
  rw [e0, show prevRate s.params s.allow rate 0 = rate from rfl, ← List.range_eq_range'] at hl
  simp only [List.map_map, List.length_map, List.length_range, hsel]
  rw [hs] at hl
  have e1 : ((fun x : ℝ × ℝ => x.1) ∘ fun j => (Spec.freq p rate j, Spec.erb (Spec.freq p rate j))) = Spec.freq p rate := rfl
  have e2 : ((fun x : ℝ × ℝ => x.2) ∘ fun j => (Spec.freq p rate j, Spec.erb (Spec.freq p rate j))) =
    fun j => Spec.erb (Spec.freq p rate j) := rfl
  rw [e1, e2]
  have := hl
  simp only [Bank.new] at this ⊢
  rw [this]
  simp [built]

end Verif.AuditoryFilterbank
