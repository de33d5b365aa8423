import Verif.Proof.AuditoryFilterbank3

/-! # The initialised filterbank -/

namespace Verif.AuditoryFilterbank
open Verif.BiquadCascade Verif.FilterDesign Verif.BiquadAnalysis Verif.Stream Verif.LinearFilter.Spec

variable {C : ℕ}

theorem discretizes_adjust {r : Stage ℝ} {K : ℝ} {H : ℂ → ℂ} (hb : r.b.length = 3) (h : Discretizes r K H) (g : ℝ) :
    Discretizes (adjustStage r g) K fun s => g * H s := by
  refine ⟨h.1, fun z hz => ?_⟩
  dsimp only
  rw [← h.2 z hz]
  obtain ⟨b, a⟩ := r
  match b, hb with
  | [b0, b1, b2], _ =>
    simp only [evalStage, adjustStage, List.map_cons, List.map_nil, List.getD_cons_zero, List.getD_cons_succ, map_mul,
      Complex.ofRealHom_eq_coe]
    ring

theorem stable_adjust {r : Stage ℝ} (hb : r.b.length = 3) (ha : r.a.length = 3) (h0 : r.a.getD 0 0 = 1) (h : Stable r)
    (g : ℝ) : Stable (adjustStage r g) := by
  obtain ⟨b, a⟩ := r
  match b, a, hb, ha with
  | [b0, b1, b2], [a0, a1, a2], _, _ =>
    have h1 : a0 ≠ 0 := by
      have : a0 = 1 := h0
      rw [this]; norm_num
    obtain ⟨P, e, hP⟩ := h
    obtain ⟨P1, e1, i1⟩ := Ladder.isStable_biquad (b0 := b0) (b1 := b1) (b2 := b2) (a1 := a1) (a2 := a2) h1
    obtain ⟨P2, e2, i2⟩ :=
      Ladder.isStable_biquad (b0 := b0 * g) (b1 := b1 * g) (b2 := b2 * g) (a1 := a1) (a2 := a2) h1
    dsimp only at e
    rw [e1, Option.some.injEq] at e
    subst e
    exact ⟨P2, e2, i2.2 (i1.1 hP)⟩

theorem Good.designed {p : Params} {allow : Bool} {rate : ℝ} {cs : List (Stage ℝ)} {peaks : List ℝ}
    (h : Good p allow rate cs peaks) (hu : Usable p allow rate) {N : ℕ} (hN : Spec.IsCount p rate N)
    (hlen : cs.length = N) : Spec.Designed p allow rate cs peaks := by
  obtain ⟨h1, h2, h3, h4, h5, h6, h7, h8, h9, -, -⟩ := id hu.ok
  refine ⟨h.1, fun k hk => ⟨h9.trans (hN.1 k (by omega)), hu.pole_lt k fun j hj => hN.1 j (by omega)⟩, ?_, ?_, ?_, ?_, ?_⟩
  · intro k hk
    obtain ⟨r, g, hg⟩ := h.2 k hk
    rw [List.getD_eq_getElem?_getD, hg.stage]
    exact stable_adjust hg.res.lenB hg.res.lenA hg.res.a0 hg.res.stable _
  · intro k hk
    obtain ⟨r, g, hg⟩ := h.2 k hk
    obtain ⟨K, m, d⟩ := hg.res.discretizes
    rw [List.getD_eq_getElem?_getD, hg.stage]
    refine ⟨K, 1 / g * (1 / 2), by have := hg.pos; positivity, m, ?_⟩
    have := discretizes_adjust hg.res.lenB d (1 / g)
    refine ⟨this.1, fun z hz => (this.2 z hz).trans ?_⟩
    push_cast
    ring
  · intro k hk
    obtain ⟨r, g, hg⟩ := h.2 k hk
    exact hg.peak
  · intro k hk
    obtain ⟨r, g, hg⟩ := h.2 k hk
    exact hg.gain_peak
  · intro k hk j j1 j2
    obtain ⟨r, g, hg⟩ := h.2 k hk
    exact hg.gain_grid j1 j2

/-! ### Selection -/

theorem selectLoop_spec (skip n : ℕ) (hs : 0 < skip) : ∀ (fuel i left : ℕ), n < i + fuel → ∀ c m,
    (selectLoop skip n fuel i left)[c]? = some m ↔ c < left ∧ m = i + skip * c ∧ m < n
  | 0, i, left, h, c, m => by
    simp only [selectLoop, List.getElem?_nil, reduceCtorEq, false_iff]
    rintro ⟨-, h1, h2⟩
    omega
  | fuel + 1, i, 0, h, c, m => by simp [selectLoop]
  | fuel + 1, i, left + 1, h, c, m => by
    rw [selectLoop]
    split_ifs with hi
    · cases c with
      | zero =>
        simp only [List.getElem?_cons_zero, Option.some.injEq, Nat.mul_zero, Nat.add_zero]
        constructor
        · rintro rfl; exact ⟨by omega, rfl, hi⟩
        · rintro ⟨-, h, -⟩; exact h.symm
      | succ c =>
        rw [List.getElem?_cons_succ, selectLoop_spec skip n hs fuel (i + skip) left (by omega) c m]
        constructor
        · rintro ⟨a, b, d⟩; exact ⟨by omega, by rw [b]; ring, d⟩
        · rintro ⟨a, b, d⟩; exact ⟨by omega, by rw [b]; ring, d⟩
    · simp only [List.getElem?_nil, reduceCtorEq, false_iff]
      rintro ⟨-, h1, h2⟩
      have : 0 ≤ skip * c := Nat.zero_le _
      omega

theorem select_spec {p : Params} {allow : Bool} {rate : ℝ} (hp : p.Ok allow rate) (N : ℕ)
    (hf : p.selection.useAll = false → p.selection.first < N) :
    ∃ l, select p.selection N = .ok l ∧
      ∀ c m, l[c]? = some m ↔ Spec.Visible p.selection N c ∧ m = Spec.stageOf p.selection c := by
  obtain ⟨-, -, -, -, -, -, -, -, -, h10, -⟩ := hp
  unfold select Spec.Visible Spec.stageOf
  cases hA : p.selection.useAll with
  | true =>
    refine ⟨List.range N, by simp, fun c m => ?_⟩
    rw [List.getElem?_eq_some_iff]
    simp only [List.length_range, List.getElem_range, if_true, reduceCtorEq, IsEmpty.forall_iff, and_true, exists_prop]
    constructor
    · rintro ⟨a, b⟩; exact ⟨a, b.symm⟩
    · rintro ⟨a, b⟩; exact ⟨a, b.symm⟩
  | false =>
    obtain ⟨g1, g2, g3⟩ := h10 hA
    have hf := hf hA
    have hl := selectLoop_spec p.selection.skip.toNat N (by omega) (N + 1) p.selection.first.toNat
      p.selection.maxChannels.toNat (by omega)
    refine ⟨selectLoop p.selection.skip.toNat N (N + 1) p.selection.first.toNat p.selection.maxChannels.toNat, ?_, ?_⟩
    · have h0 := (hl 0 p.selection.first.toNat).2 ⟨by omega, by simp, by omega⟩
      have : 0 < (selectLoop p.selection.skip.toNat N (N + 1) p.selection.first.toNat
          p.selection.maxChannels.toNat).length := by
        rw [List.getElem?_eq_some_iff] at h0
        exact h0.1
      simp [this]
    · intro c m
      rw [hl]
      simp only [Bool.false_eq_true, if_false, forall_const]
      constructor
      · rintro ⟨a, b, d⟩; exact ⟨⟨by omega, by omega⟩, b⟩
      · rintro ⟨⟨a, b⟩, d⟩; exact ⟨by omega, d, by omega⟩

/-! ### The cells after `Init` -/

theorem decimated_eq {p : Params} {allow : Bool} {rate : ℝ} (hr : 0 < rate) (k : ℕ) :
    decimated p allow rate k = Spec.halved p allow rate k := by
  have h := decimateFirst_rate p allow rate k
  unfold decimated Spec.halved
  cases k with
  | zero => simp [decimateFirst]
  | succ k =>
    have hp := rateOf_pos (p := p) (allow := allow) hr k
    rw [← h]
    simp only [prevRate, Nat.add_sub_cancel]
    have hne : ¬ Spec.rateOf p allow rate k / 2 = Spec.rateOf p allow rate k := by intro h; linarith
    by_cases hd : decimateFirst p allow (k + 1) (Spec.rateOf p allow rate k) (Spec.freq p rate (k + 1)) = true
    · simp [hd, hne]
    · simp [hd]

theorem consistent_fresh {p : Params} {allow : Bool} {rate : ℝ} (cs : List (Stage ℝ)) : ∀ (m k : ℕ),
    Consistent (Spec.rateOf p allow rate k)
      ((List.range' (k + 1) m).map fun j => (fresh (cs.getD j noStage) (Spec.halved p allow rate j) : Cell C))
      ((List.range' (k + 1) m).map (Spec.rateOf p allow rate))
  | 0, k => by simp [Consistent]
  | m + 1, k => by
    rw [List.range'_succ, List.map_cons, List.map_cons]
    refine ⟨?_, consistent_fresh cs m (k + 1)⟩
    unfold Spec.halved fresh
    by_cases h : Spec.rateOf p allow rate (k + 1) = Spec.rateOf p allow rate k <;> simp [h]

/-- The cells. -/
noncomputable def cellsOf (C : ℕ) (p : Params) (allow : Bool) (rate : ℝ) (cs : List (Stage ℝ)) : List (Cell C) :=
  (Spec.stages p allow rate cs).map fun c => fresh c.1 c.2

theorem rep_init {p : Params} {allow : Bool} {rate : ℝ} (hr : 0 < rate) {cs : List (Stage ℝ)} (hcs : cs ≠ []) {b : Bank C}
    (h1 : b.filters = cs.map fun c => (filterOf c, fun _ => Biquad.resetState))
    (h2 : b.rates = (List.range cs.length).map (Spec.rateOf p allow rate))
    (h3 : b.diffs = List.replicate cs.length 0)
    (h4 : b.decimators = ((List.range cs.length).filter (decimated p allow rate)).map fun _ => false)
    (h5 : ∀ i ∈ b.exposed, i < cs.length) : Rep b (cellsOf C p allow rate cs) := by
  have hpos : 0 < cs.length := List.length_pos_iff.2 hcs
  have hc : cellsOf C p allow rate cs = (List.range cs.length).map fun k =>
      (fresh (cs.getD k noStage) (Spec.halved p allow rate k) : Cell C) := by
    unfold cellsOf Spec.stages
    rw [List.map_map]
    rfl
  have hlen : (cellsOf C p allow rate cs).length = cs.length := by rw [hc]; simp
  refine ⟨?_, ?_, ?_, ?_, ?_, ?_⟩
  · intro h0
    rw [h0] at hlen
    simp at hlen
    omega
  · rw [h1, hc, List.map_map]
    apply List.ext_getElem
    · simp
    · intro n n1 n2
      simp only [List.getElem_map, List.getElem_range, Function.comp, fresh]
      rw [List.getD_eq_getElem _ _ (by simpa using n1)]
  · rw [h3, hc, List.map_map]
    apply List.ext_getElem
    · simp
    · intro n n1 n2
      simp [fresh]
  · rw [h4, hc, List.filterMap_map]
    rw [List.map_congr_left (fun _ _ => rfl), ← List.filterMap_eq_map, List.filterMap_filter]
    apply List.filterMap_congr
    intro k _
    rw [decimated_eq hr]
    simp only [Function.comp, fresh]
  · obtain ⟨n, hn⟩ : ∃ n, cs.length = n + 1 := ⟨cs.length - 1, by omega⟩
    refine ⟨Spec.rateOf p allow rate 0, (List.range' 1 n).map (Spec.rateOf p allow rate),
      fresh (cs.getD 0 noStage) (Spec.halved p allow rate 0),
      (List.range' 1 n).map fun j => (fresh (cs.getD j noStage) (Spec.halved p allow rate j) : Cell C), ?_, ?_, ?_, ?_⟩
    · rw [h2, hn, List.range_eq_range', List.range'_succ]
      rfl
    · rw [hc, hn, List.range_eq_range', List.range'_succ]
      rfl
    · simp [fresh, Spec.halved]
    · exact consistent_fresh cs n 0
  · rw [hlen]
    exact h5

end Verif.AuditoryFilterbank
