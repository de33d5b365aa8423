import Verif.Proof.SpectrogramPr
import Verif.Proof.Spectrogram
import Verif.Theorems.NumberUtil

/-! Lemmas that connect the initialisers with the loops. -/

namespace Verif.Spectrogram

open Real Finset Spec

variable {α β : Type}

/-- What a successful initialisation leaves. -/
structure St.Fresh (s : St α) (window : List α) (step : ℕ) : Prop where
  win : s.window = window
  stp : s.step = step
  len : 2 ≤ window.length
  pos : 0 < step
  even : ∃ h, 0 < h ∧ s.fftLength = 2 * h
  pow : ∃ e, s.fftLength = 2 ^ e
  ge : window.length ≤ s.fftLength
  least : ∀ d, window.length ≤ 2 ^ d → s.fftLength ≤ 2 ^ d
  start : s = stateOf s []

theorem pow_even {n e : ℕ} (h : n = 2 ^ e) (h2 : 2 ≤ n) : ∃ h, 0 < h ∧ n = 2 * h := by
  cases e with
  | zero => simp at h; omega
  | succ e => exact ⟨2 ^ e, by positivity, by rw [h, pow_succ]; ring⟩

theorem initWith_fresh {s0 s : St α} {window : List α} {step : ℤ} (hl : window.length < 2 ^ 31)
    (h : initWith s0 window step = some (true, s)) : s.Fresh window step.toNat := by
  unfold initWith at h
  by_cases h1 : window.length < 2
  · rw [if_pos h1] at h; simp at h
  rw [if_neg h1] at h
  by_cases h2 : step < 1
  · rw [if_pos h2] at h; simp at h
  rw [if_neg h2] at h
  have hv : (BitVec.ofNat 32 window.length).toNat = window.length := by
    rw [BitVec.toNat_ofNat]; exact Nat.mod_eq_of_lt (by omega)
  obtain ⟨r, e, r1, r2, r3, r4⟩ := (NumberUtil.C12_nextPowerOfTwo (BitVec.ofNat 32 window.length)).1
    (by rw [hv]; omega)
  rw [hv] at r3 r4
  rw [r1] at h
  simp only [Option.bind_eq_bind, Option.bind_some] at h
  split at h
  · simp only [Option.pure_def, Option.some.injEq, Prod.mk.injEq, true_and] at h
    subst h
    refine ⟨rfl, rfl, by omega, by omega, pow_even (e := e) (n := r.toNat) r2 (by omega), ⟨e, r2⟩, r3, r4, ?_⟩
    unfold reset stateOf numFrames
    simp only [List.length_nil]
    rw [if_pos (by omega)]
    simp
  · simp at h

theorem Fresh.outs {s : St α} {window : List α} {step : ℕ} (h : s.Fresh window step)
    (slice : St α → β) (blocks : List (List α)) :
    ∃ outs s', computeAll slice s blocks = some (outs, s') ∧ reset s' = s ∧
      outs.flatten = (List.range (numFrames window.length step blocks.flatten.length)).map
        (fun j => slice (frameState s blocks.flatten j)) := by
  have hS : 0 < s.step := by rw [h.stp]; exact h.pos
  have hW : 0 < s.window.length := by rw [h.win]; have := h.len; omega
  obtain ⟨outs, h1, h2⟩ := computeAll_stateOf slice s hS hW blocks []
  rw [← h.start] at h1
  refine ⟨outs, _, h1, ?_, ?_⟩
  · conv_rhs => rw [h.start]
    unfold reset stateOf numFrames
    simp only [List.length_nil]
    rw [if_pos hW]
    simp
  · have h0 : numFrames window.length step ([] : List α).length = 0 := by
      unfold numFrames
      have := h.len
      rw [if_pos (by simp; omega)]
    rw [h2, h.win, h.stp, h0, List.range_eq_range']
    rfl

/-- The contents of the transform's buffer. -/
theorem core_values (s : St ℝ) (hh : ∃ h, 0 < h ∧ s.fftLength = 2 * h)
    (hq : s.queue.length = s.window.length) (i : ℕ) (hi : i ≤ s.fftLength / 2) :
    ((processCoreFFT s).getD (2 * i) 0, (processCoreFFT s).getD (2 * i + 1) 0) =
      dft s.fftLength (List.zipWith (· * ·) s.queue s.window) i := by
  obtain ⟨h, h0, hn⟩ := hh
  have := slice_values h0 (List.zipWith (· * ·) s.queue s.window
    ++ List.replicate (s.fftLength - s.window.length) 0) i (by omega)
  simp only at this
  unfold processCoreFFT
  simp only
  rw [← hn] at this
  rw [this.1, this.2, rdftCos_eq, rdftSin_eq]
  unfold dft
  have hz : ∀ j, (List.zipWith (· * ·) s.queue s.window
    ++ List.replicate (s.fftLength - s.window.length) (0 : ℝ)).getD j 0
      = (List.zipWith (· * ·) s.queue s.window).getD j 0 := by
    intro j
    rw [getD_append']
    have : (List.replicate (s.fftLength - s.window.length) (0 : ℝ)).getD
      (j - (List.zipWith (· * ·) s.queue s.window).length) 0 = 0 := by
      simp only [List.getD_eq_getElem?_getD, List.getElem?_replicate]
      split <;> simp
    rw [this]; simp
  simp only [hz]

theorem initializeLength_after {s0 s : Inv} {n step : ℤ} (hn : n < 2 ^ 31)
    (h : s0.initializeLength n step = (true, s)) :
    Inv.After s s [] [] ∧ 2 ≤ n ∧ 1 ≤ step ∧ s.fftLength = n.toNat ∧ s.frameSize = n.toNat ∧
      s.step = step.toNat ∧ s.window = none := by
  unfold Inv.initializeLength at h
  simp only at h
  by_cases h1 : n < 2
  · rw [if_pos h1] at h; simp at h
  rw [if_neg h1] at h
  by_cases h2 : ¬ NumberUtil.isPowerOfTwoOrZero (BitVec.ofInt 32 n) = true
  · rw [if_pos h2] at h; simp at h
  rw [if_neg h2] at h
  by_cases h3 : step < 1
  · rw [if_pos h3] at h; simp at h
  rw [if_neg h3] at h
  simp only [Prod.mk.injEq, true_and] at h
  have hv : (BitVec.ofInt 32 n).toNat = n.toNat := by
    rw [BitVec.toNat_ofInt]
    omega
  have hp := (NumberUtil.C12_isPowerOfTwoOrZero _).1 (not_not.1 h2)
  rw [hv] at hp
  have he : ∃ e, n.toNat = 2 ^ e := by
    rcases hp with hp | hp
    · omega
    · exact hp
  obtain ⟨e, he⟩ := he
  have hev := pow_even he (by omega)
  subst h
  refine ⟨?_, by omega, by omega, rfl, rfl, rfl, rfl⟩
  constructor
  · refine ⟨rfl, ?_, hev, le_rfl, ?_, fun _ => rfl, rfl, ?_⟩
    · show 0 < step.toNat
      omega
    · intro w hw
      simp [Inv.internalInitialize] at hw
    · simp [Inv.internalInitialize]
  · rfl
  · simp [Inv.internalInitialize]
  · simp
  · intro t
    simp only [Inv.internalInitialize, List.nil_append, List.getD_eq_getElem?_getD,
      List.getElem?_replicate, overlapAdd, List.map_nil, List.length_nil, range_zero, sum_empty]
    split <;> simp

theorem initializeWindow_after {s0 s : Inv} {window : List ℝ} {step : ℤ} (hl : window.length < 2 ^ 31)
    (h : s0.initializeWindow window step = some (true, s)) :
    Inv.After s s [] [] ∧ 2 ≤ window.length ∧ 1 ≤ step ∧ s.frameSize = window.length ∧
      s.step = step.toNat ∧ s.window = some window ∧ (∃ e, s.fftLength = 2 ^ e) ∧
      window.length ≤ s.fftLength ∧ ∀ d, window.length ≤ 2 ^ d → s.fftLength ≤ 2 ^ d := by
  unfold Inv.initializeWindow at h
  simp only at h
  by_cases h1 : window.length < 2
  · rw [if_pos h1] at h; simp at h
  rw [if_neg h1] at h
  have hv : (BitVec.ofNat 32 window.length).toNat = window.length := by
    rw [BitVec.toNat_ofNat]; exact Nat.mod_eq_of_lt (by omega)
  obtain ⟨r, e, r1, r2, r3, r4⟩ := (NumberUtil.C12_nextPowerOfTwo (BitVec.ofNat 32 window.length)).1
    (by rw [hv]; omega)
  rw [hv] at r3 r4
  rw [r1] at h
  simp only [Option.bind_eq_bind, Option.bind_some] at h
  by_cases h3 : step < 1
  · rw [if_pos h3] at h; simp at h
  rw [if_neg h3] at h
  simp only [Option.pure_def, Option.some.injEq, Prod.mk.injEq, true_and] at h
  subst h
  have hev := pow_even (e := e) r2 (by omega)
  refine ⟨?_, by omega, by omega, rfl, rfl, rfl, ⟨e, r2⟩, r3, r4⟩
  constructor
  · refine ⟨rfl, ?_, hev, r3, ?_, ?_, rfl, ?_⟩
    · show 0 < step.toNat
      omega
    · intro w hw
      simp only [Inv.internalInitialize, Option.some.injEq] at hw
      subst hw; rfl
    · intro hw
      simp [Inv.internalInitialize] at hw
    · simp [Inv.internalInitialize]
  · rfl
  · simp [Inv.internalInitialize]
  · simp
  · intro t
    simp only [Inv.internalInitialize, List.nil_append, List.getD_eq_getElem?_getD,
      List.getElem?_replicate, overlapAdd, List.map_nil, List.length_nil, range_zero, sum_empty]
    split <;> simp

/-- A successful re-initialisation forgets the state. -/
theorem initializeLength_forget {a b s : Inv} {n step : ℤ} (h : a.initializeLength n step = (true, s)) :
    b.initializeLength n step = (true, s) := by
  unfold Inv.initializeLength at h ⊢
  simp only at h ⊢
  by_cases h1 : n < 2
  · rw [if_pos h1] at h; simp at h
  rw [if_neg h1] at h ⊢
  by_cases h2 : ¬ NumberUtil.isPowerOfTwoOrZero (BitVec.ofInt 32 n) = true
  · rw [if_pos h2] at h; simp at h
  rw [if_neg h2] at h ⊢
  by_cases h3 : step < 1
  · rw [if_pos h3] at h; simp at h
  rw [if_neg h3] at h ⊢
  rw [← h]
  rfl

theorem initializeLength_ok (a : Inv) {n step : ℤ} (h1 : 2 ≤ n)
    (h2 : NumberUtil.isPowerOfTwoOrZero (BitVec.ofInt 32 n) = true) (h3 : 1 ≤ step) :
    ∃ s, a.initializeLength n step = (true, s) := by
  unfold Inv.initializeLength
  simp only
  rw [if_neg (by omega), if_neg (by rw [h2]; simp), if_neg (by omega)]
  exact ⟨_, rfl⟩

/-- The inverse transform of a transform. -/
theorem inverseDft_dft {h : ℕ} (hh : 0 < h) (x : List ℝ) (hx : x.length ≤ 2 * h) (slice : List (ℝ × ℝ))
    (hs : ∀ i, i ≤ h → slice.getD i (0, 0) = dft (2 * h) x i) (m : ℕ) (hm : m < 2 * h) :
    inverseDft (2 * h) slice m = x.getD m 0 := by
  have hz : (h : ℝ) ≠ 0 := by positivity
  have hok : Inv.Ok ⟨2 * h, 2 * h, 2 * h, 0, true, false, none, []⟩ :=
    ⟨rfl, by show 0 < 2 * h; omega, ⟨h, hh, rfl⟩, le_rfl, by simp, fun _ => rfl, by simp, rfl⟩
  have h1 := Inv.cur_eq hok slice m hm
  simp only [synthesisFrame] at h1
  rw [List.getD_eq_getElem?_getD, List.getElem?_map, List.getElem?_range hm] at h1
  simp only [Option.map_some, Option.getD_some] at h1
  rw [← h1]
  unfold Inv.cur
  simp only
  have hpad : ∀ j, (x ++ List.replicate (2 * h - x.length) (0 : ℝ)).getD j 0 = x.getD j 0 := by
    intro j
    rw [getD_append']
    have : (List.replicate (2 * h - x.length) (0 : ℝ)).getD (j - x.length) 0 = 0 := by
      simp only [List.getD_eq_getElem?_getD, List.getElem?_replicate]
      split <;> simp
    rw [this]; simp
  rw [rdft_inverse hh (x ++ List.replicate (2 * h - x.length) 0) (by simp; omega) slice]
  · have : (List.map (fun x => x * (h : ℝ)) (x ++ List.replicate (2 * h - x.length) 0)).getD m 0
        = (x ++ List.replicate (2 * h - x.length) (0 : ℝ)).getD m 0 * h := by
      simp only [List.getD_eq_getElem?_getD, List.getElem?_map]
      cases (x ++ List.replicate (2 * h - x.length) (0 : ℝ))[m]? <;> simp
    rw [this, hpad, show 2 * h / 2 = h by omega]
    field_simp
  · intro i hi
    rw [hs i hi, rdftCos_eq, rdftSin_eq]
    simp only [hpad]
    rfl

/-- The whole output of a run that is ended with `Flush`. -/
theorem After.run {s : Inv} (h : Inv.After s s [] []) (calls : List (List (List (ℝ × ℝ))))
    (hc : ∀ c ∈ calls, ∀ y ∈ c, y.length = s.fftLength / 2 + 1) :
    ∃ outs s' tail s'' x, s.processAll calls = some (outs, s') ∧ s'.flush = (true, tail, s'') ∧
      s'' = (Inv.initializeLength x s.fftLength s.step).2 ∧
      outs.flatten.length = calls.flatten.length * min s.step s.frameSize ∧
      outs.flatten ++ tail = (List.range (if calls.flatten = [] then 0
        else (calls.flatten.length - 1) * min s.step s.frameSize + s.frameSize)).map
        (overlapAdd (calls.flatten.map (synthesisFrame s.fftLength s.window)) (min s.step s.frameSize)) := by
  obtain ⟨os, s', h1, h2⟩ := Inv.After.all calls h hc
  simp only [List.nil_append] at h2
  have e1 : s'.fftLength = s.fftLength := by rw [← h2.same]
  have e3 : s'.step = s.step := by rw [← h2.same]
  have e4 : s'.frameSize = s.frameSize := by rw [← h2.same]
  refine ⟨os, s', (if s'.processed then s'.working else []), _,
    (if s'.processed then { s' with working := [] } else s'), h1, ?_, rfl, h2.outLen, ?_⟩
  · unfold Inv.flush
    rw [if_neg (by simp [h2.ok.init])]
    simp only [← e1, ← e3]
    split <;> rfl
  · by_cases hn : calls.flatten = []
    · have hp : s'.processed = false := by
        have := h2.proc
        simpa [hn] using this
      have hl := h2.outLen
      rw [hn] at hl ⊢
      simp only [hp, List.length_nil, zero_mul] at hl ⊢
      rw [List.length_eq_zero_iff.1 hl]
      simp
    · have hp : s'.processed = true := h2.proc.2 hn
      rw [hp, if_pos rfl, if_neg hn]
      have hlen : (os.flatten ++ s'.working).length =
          (calls.flatten.length - 1) * min s.step s.frameSize + s.frameSize := by
        rw [List.length_append, h2.outLen, h2.ok.len, h2.ok.ov, e3, e4]
        have : 0 < calls.flatten.length := List.length_pos_iff.2 hn
        obtain ⟨k, hk⟩ : ∃ k, calls.flatten.length = k + 1 := ⟨calls.flatten.length - 1, by omega⟩
        rw [hk, Nat.add_sub_cancel, Nat.add_mul]
        omega
      apply List.ext_getElem
      · rw [hlen]; simp
      · intro t ht1 ht2
        have := h2.val t
        rw [List.getD_eq_getElem?_getD, List.getElem?_eq_getElem ht1] at this
        simp only [Option.getD_some] at this
        rw [this]
        simp

end Verif.Spectrogram
