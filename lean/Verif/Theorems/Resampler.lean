import Verif.Proof.Resampler
import Verif.Model.ResamplerKernel
import Verif.Model.RationalApproximation
import Mathlib.Data.Rat.Floor
import Mathlib.Algebra.Module.Pi

/-!
# C08, C09, C10: the rational factor resamplers

The theorems hold for the C resampler (`makeC`) and for `QResampler` (`makeQ`), for every kernel `h`,
every factor `a / b`, every filter radius `r` with `a / b ≤ 2 * r + 1` and frames in any module over the
coefficients. `process` yields `some` exactly when no buffer is overrun and no assertion fails, so each
theorem also says that the calls it speaks about are safe.
-/

namespace Verif.Resampler

universe u

section General

variable {R M : Type u} [Zero R] [Zero M] [Mac R M]

/-- `c` is the C resampler or the `QResampler` for factor `a / b`, radius `r` and kernel `h`. -/
def Built (c : Cfg R) (h : ℚ → R) (a b r : ℕ) : Prop :=
  c = makeC h a b r ∨ c = makeQ h a b r

/-- The factor is a positive fraction not larger than the length of the filter. -/
def GoodFactor (a b r : ℕ) : Prop := 0 < a ∧ 0 < b ∧ a ≤ (2 * r + 1) * b

instance (a b r : ℕ) : Decidable (GoodFactor a b r) := by unfold GoodFactor; infer_instance

/-- A state between two calls. -/
def StateOk (c : Cfg R) (s : St M) : Prop := s.delayed.length < c.taps ∧ s.phase < c.den

theorem Built.facts {c : Cfg R} {h : ℚ → R} {a b r : ℕ} (hB : Built c h a b r) :
    c.num = a ∧ c.den = b ∧ c.radius = r ∧ c.coeffs = makeFilters h c.den c.radius ∧
      c.taps = 2 * r + 1 := by
  rcases hB with rfl | rfl <;> exact ⟨rfl, rfl, rfl, rfl, rfl⟩

theorem Built.wf {c : Cfg R} {h : ℚ → R} {a b r : ℕ} (hB : Built c h a b r) (hG : GoodFactor a b r) :
    c.Wf := by
  obtain ⟨h1, h2, h3⟩ := hG
  rcases hB with rfl | rfl
  · exact ⟨h1, h2, makeFilters_length h b r, by simp [Cfg.taps, makeC], h3⟩
  · exact ⟨h1, h2, makeFilters_length h b r, by simp [Cfg.taps, makeQ], h3⟩

theorem reset_ok {c : Cfg R} (hc : c.Wf) : StateOk c (reset c : St M) := by
  refine ⟨?_, hc.den_pos⟩
  simp only [reset, List.length_replicate, Cfg.taps]; omega

theorem primed_ok {c : Cfg R} (hc : c.Wf) : StateOk c (resetFullyPrimed c : St M) := by
  refine ⟨?_, hc.den_pos⟩
  have := taps_pos c
  simp only [resetFullyPrimed, List.length_replicate]; omega

theorem runBlocks_ok {c : Cfg R} (hc : c.Wf) {s : St M} (hs : StateOk c s) (bs : List (List M)) :
    ∃ yss, runBlocks (process c) s bs = some (yss, stateFrom c s.phase (s.delayed ++ bs.flatten)) ∧
      outFrom c s.phase (s.delayed ++ bs.flatten) = yss.flatten := by
  obtain ⟨yss, h1, h2⟩ := runBlocks_stateFrom hc hs.2 bs s.delayed
  rw [stateFrom_self hc s hs.1 hs.2] at h1
  rw [outFrom_self hc _ hs.1, List.nil_append] at h2
  exact ⟨yss, h1, h2⟩

theorem runBlocks_processC {h : ℚ → R} {a b r : ℕ} (hG : GoodFactor a b r) (maxInput : ℕ) :
    ∀ (bs : List (List M)) (s : St M), StateOk (makeC h a b r) s → (∀ x ∈ bs, x.length ≤ maxInput) →
      runBlocks (processC (makeC h a b r) maxInput) s bs = runBlocks (process (makeC h a b r)) s bs := by
  have hc : (makeC h a b r).Wf := Built.wf (Or.inl rfl) hG
  have one : ∀ (s : St M), StateOk (makeC h a b r) s → ∀ x : List M, x.length ≤ maxInput →
      processC (makeC h a b r) maxInput s x = process (makeC h a b r) s x := by
    intro s hs x hx
    unfold processC
    simp only
    rw [if_neg (by omega)]
    simp only [process_eq hc s x hs.1 hs.2, Option.bind_eq_bind, Option.bind_some]
    rw [if_pos]
    · rfl
    · simp only [outFrom, outs_length, List.length_append, num, cnt, maxOutputFrames]
      apply Nat.div_le_div_right
      have e : (s.delayed.length + x.length + 1 - (makeC h a b r).taps) * (makeC h a b r).den
          ≤ maxInput * (makeC h a b r).den := Nat.mul_le_mul_right _ (by have := hs.1; omega)
      omega
  intro bs
  induction bs with
  | nil => intros; rfl
  | cons x bs ih =>
    intro s hs hx
    simp only [runBlocks, one s hs x (hx x (by simp)), process_eq hc s x hs.1 hs.2,
      Option.bind_eq_bind, Option.bind_some]
    rw [ih _ (stateFrom_ok hc _) (fun y hy => hx y (by simp [hy]))]

theorem lt_num_iff {c : Cfg R} (hc : c.Wf) {n m : ℕ} :
    m < num c 0 n ↔ m * c.num / c.den + c.taps ≤ n := by
  constructor
  · intro h
    have := window_in hc h
    rwa [Nat.zero_add] at this
  · intro h
    by_contra hcon
    have b := cnt_le (num := c.num) (den := c.den) (P := 0) (L := n + 1 - c.taps) hc.num_pos
    have hm : num c 0 n * c.num ≤ m * c.num := Nat.mul_le_mul_right _ (not_lt.mp hcon)
    have : (n + 1 - c.taps) * c.den ≤ m * c.num := by
      simp only [num] at hm; omega
    rw [← Nat.le_div_iff_mul_le hc.den_pos] at this
    generalize m * c.num / c.den = z at *
    omega

theorem outFrom_reset_tap {c : Cfg R} {h : ℚ → R} {a b r : ℕ} (hB : Built c h a b r) (hG : GoodFactor a b r)
    (x : List M) (m : ℕ) :
    (outFrom c 0 (List.replicate r 0 ++ x))[m]? =
      if m * a / b + r < x.length then some (tapAt c (List.replicate r 0 ++ x) (m * a)) else none := by
  have hc := hB.wf hG
  obtain ⟨e1, e2, e3, e4, e5⟩ := hB.facts
  have hlt := lt_num_iff hc (n := r + x.length) (m := m)
  rw [e1, e2, e5] at hlt
  unfold outFrom outs
  rw [List.getElem?_map, List.length_append, List.length_replicate]
  by_cases hm : m * a / b + r < x.length
  · rw [if_pos hm, List.getElem?_range (hlt.mpr (by generalize m * a / b = z at *; omega)), Option.map_some,
      Nat.zero_add, e1]
  · rw [if_neg hm, List.getElem?_eq_none, Option.map_none]
    rw [List.length_range]
    by_contra hcon
    have := hlt.mp (not_le.mp hcon)
    generalize m * a / b = z at *; omega

/-! ### C08 -/

/-- The C resampler refuses no block up to `max_input_size`, its output fits in its buffer, and two ways
of cutting the same stream into such blocks give the same output and the same state. This holds in any
arithmetic, also with rounding: the output is the same bit by bit (C101). -/
theorem C08_c_block_invariance {h : ℚ → R} {a b r : ℕ} (hG : GoodFactor a b r) (maxInput : ℕ)
    (s : St M) (hs : StateOk (makeC h a b r) s) (bs bs' : List (List M))
    (h1 : ∀ x ∈ bs, x.length ≤ maxInput) (h2 : ∀ x ∈ bs', x.length ≤ maxInput)
    (hf : bs.flatten = bs'.flatten) :
    ∃ yss yss' s', runBlocks (processC (makeC h a b r) maxInput) s bs = some (yss, s') ∧
      runBlocks (processC (makeC h a b r) maxInput) s bs' = some (yss', s') ∧
      yss.flatten = yss'.flatten := by
  have hc : (makeC h a b r).Wf := Built.wf (Or.inl rfl) hG
  obtain ⟨yss, k1, k2⟩ := runBlocks_ok hc hs bs
  obtain ⟨yss', k3, k4⟩ := runBlocks_ok hc hs bs'
  rw [runBlocks_processC hG maxInput bs s hs h1, runBlocks_processC hG maxInput bs' s hs h2]
  rw [← hf] at k3 k4
  exact ⟨yss, yss', _, k1, k3, by rw [← k2, ← k4]⟩

end General

variable {R M : Type u} [Semiring R] [AddCommMonoid M] [Module R M]

/-- Every state that `ProcessSamples` leaves behind is a state it can go on from; so are the two reset
states. -/
theorem C08_states_stay_valid {c : Cfg R} {h : ℚ → R} {a b r : ℕ} (hB : Built c h a b r)
    (hG : GoodFactor a b r) :
    StateOk c (reset c : St M) ∧ StateOk c (resetFullyPrimed c : St M) ∧
      ∀ (s : St M) (x : List M), StateOk c s → ∃ ys s', process c s x = some (ys, s') ∧ StateOk c s' := by
  have hc := hB.wf hG
  refine ⟨reset_ok hc, primed_ok hc, fun s x hs => ?_⟩
  exact ⟨_, _, process_eq hc s x hs.1 hs.2, stateFrom_ok hc _⟩

/-- Cutting a stream into blocks changes neither the output nor the state, from any state. -/
theorem C08_block_invariance {c : Cfg R} {h : ℚ → R} {a b r : ℕ} (hB : Built c h a b r)
    (hG : GoodFactor a b r) (s : St M) (hs : StateOk c s) (bs : List (List M)) :
    ∃ yss ys s', runBlocks (process c) s bs = some (yss, s') ∧
      process c s bs.flatten = some (ys, s') ∧ yss.flatten = ys := by
  have hc := hB.wf hG
  obtain ⟨yss, h1, h2⟩ := runBlocks_ok hc hs bs
  exact ⟨yss, _, _, h1, process_eq hc s _ hs.1 hs.2, h2.symm⟩

example : GoodFactor 3 2 1 ∧ GoodFactor 160 147 5 ∧ GoodFactor 147 160 5 ∧ GoodFactor 3 1 1 := by
  decide

example : runBlocks (process (makeQ (fun q : ℚ => 1 - q) 3 2 1)) (reset (makeQ (fun q : ℚ => 1 - q) 3 2 1))
    [[(1 : ℚ)], [2, 3], [], [4, 5]] =
    some ([[], [5, 5], [], [14]], ⟨[4, 5], 1⟩) := by decide +kernel

/-- Too long a block is cut: the C resampler starts anew with its last `max_input_size` frames. -/
theorem C08_c_excess_input {h : ℚ → R} {a b r : ℕ} (maxInput : ℕ) (s : St M) (x : List M)
    (hx : maxInput < x.length) :
    processC (makeC h a b r) maxInput s x =
      processC (makeC h a b r) maxInput (reset (makeC h a b r)) (x.drop (x.length - maxInput)) := by
  unfold processC
  simp only
  rw [if_pos (by omega), if_neg (by rw [List.length_drop]; omega)]

/-- Channels do not mix: a linear map applied to all frames (in particular the choice of one channel)
commutes with resampling. -/
theorem C08_channels_independent {N : Type u} [AddCommMonoid N] [Module R N] {c : Cfg R} {h : ℚ → R}
    {a b r : ℕ} (hB : Built c h a b r) (hG : GoodFactor a b r) (f : M →ₗ[R] N) (s : St M)
    (hs : StateOk c s) (x : List M) :
    process c ⟨s.delayed.map f, s.phase⟩ (x.map f) =
      (process c s x).map fun r => (r.1.map f, ⟨r.2.delayed.map f, r.2.phase⟩) := by
  have hc := hB.wf hG
  rw [process_eq hc s x hs.1 hs.2,
    process_eq hc ⟨s.delayed.map f, s.phase⟩ (x.map f) (by simpa using hs.1) hs.2]
  simp only [Option.map_some, outFrom, outs_map, stateFrom, List.map_append, List.length_append,
    List.length_map, List.map_drop]

example (x : List (Fin 2 → ℚ)) (s : St (Fin 2 → ℚ)) (h : ℚ → ℚ) (hs : StateOk (makeQ h 3 2 1) s) :
    process (makeQ h 3 2 1) ⟨s.delayed.map (· 1), s.phase⟩ (x.map (· 1)) =
      (process (makeQ h 3 2 1) s x).map fun r => (r.1.map (· 1), ⟨r.2.delayed.map (· 1), r.2.phase⟩) :=
  C08_channels_independent (Or.inr rfl) (by decide) (LinearMap.proj (R := ℚ) (φ := fun _ => ℚ) (1 : Fin 2))
    s hs x

/-! ### C09 -/

theorem outFrom_reset {c : Cfg R} {h : ℚ → R} {a b r : ℕ} (hB : Built c h a b r) (hG : GoodFactor a b r)
    (x : List M) (m : ℕ) :
    (outFrom c 0 (List.replicate r 0 ++ x))[m]? =
      if m * a / b + r < x.length then some (Spec.polyphase h a b r x m) else none := by
  have hc := hB.wf hG
  obtain ⟨e1, e2, e3, e4, e5⟩ := hB.facts
  have hpoly := tapAt_polyphase h hc.den_pos e4 x m
  rw [e3, e1, e2] at hpoly
  rw [outFrom_reset_tap hB hG, hpoly]

/-- After a reset, whatever the blocks, output `m` is the polyphase formula for the stream so far; it is
produced exactly when the last input frame it depends on, frame `⌊m a / b⌋ + r`, has arrived. -/
theorem C09_polyphase {c : Cfg R} {h : ℚ → R} {a b r : ℕ} (hB : Built c h a b r) (hG : GoodFactor a b r)
    (bs : List (List M)) :
    ∃ yss s', runBlocks (process c) (reset c) bs = some (yss, s') ∧
      ∀ m, yss.flatten[m]? =
        if m * a / b + r < bs.flatten.length then some (Spec.polyphase h a b r bs.flatten m) else none := by
  have hc := hB.wf hG
  obtain ⟨yss, k1, k2⟩ := runBlocks_ok hc (reset_ok hc) bs
  refine ⟨yss, _, k1, fun m => ?_⟩
  rw [← k2]
  have e3 := hB.facts.2.2.1
  simp only [reset, e3]
  exact outFrom_reset hB hG bs.flatten m

/-- After `ResetFullyPrimed` the output is delayed by `r` frames, and output `m` needs input frame
`⌊m a / b⌋` only. -/
theorem C09_polyphase_fully_primed {c : Cfg R} {h : ℚ → R} {a b r : ℕ} (hB : Built c h a b r)
    (hG : GoodFactor a b r) (bs : List (List M)) :
    ∃ yss s', runBlocks (process c) (resetFullyPrimed c) bs = some (yss, s') ∧
      ∀ m, yss.flatten[m]? =
        if m * a / b < bs.flatten.length then
          some (Spec.polyphase h a b r (List.replicate r 0 ++ bs.flatten) m) else none := by
  have hc := hB.wf hG
  obtain ⟨yss, k1, k2⟩ := runBlocks_ok hc (primed_ok hc) bs
  refine ⟨yss, _, k1, fun m => ?_⟩
  rw [← k2]
  have e5 := hB.facts.2.2.2.2
  simp only [resetFullyPrimed, e5, Nat.add_sub_cancel]
  rw [Nat.two_mul, List.replicate_add, List.append_assoc, outFrom_reset hB hG]
  congr 1
  rw [List.length_append, List.length_replicate, eq_iff_iff]
  generalize m * a / b = z
  omega

/-- For a kernel that vanishes outside `[-r, r]`, output `m` is the kernel interpolation of the input at
time `m a / b`. -/
theorem C09_interpolates {c : Cfg R} {h : ℚ → R} {a b r : ℕ} (hB : Built c h a b r)
    (hG : GoodFactor a b r) (hs : ∀ q : ℚ, (r : ℚ) + 1 / b ≤ |q| → h q = 0) (bs : List (List M)) :
    ∃ yss s', runBlocks (process c) (reset c) bs = some (yss, s') ∧
      ∀ m, yss.flatten[m]? =
        if m * a / b + r < bs.flatten.length then
          some (Spec.interpolate h bs.flatten ((m : ℚ) * a / b)) else none := by
  obtain ⟨yss, s', k1, k2⟩ := C09_polyphase hB hG bs (M := M)
  refine ⟨yss, s', k1, fun m => ?_⟩
  rw [k2, polyphase_interpolate h hG.2.1 hs]

theorem polyphase_append_zeros (h : ℚ → R) (a b r k : ℕ) (x : List M) (m : ℕ) :
    Spec.polyphase h a b r (x ++ List.replicate k 0) m = Spec.polyphase h a b r x m := by
  unfold Spec.polyphase
  rw [List.length_append, List.length_replicate, Finset.sum_range_add]
  have : ∀ n, (x ++ List.replicate k (0 : M)).getD (x.length + n) 0 = 0 := by
    intro n
    rw [List.getD_append_right _ _ _ _ (by omega)]
    simp [List.getD_eq_getElem?_getD, List.getElem?_replicate]
    split <;> rfl
  rw [Finset.sum_congr (g := fun _ => (0 : M)) rfl (s₁ := Finset.range k), Finset.sum_const_zero, add_zero]
  · apply Finset.sum_congr rfl
    intro n hn
    rw [Finset.mem_range] at hn
    rw [List.getD_append _ _ _ _ hn]
  · intro n _
    rw [this, smul_zero, ite_self]

theorem flush_eq {c : Cfg R} (hc : c.Wf) (s : St M) (hs : StateOk c s) :
    flushQ c s = some (outFrom c s.phase (s.delayed ++ List.replicate (flushFrames c) 0), reset c) := by
  unfold flushQ
  rw [process_eq hc s _ hs.1 hs.2]
  rfl

/-- `QResampleSignal` returns the polyphase formula for all `m` with `⌊m a / b⌋ < n + r`. -/
theorem C09_resample_signal {c : Cfg R} {h : ℚ → R} {a b r : ℕ} (hB : Built c h a b r)
    (hG : GoodFactor a b r) (x : List M) :
    ∃ ys, resampleSignal c x = some ys ∧
      ∀ m, ys[m]? =
        if m * a / b < x.length + r then some (Spec.polyphase h a b r x m) else none := by
  have hc := hB.wf hG
  obtain ⟨e1, e2, e3, e4, e5⟩ := hB.facts
  have hr := reset_ok (M := M) hc
  obtain ⟨ys, p1, p2⟩ := process_stateFrom hc hc.den_pos (List.replicate r 0) x
  have self : stateFrom c 0 (List.replicate r (0 : M)) = reset c := by
    have := stateFrom_self hc _ hr.1 hr.2
    simpa only [reset, e3] using this
  have nil : outFrom c 0 (List.replicate r (0 : M)) = [] := by
    apply outFrom_self hc
    have := hr.1
    simpa only [reset, e3] using this
  rw [self] at p1
  rw [nil, List.nil_append] at p2
  have hs' := stateFrom_ok hc (P := 0) (List.replicate r 0 ++ x)
  obtain ⟨zs, q1, q2⟩ := process_stateFrom hc hc.den_pos (List.replicate r 0 ++ x)
    (List.replicate (flushFrames c) 0)
  have hfl : flushQ c (stateFrom c 0 (List.replicate r 0 ++ x)) = some (zs, reset c) := by
    unfold flushQ
    rw [q1]
    rfl
  have hlen : ∀ l : List M, (outFrom c 0 l).length = num c 0 l.length := fun l => outs_length _ _ _ _
  have n1 : nextOutputSize c (reset c : St M) x.length = ys.length := by
    rw [nextOutputSize_eq hc, ← p2, hlen]
    simp [reset, e3]
  have n2 : nextOutputSize c (reset c : St M) (x.length + flushFrames c) = ys.length + zs.length := by
    rw [nextOutputSize_eq hc, ← List.length_append, ← p2, ← q2, hlen]
    simp [reset, e3, Nat.add_assoc]
  have n3 : nextOutputSize c (stateFrom c 0 (List.replicate r 0 ++ x)) (flushFrames c) = zs.length := by
    have e := process_eq hc (stateFrom c 0 (List.replicate r 0 ++ x)) (List.replicate (flushFrames c) 0)
      hs'.1 hs'.2
    rw [q1] at e
    have ez := congrArg Prod.fst (Option.some.inj e)
    simp only at ez
    rw [nextOutputSize_eq hc, ez]
    unfold outFrom
    rw [outs_length]
    simp only [List.length_append, List.length_replicate]
  refine ⟨ys ++ zs, ?_, fun m => ?_⟩
  · unfold resampleSignal
    simp only [n1, n2, p1, Option.bind_eq_bind, Option.bind_some, n3, hfl]
    rw [if_pos (by omega), if_pos (by omega)]
    rfl
  · rw [← p2, ← q2, List.append_assoc, outFrom_reset hB hG, polyphase_append_zeros]
    congr 1
    rw [List.length_append, List.length_replicate, eq_iff_iff]
    simp only [flushFrames, e5]
    generalize m * a / b = z
    omega

example : resampleSignal (makeQ (fun q : ℚ => if |q| ≤ 1 then 1 - |q| else 0) 2 3 1) [(3 : ℚ), 6, 9, 0]
    = some [3, 5, 7, 9, 3, 0, 0, 0] := by decide +kernel

/-- Nothing is lost by the flush: later outputs of the interpolation would be zero. -/
theorem C09_flush_complete {h : ℚ → R} {a b r : ℕ} (hb : 0 < b)
    (hs : ∀ q : ℚ, (r : ℚ) + 1 / b ≤ |q| → h q = 0) (x : List M) (m : ℕ)
    (hm : x.length + r ≤ m * a / b) : Spec.interpolate h x ((m : ℚ) * a / b) = 0 := by
  rw [← polyphase_interpolate h hb hs]
  unfold Spec.polyphase
  apply Finset.sum_eq_zero
  intro n hn
  rw [Finset.mem_range] at hn
  rw [if_neg]
  rintro ⟨k1, k2⟩
  generalize m * a / b = z at *
  omega

/-! The kernel of the library, rational_factor_resampler_kernel.c. -/

/-- The kernel is even, and it vanishes outside its radius (up to 100 times the machine epsilon). -/
theorem C09_kernel_even_and_supported (k : Kernel.Kernel) (hr : 0 < k.radius) (x : ℝ) :
    Kernel.eval k (-x) = Kernel.eval k x ∧
      (k.radius * (1 + 100 / 2 ^ 52) < |x| → Kernel.eval k x = 0) := by
  refine ⟨by unfold Kernel.eval; rw [abs_neg], fun hx => ?_⟩
  unfold Kernel.eval Kernel.kaiserWindow Kernel.eps
  simp only
  have hbig : |x| / k.radius > 1 + 100 * (1 / 2 ^ 52) := by
    rw [gt_iff_lt, lt_div_iff₀ hr]
    calc (1 + 100 * (1 / 2 ^ 52)) * k.radius = k.radius * (1 + 100 / 2 ^ 52) := by ring
      _ < |x| := hx
  simp only [if_pos hbig, mul_zero]

/-- `Init` succeeds exactly for the documented parameters, and its radius is
`filter_radius_factor * max(1, factor)`. -/
theorem C09_kernel_init (inputRate outputRate radiusFactor cutoff beta : ℝ) :
    ((∃ k, Kernel.init inputRate outputRate radiusFactor cutoff beta = some k) ↔
      0 < inputRate ∧ 0 < outputRate ∧ 0 < radiusFactor ∧ 0 < cutoff ∧ cutoff ≤ 1 ∧ 0 < beta) ∧
    ∀ k, Kernel.init inputRate outputRate radiusFactor cutoff beta = some k →
      k.factor = inputRate / outputRate ∧ k.radius = radiusFactor * max 1 (inputRate / outputRate) ∧
      0 < k.radius := by
  unfold Kernel.init
  simp only
  split
  · rename_i hbad
    refine ⟨⟨fun ⟨k, hk⟩ => (by cases hk), fun hgood => ?_⟩, fun k hk => by cases hk⟩
    obtain ⟨h1, h2, h3, h4, h5, h6⟩ := hgood
    rcases hbad with h | h | h | h | h
    · exact absurd h1 h
    · exact absurd h2 h
    · exact absurd h3 h
    · exact absurd ⟨h4, h5⟩ h
    · exact absurd h6 h
  · rename_i hgood
    push Not at hgood
    obtain ⟨h1, h2, h3, h4, h5⟩ := hgood
    refine ⟨⟨fun _ => ⟨h1, h2, h3, h4.1, h4.2, h5⟩, fun _ => ⟨_, rfl⟩⟩, ?_⟩
    intro k hk
    cases hk
    have e : (if inputRate / outputRate > 1 then inputRate / outputRate else 1)
        = max 1 (inputRate / outputRate) := by
      rw [max_def]
      split
      · rename_i h; rw [if_pos (le_of_lt h)]
      · rename_i h
        split
        · rename_i h'; linarith
        · rfl
    refine ⟨rfl, ?_, ?_⟩
    · simp only [e]
    · simp only [e]; exact mul_pos h3 (lt_of_lt_of_le one_pos (le_max_left _ _))

/-- The restriction on the factor holds when `filter_radius_factor` is at least one half and the fraction
is not more than 1 above the wanted factor: then the radius, `filter_radius_factor * max(1, factor)`
rounded up, is large enough. -/
theorem goodFactor_of_radius {radiusFactor factor : ℝ} {a b r : ℕ} (ha : 0 < a) (hb : 0 < b)
    (hf : 1 / 2 ≤ radiusFactor) (hr : radiusFactor * max 1 factor ≤ r)
    (happrox : (a : ℝ) / b ≤ factor + 1) : GoodFactor a b r := by
  refine ⟨ha, hb, ?_⟩
  have hbr : (0 : ℝ) < b := by exact_mod_cast hb
  have h1 : factor ≤ max 1 factor := le_max_right _ _
  have h0 : (1 : ℝ) ≤ max 1 factor := le_max_left _ _
  have h2 : 1 / 2 * max 1 factor ≤ radiusFactor * max 1 factor :=
    mul_le_mul_of_nonneg_right hf (by linarith)
  have h3 : (a : ℝ) / b ≤ 2 * r + 1 := by linarith
  rw [div_le_iff₀ hbr] at h3
  exact_mod_cast h3

/-- A resampler with `filter_radius_factor` at least one half, whose fraction is positive and not more than
1 above the wanted factor, works: every call from a state it can be in succeeds, and leaves such a state.
The full statement, for all accepted parameters, is false: see the next two theorems. -/
theorem C54_accepted_configuration_works_partial {inputRate outputRate radiusFactor cutoff beta : ℝ}
    {k : Kernel.Kernel} (hk : Kernel.init inputRate outputRate radiusFactor cutoff beta = some k)
    (hf : 1 / 2 ≤ radiusFactor) {a b : ℕ} (ha : 0 < a) (hb : 0 < b)
    (happrox : (a : ℝ) / b ≤ inputRate / outputRate + 1) (c : Cfg ℝ)
    (hB : Built c (fun q => Kernel.eval k (q : ℝ)) a b ⌈k.radius⌉₊) :
    StateOk c (reset c : St ℝ) ∧ StateOk c (resetFullyPrimed c : St ℝ) ∧
      ∀ (s : St ℝ) (x : List ℝ), StateOk c s → ∃ ys s', process c s x = some (ys, s') ∧ StateOk c s' :=
  C08_states_stay_valid hB (goodFactor_of_radius ha hb hf
    (by rw [← ((C09_kernel_init _ _ _ _ _).2 k hk).2.1]; exact Nat.le_ceil _) happrox)

/-- Without that restriction the resampler breaks: with `filter_radius_factor = 1/4` and factor 4 (which
`Init` accepts) the radius is 1, and the first call that has enough frames for an output skips beyond the
end of its input: the assertion `i <= input_size` fails and the new size of the delayed input would be
negative. -/
theorem C54_short_filter_violation (h : ℚ → R) (x y : M) :
    process (makeQ h 4 1 1) (reset (makeQ h 4 1 1)) [x, y] = none := by
  simp [process, reset, makeQ, Cfg.taps, nextOutputSize, straddleLoop, inputLoop, dotLoop, advance,
    makeFilters, List.range_succ]

/-- Upsampling by more than twice `max_denominator` breaks as well: the rational approximation of the
factor is 0, by which `Make` divides (rational_factor_resampler.c:124-125), as does
`NextNumOutputFrames`. -/
theorem C54_zero_factor_violation :
    RationalApproximation.rationalApproximationDefault (1 / 2500 : ℚ) 1000 = some (0, 1) := by
  decide +kernel

/-- The resampler with the library's kernel: output `m` is the interpolation of the whole input with that
kernel at time `m a / b`, and the outputs beyond the end are zero. `r` is the kernel radius rounded up;
the radius and the denominator are below 10^6. -/
theorem C09_resampler_with_kernel {inputRate outputRate radiusFactor cutoff beta : ℝ} {k : Kernel.Kernel}
    (hk : Kernel.init inputRate outputRate radiusFactor cutoff beta = some k)
    (hf : 1 / 2 ≤ radiusFactor) {a b : ℕ} (ha : 0 < a) (hb : 0 < b)
    (happrox : (a : ℝ) / b ≤ inputRate / outputRate + 1) (hb6 : b < 10 ^ 6) (hr6 : k.radius < 10 ^ 6)
    (x : List ℝ) :
    let h : ℚ → ℝ := fun q => Kernel.eval k (q : ℝ)
    let r := ⌈k.radius⌉₊
    (∃ ys, resampleSignal (makeQ h a b r) x = some ys ∧
      ∀ m, ys[m]? = if m * a / b < x.length + r then
        some (Spec.interpolate h x ((m : ℚ) * a / b)) else none) ∧
    ∀ m, x.length + r ≤ m * a / b → Spec.interpolate h x ((m : ℚ) * a / b) = 0 := by
  intro h r
  obtain ⟨-, hrad, hpos⟩ := (C09_kernel_init _ _ _ _ _).2 k hk
  have hbr : (0 : ℝ) < b := by exact_mod_cast hb
  have hceil : k.radius ≤ r := Nat.le_ceil _
  have hG : GoodFactor a b r := goodFactor_of_radius ha hb hf (by rw [← hrad]; exact hceil) happrox
  have hs : ∀ q : ℚ, (r : ℚ) + 1 / b ≤ |q| → h q = 0 := by
    intro q hq
    apply (C09_kernel_even_and_supported k hpos (q : ℝ)).2
    have hq' : (r : ℝ) + 1 / b ≤ |(q : ℝ)| := by
      have : (((r : ℚ) + 1 / b : ℚ) : ℝ) ≤ ((|q| : ℚ) : ℝ) := by exact_mod_cast hq
      rw [Rat.cast_abs] at this
      push_cast at this
      exact this
    have hb' : (1 : ℝ) / 10 ^ 6 < 1 / b := by
      apply one_div_lt_one_div_of_lt hbr; exact_mod_cast hb6
    have : k.radius * (100 / 2 ^ 52) < 1 / 10 ^ 6 := by
      calc k.radius * (100 / 2 ^ 52) < 10 ^ 6 * (100 / 2 ^ 52) := by
            apply mul_lt_mul_of_pos_right hr6; norm_num
        _ < 1 / 10 ^ 6 := by norm_num
    calc k.radius * (1 + 100 / 2 ^ 52) = k.radius + k.radius * (100 / 2 ^ 52) := by ring
      _ < (r : ℝ) + 1 / b := by linarith
      _ ≤ _ := hq'
  refine ⟨?_, fun m hm => C09_flush_complete hb hs x m hm⟩
  obtain ⟨ys, h1, h2⟩ := C09_resample_signal (Or.inr rfl : Built (makeQ h a b r) h a b r) hG x
  refine ⟨ys, h1, fun m => ?_⟩
  rw [h2, polyphase_interpolate h hb hs]

/-- 44.1 kHz to 48 kHz with the default parameters meets the conditions. -/
example : ∃ k, Kernel.init 44100 48000 5 (9 / 10) 6 = some k ∧ (147 : ℝ) / 160 ≤ 44100 / 48000 + 1 ∧
    k.radius < 10 ^ 6 := by
  obtain ⟨k, hk⟩ := ((C09_kernel_init 44100 48000 5 (9 / 10) 6).1).mpr (by norm_num)
  refine ⟨k, hk, by norm_num, ?_⟩
  rw [((C09_kernel_init 44100 48000 5 (9 / 10) 6).2 k hk).2.1, max_eq_left (by norm_num)]
  norm_num

/-! ### C10 -/

/-- The predicted number of outputs is the number of outputs. -/
theorem C10_size_exact {c : Cfg R} {h : ℚ → R} {a b r : ℕ} (hB : Built c h a b r) (hG : GoodFactor a b r)
    (s : St M) (hs : StateOk c s) (x : List M) :
    ∃ ys s', process c s x = some (ys, s') ∧ ys.length = nextOutputSize c s x.length := by
  have hc := hB.wf hG
  refine ⟨_, _, process_eq hc s x hs.1 hs.2, ?_⟩
  rw [nextOutputSize_eq hc, outFrom, outs_length, List.length_append]

/-- ... and at most the bound that does not depend on the state. -/
theorem C10_size_bound {c : Cfg R} {h : ℚ → R} {a b r : ℕ} (hB : Built c h a b r) (hG : GoodFactor a b r)
    (s : St M) (hs : StateOk c s) (n : ℕ) : nextOutputSize c s n ≤ maxOutputFrames c n := by
  have hc := hB.wf hG
  rw [nextOutputSize_eq hc]
  apply Nat.div_le_div_right
  have e : (s.delayed.length + n + 1 - c.taps) * c.den ≤ n * c.den :=
    Nat.mul_le_mul_right _ (by have := hs.1; omega)
  omega

/-- The bound is attained: by the state after `ResetFullyPrimed`. -/
theorem C10_size_bound_tight {c : Cfg R} {h : ℚ → R} {a b r : ℕ} (hB : Built c h a b r)
    (hG : GoodFactor a b r) (n : ℕ) :
    nextOutputSize c (resetFullyPrimed c : St M) n = maxOutputFrames c n := by
  have hc := hB.wf hG
  have e5 := hB.facts.2.2.2.2
  rw [nextOutputSize_eq hc]
  simp only [resetFullyPrimed, List.length_replicate, num, cnt, maxOutputFrames, e5]
  rw [show 2 * r + 1 - 1 + n + 1 - (2 * r + 1) = n by omega, Nat.sub_zero]

theorem lt_nextOutputSize_iff {c : Cfg R} (hc : c.Wf) {s : St M} {m n : ℕ} :
    m < nextOutputSize c s n ↔ (m * c.num + s.phase) / c.den + c.taps ≤ s.delayed.length + n := by
  rw [nextOutputSize_eq hc]
  constructor
  · intro h
    have := window_in hc h
    rwa [Nat.add_comm s.phase] at this
  · intro h
    by_contra hcon
    have b := cnt_le (num := c.num) (den := c.den) (P := s.phase)
      (L := s.delayed.length + n + 1 - c.taps) hc.num_pos
    have hm := Nat.mul_le_mul_right c.num (not_lt.mp hcon)
    have : (s.delayed.length + n + 1 - c.taps) * c.den ≤ m * c.num + s.phase := by
      simp only [num] at hm; omega
    rw [← Nat.le_div_iff_mul_le hc.den_pos] at this
    generalize (m * c.num + s.phase) / c.den = z at *
    omega

/-- `NextNumInputFramesToProduce(m)` is the least input size that yields `m` outputs or more. -/
theorem C10_least_input {c : Cfg R} {h : ℚ → R} {a b r : ℕ} (hB : Built c h a b r) (hG : GoodFactor a b r)
    (s : St M) (hs : StateOk c s) (m n : ℕ) :
    m ≤ nextOutputSize c s n ↔ nextNumInputFramesToProduce c s m ≤ n := by
  have hc := hB.wf hG
  unfold nextNumInputFramesToProduce
  cases m with
  | zero => simp
  | succ m =>
    rw [Nat.succ_le_iff, lt_nextOutputSize_iff hc, if_neg (by omega), Nat.add_sub_cancel]
    generalize (m * c.num + s.phase) / c.den = z
    omega

/-- ... and at most the bound that does not depend on the state. -/
theorem C10_input_bound {c : Cfg R} (s : St M) (hs : StateOk c s) (m : ℕ) :
    nextNumInputFramesToProduce c s m ≤ maxInputFramesToProduce c m := by
  unfold nextNumInputFramesToProduce maxInputFramesToProduce
  split
  · exact le_refl _
  · have : ((m - 1) * c.num + s.phase) / c.den ≤ ((m - 1) * c.num + c.den - 1) / c.den :=
      Nat.div_le_div_right (by have := hs.2; omega)
    generalize ((m - 1) * c.num + s.phase) / c.den = z at *
    generalize ((m - 1) * c.num + c.den - 1) / c.den = z' at *
    omega

/-- With that input size, the output has at most `⌊(b - 1) / a⌋` frames more than wanted. -/
theorem C10_excess {c : Cfg R} {h : ℚ → R} {a b r : ℕ} (hB : Built c h a b r) (hG : GoodFactor a b r)
    (s : St M) (hs : StateOk c s) (m : ℕ) (hm : 0 < m) :
    nextOutputSize c s (nextNumInputFramesToProduce c s m) ≤ m + (b - 1) / a := by
  have hc := hB.wf hG
  obtain ⟨e1, e2, -, -, -⟩ := hB.facts
  by_contra hcon
  have hlt := (lt_nextOutputSize_iff hc).mp (not_le.mp hcon)
  unfold nextNumInputFramesToProduce at hlt
  rw [if_neg (by omega), e1, e2] at hlt
  have h1 := hs.1
  have ha := hG.1
  have hb := hG.2.1
  have key : ((m + (b - 1) / a) * a + s.phase) / b ≤ ((m - 1) * a + s.phase) / b := by
    generalize ((m + (b - 1) / a) * a + s.phase) / b = z at *
    generalize ((m - 1) * a + s.phase) / b = z' at *
    omega
  have hstep : (m - 1) * a + s.phase + b ≤ (m + (b - 1) / a) * a + s.phase := by
    have d1 := Nat.div_add_mod (b - 1) a
    have d2 := Nat.mod_lt (b - 1) ha
    have e : (m + (b - 1) / a) * a = (m - 1) * a + a + a * ((b - 1) / a) := by
      obtain ⟨k, rfl⟩ : ∃ k, m = k + 1 := ⟨m - 1, by omega⟩
      rw [Nat.add_sub_cancel]; ring
    omega
  have := Nat.div_le_div_right (c := b) hstep
  rw [Nat.add_div_right _ hb] at this
  generalize ((m + (b - 1) / a) * a + s.phase) / b = z at *
  generalize ((m - 1) * a + s.phase) / b = z' at *
  omega

/-- When downsampling, exactly the wanted number of outputs is produced. -/
theorem C10_exact_when_downsampling {c : Cfg R} {h : ℚ → R} {a b r : ℕ} (hB : Built c h a b r)
    (hG : GoodFactor a b r) (hd : b ≤ a) (s : St M) (hs : StateOk c s) (m : ℕ) (hm : 0 < m) :
    nextOutputSize c s (nextNumInputFramesToProduce c s m) = m := by
  have h1 := C10_excess hB hG s hs m hm
  have h2 := (C10_least_input hB hG s hs m _).mpr (le_refl _)
  have hb := hG.2.1
  rw [Nat.div_eq_of_lt (by omega)] at h1
  omega

/-- Input blocks whose sizes are multiples of `a / gcd(a, b)`, after `ResetFullyPrimed`: each block of
`n` frames yields exactly `n b / a` frames. -/
theorem C10_fully_primed_exact {c : Cfg R} {h : ℚ → R} {a b r : ℕ} (hB : Built c h a b r)
    (hG : GoodFactor a b r) (bs : List (List M)) (hbs : ∀ x ∈ bs, a / Nat.gcd a b ∣ x.length) :
    ∃ yss s', runBlocks (process c) (resetFullyPrimed c) bs = some (yss, s') ∧
      yss.map (fun ys => ys.length * a) = bs.map (fun x => x.length * b) := by
  have hc := hB.wf hG
  obtain ⟨e1, e2, e3, e4, e5⟩ := hB.facts
  have ha := hG.1
  -- total number of outputs after `n` frames
  have cntExact : ∀ n, a / Nat.gcd a b ∣ n → num c 0 (2 * r + n) * a = n * b := by
    rintro n ⟨k, rfl⟩
    have hdiv : a / Nat.gcd a b * k * b = (k * (b / Nat.gcd a b)) * a := by
      have g1 := Nat.div_mul_cancel (Nat.gcd_dvd_left a b)
      have g2 := Nat.div_mul_cancel (Nat.gcd_dvd_right a b)
      generalize a / Nat.gcd a b = a' at *
      generalize b / Nat.gcd a b = b' at *
      generalize Nat.gcd a b = g at *
      subst g1; rw [← g2]; ring
    have : num c 0 (2 * r + a / Nat.gcd a b * k) = k * (b / Nat.gcd a b) := by
      symm
      apply cnt_unique hc.num_pos
      · intro j hj
        rw [e1, e2, e5, show 2 * r + a / a.gcd b * k + 1 - (2 * r + 1) = a / a.gcd b * k by omega, hdiv,
          Nat.zero_add]
        exact Nat.mul_lt_mul_of_pos_right hj ha
      · rw [e1, e2, e5, show 2 * r + a / a.gcd b * k + 1 - (2 * r + 1) = a / a.gcd b * k by omega, hdiv,
          Nat.zero_add]
    rw [this, hdiv]
  have main : ∀ (bs : List (List M)) (x : List M), a / Nat.gcd a b ∣ x.length →
      (∀ y ∈ bs, a / Nat.gcd a b ∣ y.length) →
      ∃ yss s', runBlocks (process c) (stateFrom c 0 (List.replicate (2 * r) 0 ++ x)) bs = some (yss, s') ∧
        yss.map (fun ys => ys.length * a) = bs.map (fun x => x.length * b) := by
    intro bs
    induction bs with
    | nil => intro x _ _; exact ⟨[], _, rfl, rfl⟩
    | cons y bs ih =>
      intro x hx hy
      obtain ⟨ys, p1, p2⟩ := process_stateFrom hc hc.den_pos (List.replicate (2 * r) 0 ++ x) y
      rw [List.append_assoc] at p1 p2
      have hy0 := hy y (by simp)
      obtain ⟨yss, s', q1, q2⟩ := ih (x ++ y) (by rw [List.length_append]; exact Dvd.dvd.add hx hy0)
        (fun z hz => hy z (by simp [hz]))
      refine ⟨ys :: yss, s', ?_, ?_⟩
      · simp only [runBlocks, p1, q1, Option.bind_eq_bind, Option.bind_some]
        rfl
      · rw [List.map_cons, List.map_cons, q2]
        congr 1
        have l := congrArg List.length p2
        simp only [outFrom, outs_length, List.length_append, List.length_replicate] at l
        have c1 := cntExact (x.length + y.length) (Dvd.dvd.add hx hy0)
        have c2 := cntExact x.length hx
        rw [l, Nat.add_mul, c2, Nat.add_mul] at c1
        omega
  have hself : stateFrom c 0 (List.replicate (2 * r) (0 : M) ++ []) = resetFullyPrimed c := by
    have hp := primed_ok (M := M) hc
    have := stateFrom_self hc _ hp.1 hp.2
    rw [List.append_nil]
    simpa only [resetFullyPrimed, e5, Nat.add_sub_cancel] using this
  have := main bs [] (by simp) hbs
  rwa [hself] at this

example : (runBlocks (process (makeQ (fun q : ℚ => q) 6 4 1)) (resetFullyPrimed (makeQ (fun q : ℚ => q) 6 4 1))
    [[(1 : ℚ), 2, 3], [1, 2, 3, 4, 5, 6]]).map (fun r => r.1.map List.length) = some [2, 4] := by decide +kernel

end Verif.Resampler
