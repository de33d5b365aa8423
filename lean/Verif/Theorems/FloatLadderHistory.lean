import Verif.Theorems.FloatLadder
import Verif.Proof.FloatLadderSmooth

/-!
# C107: any history of calls

`Verif/Theorems/FloatLadder.lean` bounds the state for given reflection coefficients in effect. Here a client calls
`ProcessSample`, `ChangeLadderCoeffs` and `Reset` in any order, and the coefficients in effect are the ones that the
object's smoothing computes in `float`. Rounding lets them exceed the requested ones, by at most 0.003.
-/

namespace Verif.FloatLadder
open Finset Verif.Rounding Verif.Biquad Verif.Envelope Verif.FloatEnvelope

/-- States reached from rest by samples bounded by `X`, each with reflection coefficients of its own, bounded by `κ`. -/
inductive Reach (rnd : ℝ → ℝ) (eps κ X : ℝ) (M : ℕ) : (ℕ → ℝ) → Prop
  | rest {st : ℕ → ℝ} (h : ∀ i, st i = 0) : Reach rnd eps κ X M st
  | sample {st st' : ℕ → ℝ} (k c : ℕ → ℝ) (x : ℝ) (h : Reach rnd eps κ X M st) (hk : ∀ i, i < M → |k i| ≤ κ)
      (hc : ∀ i, i < M → IsScattering rnd eps (k i) (c i)) (hx : |x| ≤ X) (hu : Update rnd M k c st x st') :
      Reach rnd eps κ X M st'

section
variable {rnd : ℝ → ℝ} {u η eps κ γ X : ℝ} {M : ℕ}

theorem Reach.sequence (hκ : 0 ≤ κ) (hX : 0 ≤ X) {st : ℕ → ℝ} (h : Reach rnd eps κ X M st) :
    ∃ (K : ℕ → ℕ → ℝ) (x : ℕ → ℝ) (s : ℕ → ℕ → ℝ) (N : ℕ), (∀ n i, i < M → |K n i| ≤ κ) ∧ (∀ n, |x n| ≤ X) ∧
      (∀ i, s 0 i = 0) ∧ (∀ n, ∃ c : ℕ → ℝ, (∀ i, i < M → IsScattering rnd eps (K n i) (c i)) ∧
        Update rnd M (K n) c (s n) (x n) (s (n + 1))) ∧ s N = st := by
  have ex : ∀ st : ℕ → ℝ, ∃ st', ∃ c : ℕ → ℝ, (∀ i, i < M → IsScattering rnd eps 0 (c i)) ∧
      Update rnd M (fun _ => 0) c st 0 st' := by
    intro st
    have hc : ∃ c, IsScattering rnd eps 0 c := ⟨_, _, Or.inl rfl, rfl⟩
    obtain ⟨c, hc⟩ := hc
    obtain ⟨st', h⟩ := update_exists rnd M (fun _ => 0) (fun _ => c) st 0
    exact ⟨st', fun _ => c, fun _ _ => hc, h⟩
  choose g hg using ex
  induction h with
  | rest h =>
    rename_i st
    refine ⟨fun _ _ => 0, fun _ => 0, fun n => g^[n] st, 0, fun _ _ _ => by simpa using hκ,
      by simpa using hX, h, fun n => ?_, rfl⟩
    dsimp only
    rw [Function.iterate_succ_apply']
    exact hg _
  | sample k c x _ hk hc hx hu ih =>
    rename_i st st' _
    obtain ⟨K, xs, s, N, h1, h2, h3, h4, h5⟩ := ih
    refine ⟨fun n => if n < N then K n else if n = N then k else fun _ => 0,
      fun n => if n < N then xs n else if n = N then x else 0,
      fun n => if n ≤ N then s n else g^[n - (N + 1)] st', N + 1, ?_, ?_, ?_, ?_, ?_⟩
    · intro n i hi
      dsimp only
      split
      · exact h1 n i hi
      · split
        · exact hk i hi
        · simpa using hκ
    · intro n
      dsimp only
      split
      · exact h2 n
      · split
        · exact hx
        · simpa using hX
    · intro i; simpa using h3 i
    · intro n
      dsimp only
      rcases lt_trichotomy n N with e | e | e
      · rw [if_pos e, if_pos e, if_pos e.le, if_pos (by omega : n + 1 ≤ N)]; exact h4 n
      · subst e
        rw [if_neg (lt_irrefl n), if_pos rfl, if_neg (lt_irrefl n), if_pos rfl, if_pos le_rfl, if_neg (by omega), h5]
        simpa using ⟨c, hc, hu⟩
      · rw [if_neg (by omega), if_neg (by omega), if_neg (by omega), if_neg (by omega), if_neg (by omega),
          if_neg (by omega), show n + 1 - (N + 1) = (n - (N + 1)) + 1 by omega, Function.iterate_succ_apply']
        exact hg _
    · simp

theorem Reach.bounded (hr : Accurate rnd u η) (hκ : 0 ≤ κ) (h : Suffices u η eps κ γ X M) {st : ℕ → ℝ}
    (hs : Reach rnd eps κ X M st) :
    ∑ m ∈ range (M + 1), st m ^ 2 ≤ 40 * ((M : ℝ) + 1) ^ 3 * (16 / (5 * γ)) ^ (2 * M) * X ^ 2 := by
  obtain ⟨K, x, s, N, h1, h2, h3, h4, rfl⟩ := hs.sequence hκ h.X0
  have hy : ∀ n, ∃ y, FloatResampler.MachineDot rnd ((List.range (M + 1)).map fun m => (s (n + 1) m, (0 : ℝ))) y :=
    fun n => ⟨_, FloatResampler.foldl_machine _⟩
  choose y hy using hy
  exact C107_bounded (v := fun _ _ => 0) hr h h1 h2 ⟨h3, h4, hy⟩ N

end

/-- What holds of a filter object after any history of calls with reflection coefficients bounded by `κ` and samples
bounded by `X`. -/
structure Inside (cfg : Config) (p q D κ X : ℝ) (f : Filter) : Prop where
  k : ∀ i, i < cfg.order → |f.k i| ≤ κ + 3 / 1000
  t : ∀ i, i < cfg.order → |f.target i| ≤ κ + 1 / 10 ^ 7
  s : ∀ i, i < cfg.order →
    InRange p q (-(κ + 1 / 10 ^ 7 + slack D (κ + 1 / 10 ^ 7))) (κ + 1 / 10 ^ 7 + slack D (κ + 1 / 10 ^ 7)) (f.kS i)
  reach : Reach binary32 cfg.eps (κ + 3 / 1000) X cfg.order f.state

section
variable {cfg : Config} {p q D κ X : ℝ}

theorem setCoefficient_range {eps k : ℝ} (h1 : κ + 3 / 1000 < 1) (hk : |k| ≤ κ) :
    |setCoefficient binary32 eps k| ≤ κ + 1 / 10 ^ 7 := by
  have κ0 : 0 ≤ κ := (abs_nonneg k).trans hk
  have e := binary32_accurate k
  have e1 := abs_sub_abs_le_abs_sub (binary32 k) k
  have e2 : (1 : ℝ) / 2 ^ 24 * |k| ≤ 1 / 2 ^ 24 * 1 := mul_le_mul_of_nonneg_left (by linarith) (by norm_num)
  have e3 : (1 : ℝ) / 2 ^ 24 * 1 + 1 / 2 ^ 150 ≤ 1 / 10 ^ 7 := by norm_num
  have e4 : |binary32 k| ≤ κ + 1 / 10 ^ 7 := by linarith
  unfold setCoefficient
  rw [Ladder.force_of_lt (by linarith)]
  exact e4

theorem Reset.inside (hp : RealPoles cfg.smoother p q) (hD : D = (1 - p) * (1 - q)) (D8 : 8 / 10 ^ 4 ≤ D)
    {f f' : Filter} (hk : ∀ i, i < cfg.order → |f.k i| ≤ κ + 3 / 1000)
    (ht : ∀ i, i < cfg.order → |f.target i| ≤ κ + 1 / 10 ^ 7) (h : Reset binary32 cfg f f') : Inside cfg p q D κ X f' := by
  obtain ⟨a, b, _, d, e⟩ := h
  refine ⟨by rwa [a], by rwa [b], fun i hi => ?_, .rest d⟩
  exact steady_sym hp hD (le_trans (by norm_num) D8) (ht i hi) rfl (e i hi)

theorem Init.inside (hp : RealPoles cfg.smoother p q) (hD : D = (1 - p) * (1 - q)) (D8 : 8 / 10 ^ 4 ≤ D)
    (h1 : κ + 3 / 1000 < 1) {k : ℕ → ℝ} (hk : ∀ i, i < cfg.order → |k i| ≤ κ) {f : Filter}
    (h : Init binary32 cfg k f) : Inside cfg p q D κ X f := by
  obtain ⟨g, a, b, c⟩ := h
  have hk' : ∀ i, i < cfg.order → |g.k i| ≤ κ + 1 / 10 ^ 7 := fun i hi => by
    rw [a]; exact setCoefficient_range h1 (hk i hi)
  exact c.inside hp hD D8 (fun i hi => (hk' i hi).trans (by norm_num)) (by rwa [b])

theorem Smooth.inside (hp : RealPoles cfg.smoother p q) (hD : D = (1 - p) * (1 - q)) (D8 : 8 / 10 ^ 4 ≤ D)
    (hB : |cfg.smoother.ff0 + cfg.smoother.ff1 + cfg.smoother.ff2 - D| ≤ 5 * (1 / 2 ^ 24)) (h0 : 1 / 100 ≤ κ)
    (h1 : κ + 3 / 1000 < 1) {f f' : Filter} (hf : Inside cfg p q D κ X f) (h : Smooth binary32 cfg f f') :
    Inside cfg p q D κ X f' := by
  unfold Smooth at h
  split at h
  · rw [h]; exact hf
  · split at h
    · rw [h]
      exact ⟨fun i hi => (hf.t i hi).trans (by norm_num), hf.t, hf.s, hf.reach⟩
    · obtain ⟨-, a, b, c⟩ := h
      have key : ∀ i, i < cfg.order → _ ∧ |f'.k i| ≤ κ + 3 / 1000 := fun i hi => by
        obtain ⟨y, hy, e⟩ := c i hi
        have r := smoothed_range hp hD D8 hB (by linarith) (by norm_num; linarith) (hf.s i hi) (hf.t i hi) hy
        refine ⟨r.1, ?_⟩
        have : |y| ≤ κ + 3 / 1000 := r.2.trans (by norm_num; linarith)
        rwa [e, Ladder.force_of_lt (by linarith)]
      exact ⟨fun i hi => (key i hi).2, by rw [a]; exact hf.t, fun i hi => (key i hi).1, by rw [b]; exact hf.reach⟩

theorem Call.inside (hp : RealPoles cfg.smoother p q) (hD : D = (1 - p) * (1 - q)) (D8 : 8 / 10 ^ 4 ≤ D)
    (hB : |cfg.smoother.ff0 + cfg.smoother.ff1 + cfg.smoother.ff2 - D| ≤ 5 * (1 / 2 ^ 24)) (h0 : 1 / 100 ≤ κ)
    (h1 : κ + 3 / 1000 < 1) {f f' : Filter} (hf : Inside cfg p q D κ X f) {o : Op} (hx : ∀ x, o = .sample x → |x| ≤ X)
    (hk : ∀ k, o = .changeCoeffs k → ∀ i, i < cfg.order → |k i| ≤ κ) (h : Call binary32 cfg f o f') :
    Inside cfg p q D κ X f' := by
  cases o with
  | sample x =>
    obtain ⟨f1, c, st, a, b, d, rfl⟩ := h
    have hg := a.inside hp hD D8 hB h0 h1 hf
    exact ⟨hg.k, hg.t, hg.s, .sample f1.k c x hg.reach hg.k b (hx x rfl) d⟩
  | changeCoeffs k =>
    cases h
    exact ⟨hf.k, fun i hi => setCoefficient_range h1 (hk k rfl i hi), hf.s, hf.reach⟩
  | reset => exact Reset.inside hp hD D8 hf.k hf.t h

theorem Calls.inside (hp : RealPoles cfg.smoother p q) (hD : D = (1 - p) * (1 - q)) (D8 : 8 / 10 ^ 4 ≤ D)
    (hB : |cfg.smoother.ff0 + cfg.smoother.ff1 + cfg.smoother.ff2 - D| ≤ 5 * (1 / 2 ^ 24)) (h0 : 1 / 100 ≤ κ)
    (h1 : κ + 3 / 1000 < 1) {f f' : Filter} (hf : Inside cfg p q D κ X f) {ops : List Op}
    (h : Calls binary32 cfg f ops f') (hx : ∀ x, .sample x ∈ ops → |x| ≤ X)
    (hk : ∀ k, .changeCoeffs k ∈ ops → ∀ i, i < cfg.order → |k i| ≤ κ) :
    Inside cfg p q D κ X f' := by
  induction h with
  | nil => exact hf
  | snoc _ hc ih =>
    exact Call.inside hp hD D8 hB h0 h1 (ih (fun x e => hx x (by simp [e])) (fun k e => hk k (by simp [e])))
      (fun x e => hx x (by simp [e])) (fun k e => hk k (by simp [e])) hc

end

/-- **C107**: after any history of samples bounded by `X`, changes to reflection coefficients bounded by `κ` and resets, the
state of the `float` filter is bounded, and so are the reflection coefficients in effect, with the rounding of the
coefficient smoothing included. The bound does not grow with the length of the history. -/
theorem C107_history {cfg : Config} {δ κ γ X : ℝ} (hδ : δ ≤ 1 / 2 ^ 30) (hg : IsSmoother binary32 δ cfg.smoother)
    (hκ : 1 / 100 ≤ κ) (h : Suffices (1 / 2 ^ 24) (1 / 2 ^ 150) cfg.eps (κ + 3 / 1000) γ X cfg.order)
    {k : ℕ → ℝ} (hk : ∀ i, i < cfg.order → |k i| ≤ κ) {f f' : Filter} (hf : Init binary32 cfg k f) {ops : List Op}
    (hc : Calls binary32 cfg f ops f') (hx : ∀ x, .sample x ∈ ops → |x| ≤ X)
    (hks : ∀ k, .changeCoeffs k ∈ ops → ∀ i, i < cfg.order → |k i| ≤ κ) :
    ∑ m ∈ range (cfg.order + 1), f'.state m ^ 2 ≤
        40 * ((cfg.order : ℝ) + 1) ^ 3 * (16 / (5 * γ)) ^ (2 * cfg.order) * X ^ 2 ∧
      ∀ i, i < cfg.order → |f'.k i| ≤ κ + 3 / 1000 := by
  obtain ⟨p, q, D, hp, hD, D8, hB⟩ := hg.poles hδ
  have κ1 : κ + 3 / 1000 < 1 := by
    have := h.hκ
    have := h.γ0
    nlinarith
  have hi := Calls.inside hp hD D8 hB hκ κ1 (Init.inside (X := X) hp hD D8 κ1 hk hf) hc hx hks
  exact ⟨hi.reach.bounded binary32_accurate (by linarith) h, hi.k⟩

/-- **C107**: no call fails; every history has an execution. -/
theorem C107_total {cfg : Config} {δ : ℝ} (hδ : δ ≤ 1 / 2 ^ 30) (hg : IsSmoother binary32 δ cfg.smoother) (k : ℕ → ℝ)
    (ops : List Op) : (∃ f, Init binary32 cfg k f) ∧ ∀ f, ∃ f', Calls binary32 cfg f ops f' := by
  obtain ⟨p, q, D, hp, hD, D8, hB⟩ := hg.poles hδ
  have hd : denominator binary32 cfg.smoother ≠ 0 := by
    intro h
    have e := denominator_error hp hD
    rw [h] at e
    have := (abs_le.1 e).1
    norm_num at this D8
    linarith
  have res : ∀ f : Filter, ∃ f', Reset binary32 cfg f f' := fun f =>
    ⟨⟨f.k, f.target, _, 0, fun _ => 0⟩, rfl, rfl, rfl, fun _ => rfl, fun i _ => ⟨hd, rfl⟩⟩
  constructor
  · obtain ⟨f, hf⟩ := res ⟨fun i => setCoefficient binary32 cfg.eps (k i), fun i => setCoefficient binary32 cfg.eps (k i),
      fun _ => (0, 0), 0, fun _ => 0⟩
    exact ⟨f, _, rfl, rfl, hf⟩
  · intro f
    induction ops using List.reverseRecOn with
    | nil => exact ⟨f, .nil⟩
    | append_singleton ops o ih =>
      obtain ⟨f', hc⟩ := ih
      have : ∃ f'', Call binary32 cfg f' o f'' := by
        cases o with
        | sample x =>
          have hs : ∃ f1, Smooth binary32 cfg f' f1 := by
            unfold Smooth
            split
            · exact ⟨_, rfl⟩
            · split
              · exact ⟨_, rfl⟩
              · have : ∀ i, ∃ (r : ℝ × ℝ) (y : ℝ), FloatBiquad.Step binary32 cfg.smoother (f'.kS i) (f'.target i) r y :=
                  fun i => ⟨_, _, ⟨_, .inl rfl, rfl⟩, _, .inl rfl, .inl rfl⟩
                choose r y h using this
                exact ⟨⟨fun i => Ladder.force (10 * cfg.eps) (y i), f'.target, r, f'.smoothing - 1, f'.state⟩, rfl, rfl, rfl,
                  fun i _ => ⟨y i, h i, rfl⟩⟩
          obtain ⟨f1, hs⟩ := hs
          have hc : ∀ i, ∃ c, IsScattering binary32 cfg.eps (f1.k i) c := fun i => ⟨_, _, Or.inl rfl, rfl⟩
          choose c hc using hc
          obtain ⟨st, hst⟩ := update_exists binary32 cfg.order f1.k c f1.state x
          exact ⟨_, f1, c, st, hs, fun i _ => hc i, hst, rfl⟩
        | changeCoeffs k => exact ⟨_, rfl⟩
        | reset => exact res f'
      obtain ⟨f'', h⟩ := this
      exact ⟨f'', .snoc hc h⟩

/-- A `float` filter of order two and the smoother of the code; reflection coefficients up to 0.8, input up to 1. -/
example : ∃ cfg : Config, cfg.order = 2 ∧ IsSmoother binary32 0 cfg.smoother ∧
    Suffices (1 / 2 ^ 24) (1 / 2 ^ 150) cfg.eps (4 / 5 + 3 / 1000) (59 / 100) 1 cfg.order ∧
    ∃ f, Init binary32 cfg (fun _ => 4 / 5) f ∧ ∀ n : ℕ, ∃ f', Calls binary32 cfg f
      (.sample 1 :: .changeCoeffs (fun _ => -1 / 2) :: List.replicate n (.sample (-1))) f' ∧
      ∑ m ∈ range 3, f'.state m ^ 2 ≤ 40 * 27 * (320 / 59) ^ 4 := by
  have store : ∀ c, Stored binary32 0 c (binary32 c) := fun c => ⟨c, by simp, rfl⟩
  obtain ⟨f, hf⟩ : ∃ f, lowpassFilter 1 (5 / 1000) overdamped = some f :=
    ⟨_, lowpassFilter_eq (by norm_num) (by norm_num) (by norm_num) (by norm_num [overdamped])⟩
  let cfg : Config := ⟨1 / 2 ^ 23, 2, ⟨binary32 f.ff0, binary32 f.ff1, binary32 f.ff2, binary32 f.fb1, binary32 f.fb2⟩, 1000⟩
  have hg : IsSmoother binary32 0 cfg.smoother := ⟨f, hf, store _, store _, store _, store _, store _⟩
  have hs : Suffices (1 / 2 ^ 24) (1 / 2 ^ 150) cfg.eps (4 / 5 + 3 / 1000) (59 / 100) 1 cfg.order := by
    change Suffices (1 / 2 ^ 24) (1 / 2 ^ 150) (1 / 2 ^ 23) (4 / 5 + 3 / 1000) (59 / 100) 1 2
    constructor <;> norm_num
  obtain ⟨f0, h0⟩ := (C107_total (by norm_num) hg (fun _ => 4 / 5) []).1
  refine ⟨cfg, rfl, hg, hs, f0, h0, fun n => ?_⟩
  obtain ⟨f', h'⟩ := (C107_total (by norm_num) hg (fun _ => 4 / 5)
    (.sample 1 :: .changeCoeffs (fun _ => -1 / 2) :: List.replicate n (.sample (-1)))).2 f0
  refine ⟨f', h', ?_⟩
  have := (C107_history (by norm_num) hg (by norm_num) hs (fun _ _ => by norm_num [abs_of_pos]) h0 h'
    (fun x hx => by
      simp only [List.mem_cons, Op.sample.injEq, reduceCtorEq, List.mem_replicate, false_or] at hx
      rcases hx with rfl | ⟨_, rfl⟩ <;> norm_num)
    (fun k hk i _ => by
      simp only [List.mem_cons, Op.changeCoeffs.injEq, List.mem_replicate, reduceCtorEq, and_false, or_false, false_or] at hk
      rw [hk, abs_le]; constructor <;> norm_num)).1
  change ∑ m ∈ range (2 + 1), f'.state m ^ 2 ≤ 40 * (((2 : ℕ) : ℝ) + 1) ^ 3 * (16 / (5 * (59 / 100))) ^ (2 * 2) * 1 ^ 2 at this
  norm_num at this ⊢
  exact this

end Verif.FloatLadder
