import Verif.Theorems.Ladder
import Verif.Proof.LadderBibo
import Verif.Proof.Envelope

/-!
# C24: bounded input gives a bounded state, whatever the coefficient changes

The bounds of `Verif/Theorems/Ladder.lean` grow with the energy of the input, hence with time. Here
the samples are only bounded in amplitude, by `X`, and there may be any number of them. All requested
reflection coefficients, initial and later ones, are bounded by `κ < 1`. The bound on the state
depends on `X`, `κ` and the order alone.
-/

namespace Verif.Ladder
open Finset Verif.Envelope

/-- Filter states reached from rest by samples bounded by `X`, each with coefficients of its own. -/
inductive Reach (M : ℕ) (γ X : ℝ) : (ℕ → ℝ) → Prop
  | rest : Reach M γ X (fun _ => 0)
  | sample {st : ℕ → ℝ} (k c : ℕ → ℝ) (x : ℝ) (h : Reach M γ X st)
      (hk : ∀ i, i < M → k i ^ 2 + c i ^ 2 ≤ 1) (hc : ∀ i, i < M → γ ≤ c i) (hx : |x| ≤ X) :
      Reach M γ X (stageLoop k c M st x)

/-- The states of a run with the coefficients `K n`, `C n` and the samples `x n`. -/
def states (M : ℕ) (K C : ℕ → ℕ → ℝ) (x : ℕ → ℝ) : ℕ → ℕ → ℝ
  | 0 => fun _ => 0
  | n + 1 => stageLoop (K n) (C n) M (states M K C x n) (x n)

theorem states_congr {M : ℕ} {K C K' C' : ℕ → ℕ → ℝ} {x x' : ℕ → ℝ} : ∀ {N : ℕ},
    (∀ n, n < N → K n = K' n ∧ C n = C' n ∧ x n = x' n) → states M K C x N = states M K' C' x' N
  | 0, _ => rfl
  | N + 1, h => by
    obtain ⟨a, b, c⟩ := h N (by omega)
    simp only [states]
    rw [states_congr (N := N) (fun n hn => h n (by omega)), a, b, c]

theorem Reach.sequence {M : ℕ} {γ X : ℝ} (hγ : γ ≤ 1) (hX : 0 ≤ X) {st : ℕ → ℝ}
    (h : Reach M γ X st) : ∃ (K C : ℕ → ℕ → ℝ) (x : ℕ → ℝ) (N : ℕ),
      (∀ n i, i < M → K n i ^ 2 + C n i ^ 2 ≤ 1) ∧ (∀ n i, i < M → γ ≤ C n i) ∧
        (∀ n, |x n| ≤ X) ∧ states M K C x N = st := by
  induction h with
  | rest =>
    exact ⟨fun _ _ => 0, fun _ _ => 1, fun _ => 0, 0, by simp, fun _ _ _ => hγ, by simpa using hX,
      rfl⟩
  | sample k c x _ hk hc hx ih =>
    obtain ⟨K, C, xs, N, h1, h2, h3, h4⟩ := ih
    refine ⟨fun n => if n = N then k else K n, fun n => if n = N then c else C n,
      fun n => if n = N then x else xs n, N + 1, ?_, ?_, ?_, ?_⟩
    · intro n i hi
      by_cases e : n = N
      · simpa [e] using hk i hi
      · simpa [e] using h1 n i hi
    · intro n i hi
      by_cases e : n = N
      · simpa [e] using hc i hi
      · simpa [e] using h2 n i hi
    · intro n
      by_cases e : n = N
      · simpa [e] using hx
      · simpa [e] using h3 n
    · have e : states M (fun n => if n = N then k else K n) (fun n => if n = N then c else C n)
          (fun n => if n = N then x else xs n) N = states M K C xs N :=
        states_congr (fun n hn => by simp [hn.ne])
      simp only [states, if_true, e, h4]

theorem Reach.bounded {M : ℕ} {γ X : ℝ} (hγ0 : 0 < γ) (hγ : γ ≤ 1) (hX : 0 ≤ X) {st : ℕ → ℝ}
    (h : Reach M γ X st) :
    energy (M + 1) st ≤ 30 * ((M : ℝ) + 1) ^ 3 * (1 + 2 / γ) ^ (2 * M) * X ^ 2 := by
  obtain ⟨K, C, x, N, h1, h2, h3, h4⟩ := h.sequence hγ hX
  have hs : ∀ n, ∃ f : ℕ → ℝ, f M = x n ∧
      (∀ i, i < M → f i = C n i * f (i + 1) - K n i * states M K C x n i) ∧
      states M K C x (n + 1) 0 = f 0 ∧
      (∀ i, i < M → states M K C x (n + 1) (i + 1) =
        K n i * f (i + 1) + C n i * states M K C x n i) := by
    intro n
    obtain ⟨f, a, b, c, d, _⟩ := stageLoop_spec (K n) (C n) M (states M K C x n) (x n)
    exact ⟨f, a, b, c, d⟩
  choose f fa fb fc fd using hs
  have hK : ∀ n i, i < M → |K n i| ≤ 1 := fun n i hi =>
    abs_le_one_iff_mul_self_le_one.mpr (by nlinarith [h1 n i hi, sq_nonneg (C n i)])
  have hC : ∀ n i, i < M → |C n i| ≤ 1 := fun n i hi =>
    abs_le_one_iff_mul_self_le_one.mpr (by nlinarith [h1 n i hi, sq_nonneg (K n i)])
  have run : Run 0 0 (1 / γ) 0 0 M x (states M K C x) f := by
    constructor
    · exact fa
    · exact fc
    · intro n i hi
      rw [fd n i hi, fb n i hi]
      have e : (K n i * f n (i + 1) + C n i * states M K C x n i) ^ 2 +
          (C n i * f n (i + 1) - K n i * states M K C x n i) ^ 2 =
          (K n i ^ 2 + C n i ^ 2) * (f n (i + 1) ^ 2 + states M K C x n i ^ 2) := by ring
      rw [e]
      have := mul_le_mul_of_nonneg_right (h1 n i hi)
        (by positivity : 0 ≤ f n (i + 1) ^ 2 + states M K C x n i ^ 2)
      linarith
    · intro n i hi
      have e : C n i * states M K C x n i =
          states M K C x (n + 1) (i + 1) - K n i * f n (i + 1) := by rw [fd n i hi]; ring
      have a1 : |C n i| * |states M K C x n i| ≤
          |states M K C x (n + 1) (i + 1)| + |K n i| * |f n (i + 1)| := by
        rw [← abs_mul, e, ← abs_mul]; exact abs_sub _ _
      have a2 := mul_le_mul_of_nonneg_right (hK n i hi) (abs_nonneg (f n (i + 1)))
      have a3 := mul_le_mul_of_nonneg_right ((h2 n i hi).trans (le_abs_self _))
        (abs_nonneg (states M K C x n i))
      rw [one_div, ← div_eq_inv_mul, le_div_iff₀ hγ0]
      linarith
    · intro n i hi
      rw [fb n i hi]
      have a1 : |C n i * f n (i + 1) - K n i * states M K C x n i| ≤
          |C n i| * |f n (i + 1)| + |K n i| * |states M K C x n i| := by
        rw [← abs_mul, ← abs_mul]; exact abs_sub _ _
      have a2 := mul_le_mul_of_nonneg_right (hK n i hi) (abs_nonneg (states M K C x n i))
      have a3 := mul_le_mul_of_nonneg_right (hC n i hi) (abs_nonneg (f n (i + 1)))
      linarith
  have hb := run_bounded run (X := X) (Y := X) (P := 1 + 2 / γ) ((one_le_div hγ0).mpr hγ) le_rfl
    le_rfl le_rfl le_rfl hX le_rfl h3 (le_of_eq (by ring)) (by simp) (by simp [energy, states]) N
  rw [h4] at hb
  refine hb.trans (le_of_eq ?_)
  ring

/-- What holds of a filter object after any history of calls with reflection coefficients bounded by
`κ` and samples bounded by `X`. -/
structure Inside (cfg : Config) (p q κ γ X : ℝ) (M : ℕ) (f : Filter) : Prop where
  order : f.order = M
  k : ∀ i, i < M → |f.k i| ≤ κ
  t : ∀ i, i < M → |f.kTarget i| ≤ κ
  c : f.c = scattering cfg.eta f.k
  s : ∀ i, i < M → InRange p q (-κ) κ (f.kS i)
  reach : Reach M γ X f.state

theorem scattering_ge {η κ γ : ℝ} {k : ℕ → ℝ} {i : ℕ} (hγ0 : 0 < γ) (hκγ : κ ^ 2 + γ ^ 2 ≤ 1)
    (hγ : γ ≤ 1 - η) (hk : |k i| ≤ κ) : γ ≤ scattering η k i := by
  have hs : γ ≤ Real.sqrt (1 - k i * k i) := by
    apply Real.le_sqrt_of_sq_le
    have := mul_le_mul hk hk (abs_nonneg _) ((abs_nonneg _).trans hk)
    rw [abs_mul_abs_self] at this
    nlinarith
  unfold scattering force
  split
  · exact hs
  · rw [if_pos (by linarith)]; exact hγ

section
variable {cfg : Config} {p q κ γ X : ℝ} {M : ℕ}

theorem smooth_inside (ho : Overdamped cfg.smoother p q) (hκ : κ < 1) {f : Filter}
    (h : Inside cfg p q κ γ X M f) : Inside cfg p q κ γ X M (smooth cfg f) := by
  unfold smooth
  by_cases hs : f.smoothing > 0
  · rw [if_pos hs]
    by_cases hn : f.smoothing - 1 > 0
    · simp only [hn, if_true]
      have hr := fun i hi => ho.step_range (h.s i hi) (abs_le.mp (h.t i hi))
      refine ⟨h.order, fun i hi => ?_, h.t, rfl, fun i hi => (hr i hi).1, h.reach⟩
      have := abs_le.mpr (hr i hi).2
      simp only
      rwa [force_of_lt (this.trans_lt hκ)]
    · simp only [hn, if_false]
      exact ⟨h.order, h.t, h.t, rfl, h.s, h.reach⟩
  · rw [if_neg hs]; exact h

theorem processSample_inside (h0 : 0 < cfg.eta) (h1 : cfg.eta < 1)
    (ho : Overdamped cfg.smoother p q) (hκ : κ < 1) (hγ0 : 0 < γ) (hκγ : κ ^ 2 + γ ^ 2 ≤ 1)
    (hγ : γ ≤ 1 - cfg.eta) {f : Filter} (h : Inside cfg p q κ γ X M f) {x : ℝ} (hx : |x| ≤ X) :
    Inside cfg p q κ γ X M (processSample cfg f x).1 := by
  have hg := smooth_inside ho hκ h
  refine ⟨hg.order, hg.k, hg.t, hg.c, hg.s, ?_⟩
  have e : (processSample cfg f x).1.state =
      stageLoop (smooth cfg f).k (smooth cfg f).c M (smooth cfg f).state x := by
    simp only [processSample, step, hg.order]
  rw [e]
  refine Reach.sample _ _ _ hg.reach (fun i hi => ?_) (fun i hi => ?_) hx
  · rw [hg.c]; exact (scattering_sq h0 h1 ((hg.k i hi).trans_lt hκ)).1
  · rw [hg.c]; exact scattering_ge hγ0 hκγ hγ (hg.k i hi)

theorem apply_inside (h0 : 0 < cfg.eta) (h1 : cfg.eta < 1)
    (ho : Overdamped cfg.smoother p q) (hκ : κ < 1) (hγ0 : 0 < γ) (hκγ : κ ^ 2 + γ ^ 2 ≤ 1)
    (hγ : γ ≤ 1 - cfg.eta) {f : Filter} (h : Inside cfg p q κ γ X M f) {o : Op}
    (hx : ∀ x, o = .sample x → |x| ≤ X)
    (hk : ∀ k v, o = .changeCoeffs k v → ∀ i, i < M → |k i| ≤ κ) :
    Inside cfg p q κ γ X M (apply cfg f o).1 := by
  cases o with
  | sample x => exact processSample_inside h0 h1 ho hκ hγ0 hκγ hγ h (hx x rfl)
  | changeCoeffs k v =>
    refine ⟨h.order, h.k, fun i hi => ?_, h.c, h.s, h.reach⟩
    have := hk k v rfl i hi
    simp only [apply, change]
    rwa [force_of_lt (this.trans_lt hκ)]
  | reset =>
    exact ⟨h.order, h.k, h.t, h.c, fun i hi => ho.steady_range (abs_le.mp (h.t i hi)), Reach.rest⟩

theorem init_inside (ho : Overdamped cfg.smoother p q) (hκ : κ < 1) {k v : ℕ → ℝ} {f : Filter}
    (hf : init cfg M k v = some f) (hk : ∀ i, i < M → |k i| ≤ κ) :
    Inside cfg p q κ γ X M f := by
  unfold init at hf
  split at hf
  · cases hf
  · cases hf
    have hk' : ∀ i, i < M → |force cfg.eta (k i)| ≤ κ := fun i hi => by
      rw [force_of_lt ((hk i hi).trans_lt hκ)]; exact hk i hi
    exact ⟨rfl, hk', hk', rfl, fun i hi => ho.steady_range (abs_le.mp (hk' i hi)), Reach.rest⟩

theorem after_inside (h0 : 0 < cfg.eta) (h1 : cfg.eta < 1)
    (ho : Overdamped cfg.smoother p q) (hκ : κ < 1) (hγ0 : 0 < γ) (hκγ : κ ^ 2 + γ ^ 2 ≤ 1)
    (hγ : γ ≤ 1 - cfg.eta) : ∀ (ops : List Op) {f : Filter}, Inside cfg p q κ γ X M f →
    (∀ x, .sample x ∈ ops → |x| ≤ X) →
    (∀ k v, .changeCoeffs k v ∈ ops → ∀ i, i < M → |k i| ≤ κ) →
    Inside cfg p q κ γ X M (after cfg f ops)
  | [], _, h, _, _ => h
  | o :: ops, _, h, hx, hk =>
    after_inside h0 h1 ho hκ hγ0 hκγ hγ ops
      (apply_inside h0 h1 ho hκ hγ0 hκγ hγ h (fun x e => hx x (by simp [e]))
        (fun k v e => hk k v (by simp [e])))
      (fun x e => hx x (by simp [e])) (fun k v e => hk k v (by simp [e]))

/-- **C24**: samples of absolute value at most `X`, any number of them, with any resets and any
changes to reflection coefficients of absolute value at most `κ < 1` in between, leave the state's
energy below a bound that does not grow with time. `γ` is (at most) the smallest scattering
coefficient `√(1 - κ²)`. -/
theorem C24_bounded_amplitude (h0 : 0 < cfg.eta) (h1 : cfg.eta < 1)
    (ho : Overdamped cfg.smoother p q) (hκ : κ < 1) (hγ0 : 0 < γ) (hκγ : κ ^ 2 + γ ^ 2 ≤ 1)
    (hγ : γ ≤ 1 - cfg.eta) {k v : ℕ → ℝ} {f : Filter} (hf : init cfg M k v = some f)
    (hk : ∀ i, i < M → |k i| ≤ κ) (hX : 0 ≤ X) (ops : List Op)
    (hx : ∀ x, .sample x ∈ ops → |x| ≤ X)
    (hops : ∀ k v, .changeCoeffs k v ∈ ops → ∀ i, i < M → |k i| ≤ κ) :
    stateEnergy (after cfg f ops) ≤ 30 * ((M : ℝ) + 1) ^ 3 * (1 + 2 / γ) ^ (2 * M) * X ^ 2 := by
  have h := after_inside h0 h1 ho hκ hγ0 hκγ hγ ops (X := X) (init_inside ho hκ hf hk) hx hops
  have hb := h.reach.bounded hγ0 (by linarith) hX
  unfold stateEnergy
  rw [h.order]
  exact hb

/-- **C24**: the same for the output, relative to the tap gains in effect. -/
theorem C24_bounded_amplitude_output (h0 : 0 < cfg.eta) (h1 : cfg.eta < 1)
    (ho : Overdamped cfg.smoother p q) (hκ : κ < 1) (hγ0 : 0 < γ) (hκγ : κ ^ 2 + γ ^ 2 ≤ 1)
    (hγ : γ ≤ 1 - cfg.eta) {k v : ℕ → ℝ} {f : Filter} (hf : init cfg M k v = some f)
    (hk : ∀ i, i < M → |k i| ≤ κ) (hX : 0 ≤ X) (ops : List Op)
    (hx : ∀ x, .sample x ∈ ops → |x| ≤ X)
    (hops : ∀ k v, .changeCoeffs k v ∈ ops → ∀ i, i < M → |k i| ≤ κ) {y : ℝ} (hy : |y| ≤ X) :
    let r := processSample cfg (after cfg f ops) y
    r.2 ^ 2 ≤ 30 * ((M : ℝ) + 1) ^ 3 * (1 + 2 / γ) ^ (2 * M) * X ^ 2 *
      ∑ m ∈ range (M + 1), r.1.v m ^ 2 := by
  intro r
  have ha := after_inside h0 h1 ho hκ hγ0 hκγ hγ ops (X := X) (init_inside ho hκ hf hk) hx hops
  have h : Inside cfg p q κ γ X M r.1 := processSample_inside h0 h1 ho hκ hγ0 hκγ hγ ha hy
  have e : r.2 = ∑ m ∈ range (M + 1), r.1.state m * r.1.v m := by
    rw [← h.order]; rfl
  rw [e]
  refine (sum_mul_sq_le_sq_mul_sq _ _ _).trans ?_
  exact mul_le_mul_of_nonneg_right (h.reach.bounded hγ0 (by linarith) hX)
    (sum_nonneg (fun _ _ => sq_nonneg _))

end

/-- The premise on the smoother holds of the one the code designs, ladder_filter-inl.h:156-158:
`LowpassBiquadFilterCoefficients(1.0, 0.005, 0.49)`. -/
theorem smoother_of_code :
    ∃ f p q, lowpassFilter 1 (5 / 1000) (49 / 100) = some f ∧ Overdamped f p q :=
  smoother_overdamped (by norm_num) (by norm_num)

/-- A filter of order two, `κ = 4/5`, `γ = 3/5`: the premises hold, the bound is a number. -/
example : ∃ (cfg : Config) (p q : ℝ), 0 < cfg.eta ∧ cfg.eta < 1 ∧ Overdamped cfg.smoother p q ∧
    ((4 / 5 : ℝ) ^ 2 + (3 / 5) ^ 2 ≤ 1) ∧ (3 / 5 : ℝ) ≤ 1 - cfg.eta ∧
    (∃ f, init cfg 2 (fun _ => 4 / 5) (fun _ => 1) = some f) ∧
    ∀ f, init cfg 2 (fun _ => 4 / 5) (fun _ => 1) = some f → ∀ n : ℕ,
      stateEnergy (after cfg f (.changeCoeffs (fun _ => -1 / 2) (fun _ => 1) ::
        List.replicate n (.sample 1))) ≤ 30 * 27 * (13 / 3) ^ 4 := by
  obtain ⟨s, p, q, _, ho⟩ := smoother_of_code
  refine ⟨⟨1 / 1000, s, 100⟩, p, q, by norm_num, by norm_num, ho, by norm_num, by norm_num,
    ⟨_, rfl⟩, ?_⟩
  intro f hf n
  have := C24_bounded_amplitude (cfg := ⟨1 / 1000, s, 100⟩) (κ := 4 / 5) (γ := 3 / 5) (X := 1)
    (by norm_num) (by norm_num) ho (by norm_num) (by norm_num) (by norm_num) (by norm_num) hf
    (fun i _ => by norm_num [abs_of_pos]) (by norm_num)
    (.changeCoeffs (fun _ => -1 / 2) (fun _ => 1) :: List.replicate n (.sample 1))
    (fun x hx => by
      simp only [List.mem_cons, reduceCtorEq, List.mem_replicate, Op.sample.injEq, false_or] at hx
      simp [hx.2])
    (fun k v hk i _ => by
      simp only [List.mem_cons, Op.changeCoeffs.injEq, List.mem_replicate, reduceCtorEq, and_false,
        or_false] at hk
      rw [hk.1, abs_le]; constructor <;> norm_num)
  norm_num at this ⊢
  exact this

end Verif.Ladder
