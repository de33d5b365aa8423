import Verif.Model.AuditoryFilterbank
import Verif.Spec.FilterDesign
import Verif.Spec.LinearFilter
import Mathlib.Algebra.BigOperators.Group.Finset.Basic

/-!
# Specification of the auditory cascade filterbank

Only the record of parameters, the type `Stage` of filter coefficients and their frequency response are shared with the
model.
-/

namespace Verif.AuditoryFilterbank.Spec
open Verif.BiquadCascade Verif.FilterDesign Verif.LinearFilter.Spec

/-- The equivalent rectangular bandwidth of Glasberg and Moore (1990) at a centre frequency in Hz. -/
noncomputable def erb (hz : ℝ) : ℝ := 24.7 * (4.37 * hz / 1000 + 1)

/-- Pole frequencies: the first is limited by a fraction of the Nyquist frequency, every other one is `step_erbs` ERBs (at
its predecessor) below its predecessor. -/
noncomputable def freq (p : Params) (rate : ℝ) : ℕ → ℝ
  | 0 => min p.highest (p.fraction * rate / 2)
  | k + 1 => freq p rate k - p.stepErbs * erb (freq p rate k)

/-- `N` stages: those with a pole above the minimum. -/
def IsCount (p : Params) (rate : ℝ) (N : ℕ) : Prop :=
  (∀ k < N, p.minPole < freq p rate k) ∧ freq p rate N ≤ p.minPole

open Classical in
/-- Sampling rates of the stages: before each stage but the first the rate is halved if decimation is allowed, the pole has
a period of more than `max_samples_per_cycle` samples and the rate stays at `min_sample_rate` or above. -/
noncomputable def rateOf (p : Params) (allow : Bool) (rate : ℝ) : ℕ → ℝ
  | 0 => rate
  | k + 1 =>
    if allow = true ∧ p.maxSamplesPerCycle < rateOf p allow rate k / freq p rate (k + 1) ∧
        2 * p.minRate ≤ rateOf p allow rate k
    then rateOf p allow rate k / 2 else rateOf p allow rate k

/-- The resonator in the s-plane as documented before `DesignFilterbank`, with `pole_omega = w` and
`zero_omega = sqrt(2) w`, `zero_zeta = pole_zeta / sqrt(2)`. -/
noncomputable def resonator (zeta w : ℝ) (s : ℂ) : ℂ :=
  (s ^ 2 + 2 * (zeta / √2 : ℝ) * (√2 * w : ℝ) * s + (√2 * w : ℝ) ^ 2) / (s ^ 2 + 2 * zeta * w * s + w ^ 2)

/-- The gain at a frequency of the path from the input through stages `0 .. k`, each at its own sampling rate, and the first
difference at the rate of stage `k`. -/
noncomputable def gain (c : ℕ → Stage ℝ) (rate : ℕ → ℝ) (k : ℕ) (hz : ℝ) : ℝ :=
  (∏ j ∈ Finset.range (k + 1), ‖response (c j) (radians hz (rate j))‖) *
    ‖(1 : ℂ) - Complex.exp ((radians hz (rate k) : ℝ) * Complex.I)‖

/-- Samples `0, 2, 4, ...`. -/
def everyOther (x : List ℝ) : List ℝ := (List.range ((x.length + 1) / 2)).map fun i => x.getD (2 * i) 0

/-- The signals after each stage of the cascade, for stages given by coefficients and whether their input is decimated. -/
def Chain : List (Stage ℝ × Bool) → List ℝ → List (List ℝ) → Prop
  | [], _, ys => ys = []
  | (c, d) :: rest, x, ys => ∃ y ys', ys = y :: ys' ∧ DiffEq c.b c.a (if d then everyOther x else x) y ∧ Chain rest y ys'

/-- `y[n] - y[n-1]`. -/
def difference (y : List ℝ) : List ℝ := (List.range y.length).map fun n => y.getD n 0 - past y n 1

/-- No stage. -/
def noStage : Stage ℝ := ⟨[], []⟩

/-- Stages as they should be: number `k` is stable and the bilinear transform, exact at its pole frequency, of the
documented resonator times a positive constant; at the peak frequency, which lies strictly between zero and the Nyquist
frequency of the stage, the gain of the path from the input to channel `k` is one; at 98 equidistant frequencies between
zero and that Nyquist frequency it is at most one. -/
structure Designed (p : Params) (allow : Bool) (rate : ℝ) (cs : List (Stage ℝ)) (peaks : List ℝ) : Prop where
  length : peaks.length = cs.length
  pole : ∀ k < cs.length, 0 < freq p rate k ∧ freq p rate k < rateOf p allow rate k / 2
  stable : ∀ k < cs.length, Stable (cs.getD k noStage)
  discretizes : ∀ k < cs.length, ∃ K G : ℝ, 0 < G ∧ Matches K (freq p rate k) (rateOf p allow rate k) ∧
    Discretizes (cs.getD k noStage) K fun s => G * resonator p.zeta (2 * Real.pi * freq p rate k) s
  range : ∀ k < cs.length, 0 < peaks.getD k 0 ∧ peaks.getD k 0 < rateOf p allow rate k / 2
  unit : ∀ k < cs.length, gain (fun j => cs.getD j noStage) (rateOf p allow rate) k (peaks.getD k 0) = 1
  below : ∀ k < cs.length, ∀ j : ℕ, 1 ≤ j → j ≤ 98 →
    gain (fun j => cs.getD j noStage) (rateOf p allow rate) k (j * (rateOf p allow rate k / 2 / 99)) ≤ 1

open Classical in
/-- Whether the input of a stage is decimated: its rate differs from that of the stage before. -/
noncomputable def halved (p : Params) (allow : Bool) (rate : ℝ) (k : ℕ) : Bool :=
  0 < k && !decide (rateOf p allow rate k = rateOf p allow rate (k - 1))

/-- The stages with their decimators. -/
noncomputable def stages (p : Params) (allow : Bool) (rate : ℝ) (cs : List (Stage ℝ)) : List (Stage ℝ × Bool) :=
  (List.range cs.length).map fun k => (cs.getD k noStage, halved p allow rate k)

/-- The stage shown as a channel. -/
def stageOf (o : Selection) (channel : ℕ) : ℕ :=
  if o.useAll then channel else o.first.toNat + o.skip.toNat * channel

/-- Channels of a filterbank of `N` stages. -/
def Visible (o : Selection) (N channel : ℕ) : Prop :=
  stageOf o channel < N ∧ (o.useAll = false → (channel : ℤ) < o.maxChannels)

end Verif.AuditoryFilterbank.Spec
