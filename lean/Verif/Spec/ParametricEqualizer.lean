import Verif.Model.ParametricEqualizer
import Verif.Spec.FilterDesign

/-!
# What a parametric equalizer is meant to do

Independent of the code: the analog prototypes of the bands, the bands in use, root-mean-square errors and the
regularised least-squares problem.
-/

namespace Verif.ParametricEqualizer.Spec
open Verif.BiquadCascade Verif.FilterDesign

/-- The amplitude factor of a number of decibels. -/
noncomputable def factor (db : ℝ) : ℝ := (10 : ℝ) ^ (db / 20)

/-- The decibels of an amplitude factor. -/
noncomputable def decibels (x : ℝ) : ℝ := 20 * Real.logb 10 x

/-- The settings of a band that the designs accept. -/
def BandOk (rate : ℝ) (s : Band) : Prop := 0 < s.frequency ∧ s.frequency < rate / 2 ∧ 0 < s.quality

/-- Lowpass and highpass filters have no gain setting. -/
def HasGain (s : Band) : Prop := s.kind = .lowShelf ∨ s.kind = .peak ∨ s.kind = .highShelf

instance (s : Band) : Decidable (HasGain s) := inferInstanceAs (Decidable (_ ∨ _))

/-- The analog prototype of a band. Frequencies are in radians per second; for the shelves they are relative to
the corner frequency. A cut of a peak is the inverse of the boost. -/
noncomputable def prototype (s : Band) (x : ℂ) : ℂ :=
  let w : ℝ := 2 * Real.pi * s.frequency
  let G : ℝ := factor s.gain
  match s.kind with
  | .lowpass => w ^ 2 / (x ^ 2 + x * w / s.quality + w ^ 2)
  | .highpass => x ^ 2 / (x ^ 2 + x * w / s.quality + w ^ 2)
  | .lowShelf => √G * (x ^ 2 + √(√G) / s.quality * x + √G) / (√G * x ^ 2 + √(√G) / s.quality * x + 1)
  | .highShelf => √G * (√G * x ^ 2 + √(√G) / s.quality * x + 1) / (x ^ 2 + √(√G) / s.quality * x + √G)
  | .peak =>
    if 1 ≤ G then (x ^ 2 + G * (w / s.quality * x) + w ^ 2) / (x ^ 2 + w / s.quality * x + w ^ 2)
    else (x ^ 2 + w / s.quality * x + w ^ 2) / (x ^ 2 + 1 / G * (w / s.quality * x) + w ^ 2)

/-- The constant of the bilinear transform puts the frequency of the band at its place. -/
def Placed (rate : ℝ) (s : Band) (K : ℝ) : Prop :=
  if s.kind = .lowShelf ∨ s.kind = .highShelf then K * Real.tan (radians s.frequency rate / 2) = 1
  else Matches K s.frequency rate

/-- The stage `c` is a stable digital version of the band `s`. -/
def Realizes (rate : ℝ) (s : Band) (c : Stage ℝ) : Prop :=
  Stable c ∧ ∃ K, Placed rate s K ∧ Discretizes c K (prototype s)

/-- The gain of a band at 0 Hz. -/
noncomputable def dcGain (s : Band) : ℝ :=
  match s.kind with
  | .highpass => 0
  | .lowShelf => factor s.gain
  | _ => 1

/-- The gain of a band at half the sampling rate. -/
noncomputable def nyquistGain (s : Band) : ℝ :=
  match s.kind with
  | .lowpass => 0
  | .highShelf => factor s.gain
  | _ => 1

/-- The gain of a band at its own frequency. -/
noncomputable def centreGain (s : Band) : ℝ :=
  match s.kind with
  | .lowpass => s.quality
  | .highpass => s.quality
  | .peak => factor s.gain
  | .lowShelf => √(factor s.gain)
  | .highShelf => √(factor s.gain)

/-- The stage `c` has the gains that the settings of the band say (the frequency is warped to its exact place from
one ten-millionth of the sampling rate on). -/
def HasLevels (rate : ℝ) (s : Band) (c : Stage ℝ) : Prop :=
  response c 0 = dcGain s ∧ response c Real.pi = nyquistGain s ∧
    (rate / 10 ^ 7 ≤ s.frequency → ‖response c (radians s.frequency rate)‖ = centreGain s)

/-- The bands that are not bypassed. -/
def enabledBands (p : Params) : List Band :=
  (p.stages.zip p.enabled).filterMap fun x => if x.2 = true then some x.1 else none

/-- Both polynomials of a stage have degree two, by a margin that `Simplify` recognises. -/
def SecondOrder (c : Stage ℝ) : Prop := 1 / 10 ^ 10 < |c.b.getD 2 0| ∧ 1 / 10 ^ 10 < |c.a.getD 2 0|

/-- The frequency of a peak is not one of the (at most four) at which a coefficient of the digital stage is nearly
zero; `t` is the warped frequency. -/
def PeakClear (rate : ℝ) (s : Band) : Prop :=
  let t := Real.tan (Real.pi * s.frequency / rate)
  let n := max (factor s.gain) 1 / s.quality
  let d := max 1 (1 / factor s.gain) / s.quality
  rate / 10 ^ 4 ≤ s.frequency ∧ 1 / 10 ^ 10 * (1 + d * t + t ^ 2) < |1 - n * t + t ^ 2| ∧
    1 / 10 ^ 10 * (1 + d * t + t ^ 2) < |1 - d * t + t ^ 2|

/-- Settings for which the digital stages have degree two: a quality factor of at least 0.51 and no extreme
frequency or gain; for peaks also any quality factor and gain outside a few frequencies. -/
def Moderate (rate : ℝ) (s : Band) : Prop :=
  match s.kind with
  | .lowpass => 51 / 100 ≤ s.quality ∧ rate / 10 ^ 4 ≤ s.frequency
  | .highpass => 51 / 100 ≤ s.quality ∧ rate / 10 ^ 4 ≤ s.frequency ∧ s.frequency ≤ rate / 4
  | .lowShelf => 51 / 100 ≤ s.quality ∧ -100 ≤ s.gain
  | .highShelf => 51 / 100 ≤ s.quality ∧ -100 ≤ s.gain
  | .peak => factor |s.gain| ≤ 198 / 100 * s.quality ∨ PeakClear rate s

/-- Every parameter object: any history of calls. -/
inductive Reach : Params → Prop
  | new : Reach Params.new
  | addStage {p} (s) : Reach p → Reach (p.addStage s)
  | setEnabled {p p'} (i on) : Reach p → p.setEnabled i on = .ok p' → Reach p'
  | setStage {p p'} (i s) : Reach p → p.setStage i s = .ok p' → Reach p'
  | setGain {p} (g) : Reach p → Reach (p.setGain g)
  | clear {p} : Reach p → Reach p.clearAllGains
  | matchGains {p p'} (fs t n th r) : Reach p → matchGains fs t n th r p = .ok p' → Reach p'

/-- The regularised sum of squared errors. -/
noncomputable def cost {m n : ℕ} (A : Matrix (Fin m) (Fin n) ℝ) (t : Fin m → ℝ) (w : Fin n → ℝ) : ℝ :=
  ∑ i, ((∑ k, A i k * w k) - t i) ^ 2 + 1 / 10 ^ 4 * ∑ k, w k ^ 2

/-- The root of the mean squared difference of two lists of the same length. -/
noncomputable def rms (xs ys : List ℝ) : ℝ :=
  √((∑ i ∈ Finset.range xs.length, (xs.getD i 0 - ys.getD i 0) ^ 2) / xs.length)

/-- Two parameter objects with the same number of bands, kinds and bypass settings. -/
def SameBands (p q : Params) : Prop := p.stages.map (·.kind) = q.stages.map (·.kind) ∧ p.enabled = q.enabled

/-- Two parameter objects that differ in gains only. -/
def SameButGains (p q : Params) : Prop :=
  p.stages.map (fun s => (s.kind, s.frequency, s.quality)) = q.stages.map (fun s => (s.kind, s.frequency, s.quality)) ∧
    p.enabled = q.enabled

/-- The gains of the equalizer in decibels: those of the bands, then the overall gain. -/
def GainsAre {n : ℕ} (p : Params) (g : Fin (n + 1) → ℝ) : Prop :=
  p.stages.length = n ∧ p.gain = g (Fin.last n) ∧ ∀ k : Fin n, ∀ s, p.stages[k.val]? = some s → s.gain = g k.castSucc

/-- The digital versions of the bands of `p` with the gains `g` in place of theirs. -/
def DesignsWith {n : ℕ} (rate : ℝ) (p : Params) (g : Fin (n + 1) → ℝ) (ds : List (Stage ℝ)) : Prop :=
  ds.length = n ∧ p.stages.length = n ∧ ∀ k : Fin n, ∀ s c, p.stages[k.val]? = some s → ds[k.val]? = some c →
    design rate { s with gain := g k.castSucc } = some c ∧ SecondOrder c

/-- The level in decibels of every stage at every frequency, and in the last column the overall gain. -/
noncomputable def levels {n : ℕ} (rate : ℝ) (fs : List ℝ) (ds : List (Stage ℝ)) (g : Fin (n + 1) → ℝ) :
    Matrix (Fin fs.length) (Fin (n + 1)) ℝ := fun i k =>
  if k.val < n then decibels ‖response (ds.getD k.val ⟨[], []⟩) (radians (fs.getD i.val 0) rate)‖ else g (Fin.last n)

/-- The gains `g'` come from the gains `g` by the best weights for the levels of the stages with the gains `g`
(the levels are taken to scale with the gains): the regularised sum of squares is the least possible. -/
def Fits {n : ℕ} (rate : ℝ) (fs target : List ℝ) (p : Params) (g g' : Fin (n + 1) → ℝ) : Prop :=
  ∃ ds, DesignsWith rate p g ds ∧ ∃ w, (∀ k, g' k = w k * g k) ∧
    ∀ v, cost (levels rate fs ds g) (fun i => target.getD i.val 0) w ≤
      cost (levels rate fs ds g) (fun i => target.getD i.val 0) v

end Verif.ParametricEqualizer.Spec
