import Verif.Model.PoleZero
import Verif.Model.Ladder
import Verif.Model.Stream
import Verif.Model.Drc
import Mathlib.Analysis.SpecialFunctions.Complex.Arg
import Mathlib.Algebra.Order.Floor.Ring

/-!
# Model of `audio/dsp/hifi/multi_crossover_filter.h` and `multiband_compressor.{h,cc}`

Over the reals (rounding is not modelled; in the code the frequencies and the phase passed to the allpass design
are converted to `float`). One channel of the filterbank is modelled: the channels run the same loops on their own
rows of the states, with shared coefficients. `none` stands for a failed `CHECK` or undefined behaviour.
-/

namespace Verif.MultiCrossover
open Verif.BiquadCascade Verif.FilterDesign Verif.PoleZero

/-! ## Angles -/

/-- `std::fmod`: the remainder of the division rounded towards zero. -/
noncomputable def fmod (x y : ℝ) : ℝ := x - y * (if x / y < 0 then (⌈x / y⌉ : ℝ) else (⌊x / y⌋ : ℝ))

/-- `WrapAngle`, multi_crossover_filter.h:207-215. -/
noncomputable def wrapAngle (x : ℝ) : ℝ :=
  let r := fmod (x + Real.pi) (2 * Real.pi)
  (if r < 0 then r + 2 * Real.pi else r) - Real.pi

/-! ## Design -/

/-- `lowpass_coeffs_`, `highpass_coeffs_` (by stage) and `allpass_coeffs_` (by band). -/
structure Coeffs where
  low : List (List (Stage ℝ))
  high : List (List (Stage ℝ))
  ap : List (List (Stage ℝ))

/-- The stages that `GetCoefficientsForBand` appends, in order, multi_crossover_filter.h:186-202, with `n` bands. -/
def Coeffs.bandStages (c : Coeffs) (n band : ℕ) : List (Stage ℝ) :=
  (if band < n - 1 then c.low.getD band [] else []) ++
    ((List.range band).flatMap fun stage => c.high.getD stage []) ++
    (if band < n - 2 then c.ap.getD band [] else [])

/-- `GetCoefficientsForBand`, multi_crossover_filter.h:183-204. -/
noncomputable def bandCoeffs (ε : ℝ) (n : ℕ) (c : Coeffs) (band : ℕ) : Option (List (Stage ℝ)) :=
  (c.bandStages n band).foldlM (appendBiquad ε) identityCascade

/-- `GetPhaseResponseAt`, multi_crossover_filter.h:173-181, biquad_filter_coefficients.h:248-256. -/
noncomputable def phaseAt (ε : ℝ) (n : ℕ) (rate : ℝ) (c : Coeffs) (band : ℕ) (hz : ℝ) : Option ℝ :=
  (bandCoeffs ε n c band).map fun cs =>
    (evalCascade Complex.ofRealHom cs (Complex.exp ((2 * Real.pi * hz / rate : ℝ) * Complex.I))).arg

/-- Body of the phase correction loop, multi_crossover_filter.h:247-257. -/
noncomputable def correct (ε : ℝ) (n : ℕ) (rate : ℝ) (freqs : List ℝ) (c : Coeffs) (lower : ℕ) : Option Coeffs := do
  let hz := freqs.getD lower 0
  let lo ← phaseAt ε n rate c lower hz
  let hi ← phaseAt ε n rate c (lower + 1) hz
  let s ← allpassMinimum rate hz (wrapAngle (hi - lo))
  let a ← appendBiquad ε (c.ap.getD lower []) s
  some { c with ap := c.ap.set lower a }

/-- The values of `lower_band_index` in the order of the two loops multi_crossover_filter.h:243-246. -/
def lowerBands (numStages : ℕ) : List ℕ := (List.range (numStages - 1)).flatMap fun i => (List.range (i + 1)).reverse

open Classical in
/-- The design part of `SetCrossoverFrequenciesInternal`, multi_crossover_filter.h:220-264, with `n` bands. -/
noncomputable def design (ε : ℝ) (type : CrossoverType) (order n : ℕ) (rate : ℝ) (freqs : List ℝ) : Option Coeffs :=
  if freqs.length = n - 1 ∧ freqs.Pairwise (· ≤ ·) then do
    let xs ← freqs.mapM fun hz => crossover ε type order hz rate
    let c ← (lowerBands (n - 1)).foldlM (correct ε n rate freqs)
      ⟨xs.map (·.1), xs.map (·.2), List.replicate (n - 2) identityCascade⟩
    let ap ← c.ap.mapM (simplify ε)
    some { c with ap := ap }
  else none

/-! ## The filterbank object -/

/-- A `LadderFilter` member: `none` is a default-constructed object (`initialized_` is false). -/
abbrev Slot := Option Ladder.Filter

/-- `lowpass_filters_`, `highpass_filters_`, `allpass_filters_` and `filtered_output_`. -/
structure Bank where
  n : ℕ
  low : List (List Slot)
  high : List (List Slot)
  ap : List (List Slot)
  out : List (List ℝ)

/-- Constructor, multi_crossover_filter.h:63-78: `none` is `num_bands ≤ 1`, for which a vector of negative size is
requested before the `CHECK`. -/
def make (n : ℕ) : Option Bank :=
  if 1 < n then some ⟨n, List.replicate (n - 1) [], List.replicate (n - 1) [], List.replicate (n - 2) [],
    List.replicate n []⟩
  else none

/-- `InitFilter`, multi_crossover_filter.h:267-278. `ChangeLadderCoeffs` leaves an object uninitialised that was
uninitialised before (ladder_filter-inl.h:137-165). -/
noncomputable def initFilter (cfg : Ladder.Config) (initial : Bool) (slot : Slot) (s : Stage ℝ) : Option Slot :=
  if initial then (Ladder.initFromTransferFunction cfg s.b s.a).map some
  else
    match Ladder.makeLadder s.b s.a with
    | none => none
    | some (M, k, v) =>
      match slot with
      | none => if M = 0 then none else some none
      | some f => if M = 0 then none else some (some (Ladder.change cfg f k v))

/-- `resize` and the loop over the biquads, multi_crossover_filter.h:282-285 (and 286-289, 294-299). -/
noncomputable def initChain (cfg : Ladder.Config) (initial : Bool) : List Slot → List (Stage ℝ) → Option (List Slot)
  | _, [] => some []
  | old, s :: cs => do
    let f ← initFilter cfg initial (old.headD none) s
    let fs ← initChain cfg initial old.tail cs
    some (f :: fs)

/-- The loops over stages and bands, multi_crossover_filter.h:281-300, for one of the three arrays. -/
noncomputable def initChains (cfg : Ladder.Config) (initial : Bool) :
    List (List Slot) → List (List (Stage ℝ)) → Option (List (List Slot))
  | _, [] => some []
  | old, cs :: css => do
    let f ← initChain cfg initial (old.headD []) cs
    let fs ← initChains cfg initial old.tail css
    some (f :: fs)

/-- The filter part of `SetCrossoverFrequenciesInternal`, multi_crossover_filter.h:266-300. -/
noncomputable def Bank.applyCoeffs (cfg : Ladder.Config) (initial : Bool) (b : Bank) (c : Coeffs) : Option Bank := do
  let low ← initChains cfg initial b.low c.low
  let high ← initChains cfg initial b.high c.high
  let ap ← initChains cfg initial b.ap c.ap
  some { b with low := low, high := high, ap := ap }

/-- `LadderFilter::Reset` on a member: `CHECK(initialized_)`, ladder_filter-inl.h:192-201. -/
noncomputable def resetSlot (cfg : Ladder.Config) : Slot → Option Slot
  | none => none
  | some f => some (some (Ladder.reset cfg f))

/-- `Reset`, multi_crossover_filter.h:91-110. -/
noncomputable def Bank.reset (cfg : Ladder.Config) (b : Bank) : Option Bank := do
  let high ← b.high.mapM fun fs => fs.mapM (resetSlot cfg)
  let low ← b.low.mapM fun fs => fs.mapM (resetSlot cfg)
  let ap ← b.ap.mapM fun fs => fs.mapM (resetSlot cfg)
  some { b with high := high, low := low, ap := ap, out := b.out.map fun o => o.map fun _ => 0 }

/-- `Init`, multi_crossover_filter.h:82-89. -/
noncomputable def Bank.init (cfg : Ladder.Config) (ε : ℝ) (type : CrossoverType) (order : ℕ) (b : Bank) (rate : ℝ)
    (freqs : List ℝ) : Option Bank := do
  let c ← design ε type order b.n rate freqs
  let b ← b.applyCoeffs cfg true c
  b.reset cfg

/-- `SetCrossoverFrequencies`, multi_crossover_filter.h:117-120. -/
noncomputable def Bank.setFrequencies (cfg : Ladder.Config) (ε : ℝ) (type : CrossoverType) (order : ℕ) (b : Bank)
    (rate : ℝ) (freqs : List ℝ) : Option Bank := do
  let c ← design ε type order b.n rate freqs
  b.applyCoeffs cfg false c

/-- The loops multi_crossover_filter.h:139-143, 147-151, 158-160: every filter reads `each_biquad_in` and writes the
destination, which is the input of the next one. Without filters the destination keeps its contents. A
`ProcessBlock` on an uninitialised filter fails a `CHECK` (ladder_filter.h:199). -/
noncomputable def chainInto (cfg : Ladder.Config) : List Slot → List ℝ → List ℝ → Option (List Slot × List ℝ)
  | [], _, dst => some ([], dst)
  | none :: _, _, _ => none
  | some f :: fs, src, _ =>
    let r := Stream.runSamples (Ladder.processSample cfg) f src
    match chainInto cfg fs r.2 r.2 with
    | none => none
    | some (fs', d) => some (some r.1 :: fs', d)

/-- `*next_in` in stage `stage`, multi_crossover_filter.h:134, 153: `next_in` points to the input or to an element of
`filtered_output_`. -/
def Bank.nextIn (b : Bank) (input : List ℝ) (stage : ℕ) : List ℝ := if stage = 0 then input else b.out.getD stage []

/-- Body of the first loop of `ProcessBlock`, multi_crossover_filter.h:137-153. -/
noncomputable def Bank.split (cfg : Ladder.Config) (input : List ℝ) (b : Bank) (stage : ℕ) : Option Bank :=
  match chainInto cfg (b.high.getD stage []) (b.nextIn input stage) (b.out.getD (stage + 1) []) with
  | none => none
  | some (hf, d) =>
    let b1 := { b with high := b.high.set stage hf, out := b.out.set (stage + 1) d }
    match chainInto cfg (b1.low.getD stage []) (b1.nextIn input stage) (b1.out.getD stage []) with
    | none => none
    | some (lf, d) => some { b1 with low := b1.low.set stage lf, out := b1.out.set stage d }

/-- Body of the allpass loop of `ProcessBlock`, multi_crossover_filter.h:158-160. -/
noncomputable def Bank.allpass (cfg : Ladder.Config) (b : Bank) (band : ℕ) : Option Bank :=
  match chainInto cfg (b.ap.getD band []) (b.out.getD band []) (b.out.getD band []) with
  | none => none
  | some (af, d) => some { b with ap := b.ap.set band af, out := b.out.set band d }

/-- `ProcessBlock`, multi_crossover_filter.h:132-162. -/
noncomputable def Bank.processBlock (cfg : Ladder.Config) (b : Bank) (input : List ℝ) : Option Bank := do
  let b ← (List.range (b.n - 1)).foldlM (Bank.split cfg input) b
  (List.range (b.n - 2)).foldlM (Bank.allpass cfg) b

/-- Successive calls of `ProcessBlock`, with `FilteredOutput(band)` read after each call: the list of outputs (one
list of bands per call). -/
noncomputable def Bank.run (cfg : Ladder.Config) : Bank → List (List ℝ) → Option (Bank × List (List (List ℝ)))
  | b, [] => some (b, [])
  | b, x :: xs => do
    let b ← b.processBlock cfg x
    let r ← b.run cfg xs
    some (r.1, b.out :: r.2)

end Verif.MultiCrossover
