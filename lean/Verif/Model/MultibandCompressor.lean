import Verif.Model.MultiCrossover

/-!
# Model of `audio/dsp/hifi/multiband_compressor.{h,cc}`

Over the reals, with `C` channels. Each channel has its own copy of the (single-channel) crossover bank of
`Verif.MultiCrossover`: in the code the channels share the coefficients and have their own rows of the filter states.
`DCHECK`s are not modelled.
-/

namespace Verif.MultibandCompressor
open Verif.FilterDesign Verif.PoleZero Verif.Drc

/-- `MultibandCompressorParams`, multiband_compressor.h:108-116. -/
structure Params where
  numBands : ℕ
  order : ℕ
  type : CrossoverType
  freqs : List ℝ
  drc : List Drc.Params

/-- Constructor, multiband_compressor.h:43-57 and `SetCrossoverFrequencies` 68-71 (a failed `CHECK` is `none`). -/
noncomputable def Params.make (numBands : ℕ) (freqs : List ℝ) (order : ℕ) (type : CrossoverType) : Option Params :=
  if 1 < numBands ∧ 2 ≤ order ∧ freqs.length = numBands - 1 then
    some ⟨numBands, order, type, freqs, List.replicate numBands {}⟩
  else none

/-- Writing through `MutableDynamicRangeControlParams(stage)`, multiband_compressor.h:78-82. -/
def Params.setDrc (p : Params) (stage : ℤ) (q : Drc.Params) : Option Params :=
  if 0 ≤ stage ∧ stage < p.numBands then some { p with drc := p.drc.set stage.toNat q } else none

/-- `SetLookaheadSeconds`, multiband_compressor.h:62-66. -/
def Params.setLookahead (p : Params) (s : ℝ) : Params := { p with drc := p.drc.map fun q => { q with lookahead := s } }

variable {C : ℕ}

/-- The same computation in every channel. -/
noncomputable def perChannel {α : Type} (f : Fin C → Option α) : Option (Fin C → α) :=
  open Classical in if h : ∀ c, (f c).isSome then some fun c => (f c).get (h c) else none

/-- Members, multiband_compressor.h:151-159 (`workspace_` is overwritten before it is read in each call). -/
structure Compressor (C : ℕ) where
  type : CrossoverType
  order : ℕ
  rate : ℝ
  freqs : List ℝ
  splitter : Fin C → MultiCrossover.Bank
  drcs : List (Control C)

/-- Constructor, multiband_compressor.cc:24-39. -/
noncomputable def Compressor.make (C : ℕ) (p : Params) : Except Err (Compressor C) :=
  match MultiCrossover.make p.numBands with
  | none => .error .check
  | some b =>
    match p.drc.mapM (Control.make C) with
    | .error e => .error e
    | .ok ds => .ok ⟨p.type, p.order, 0, p.freqs, fun _ => b, ds⟩

/-- `Init`, multiband_compressor.cc:41-51. -/
noncomputable def Compressor.init (cfg : Ladder.Config) (s : Compressor C) (maxBlock : ℕ) (rate : ℝ) :
    Except Err (Compressor C) :=
  match perChannel fun c => (s.splitter c).init cfg (1 / 10 ^ 10) s.type s.order rate s.freqs with
  | none => .error .check
  | some bs =>
    match s.drcs.mapM fun d => d.init maxBlock rate with
    | .error e => .error e
    | .ok ds => .ok { s with rate := rate, splitter := bs, drcs := ds }

/-- `Reset`, multiband_compressor.cc:53-58. -/
noncomputable def Compressor.reset (cfg : Ladder.Config) (s : Compressor C) : Except Err (Compressor C) :=
  match perChannel fun c => (s.splitter c).reset cfg with
  | none => .error .check
  | some bs =>
    match s.drcs.mapM Control.reset with
    | .error e => .error e
    | .ok ds => .ok { s with splitter := bs, drcs := ds }

/-- `SetCrossoverFrequencies`, multiband_compressor.h:132-135. -/
noncomputable def Compressor.setFrequencies (cfg : Ladder.Config) (s : Compressor C) (freqs : List ℝ) :
    Except Err (Compressor C) :=
  match perChannel fun c => (s.splitter c).setFrequencies cfg (1 / 10 ^ 10) s.type s.order s.rate freqs with
  | none => .error .check
  | some bs => .ok { s with splitter := bs }

/-- `SetDynamicRangeControlParams`, multiband_compressor.h:137-142. -/
noncomputable def Compressor.setDrc (s : Compressor C) (stage : ℤ) (p : Drc.Params) : Except Err (Compressor C) :=
  if 0 ≤ stage ∧ stage < s.drcs.length then
    match s.drcs[stage.toNat]? with
    | none => .error .outOfBounds
    | some d =>
      match d.setParams p with
      | .error e => .error e
      | .ok d => .ok { s with drcs := s.drcs.set stage.toNat d }
  else .error .check

/-- `FilteredOutput(band)` as a list of frames: `len` columns, the rows are the channels. -/
def frames (bs : Fin C → MultiCrossover.Bank) (len band : ℕ) : List (Fin C → ℝ) :=
  (List.range len).map fun t c => ((bs c).out.getD band []).getD t 0

/-- The loop multiband_compressor.cc:75-79 from band `i` on. The constructor makes one control per band. -/
noncomputable def bandLoop (junk : ℕ → Fin C → ℝ) (band : ℕ → List (Fin C → ℝ)) :
    ℕ → List (Control C) → List (Fin C → ℝ) → Except Err (List (Control C) × List (Fin C → ℝ))
  | _, [], out => .ok ([], out)
  | i, d :: ds, out =>
    match d.process junk (band i) with
    | .error e => .error e
    | .ok (d, w) =>
      match bandLoop junk band (i + 1) ds (List.zipWith (· + ·) out w) with
      | .error e => .error e
      | .ok (ds, out) => .ok (d :: ds, out)

/-- `ProcessBlock`, multiband_compressor.cc:62-80. -/
noncomputable def Compressor.process (cfg : Ladder.Config) (junk : ℕ → Fin C → ℝ) (s : Compressor C)
    (x : List (Fin C → ℝ)) : Except Err (Compressor C × List (Fin C → ℝ)) :=
  match perChannel fun c => (s.splitter c).processBlock cfg (x.map fun f => f c) with
  | none => .error .check
  | some bs =>
    match bandLoop junk (frames bs x.length) 0 s.drcs (List.replicate x.length 0) with
    | .error e => .error e
    | .ok (ds, y) => .ok ({ s with splitter := bs, drcs := ds }, y)

/-- Consecutive `ProcessBlock` calls. -/
noncomputable def Compressor.run (cfg : Ladder.Config) (junk : ℕ → Fin C → ℝ) (s : Compressor C) :
    List (List (Fin C → ℝ)) → Except Err (Compressor C × List (List (Fin C → ℝ)))
  | [] => .ok (s, [])
  | x :: xs =>
    match s.process cfg junk x with
    | .error e => .error e
    | .ok (s, y) =>
      match s.run cfg junk xs with
      | .error e => .error e
      | .ok (s, ys) => .ok (s, y :: ys)

end Verif.MultibandCompressor
