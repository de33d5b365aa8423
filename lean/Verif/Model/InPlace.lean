import Verif.Model.Biquad
import Verif.Model.Fir
import Verif.Model.Ladder

/-!
# The filters on one memory

In the other models a filter maps a list of samples to a list of samples. Here the input and the output are ranges of one
memory, which may overlap, and every read sees the writes before it. `p` is the address of the first input sample, `q` that of
the first output sample, `C` the number of channels, `N` the number of frames. The data are contiguous and column-major, as
required by the documentation (biquad_filter.h:141-148). `output->resize(…)` does nothing in place and is not modelled.
-/

namespace Verif.InPlace
open Verif.Stream

variable {K : Type}

/-- The memory: one sample for each address. -/
abbrev Mem (K : Type) := ℕ → K

/-- An assignment to one element. -/
def write {A : Type} (m : ℕ → A) (a : ℕ) (x : A) : ℕ → A := fun b => if b = a then x else m b

section

variable [Zero K] [Add K] [Sub K] [Mul K]

/-- One iteration of the loop over the channels of `BiquadFilter::ProcessSample`, biquad_filter-inl.h:112-120. -/
def biquadChannel (f : Biquad.Filter K) (p q : ℕ) (w : Mem K × (ℕ → K × K)) (ch : ℕ) : Mem K × (ℕ → K × K) :=
  let r := Biquad.step f (w.2 ch) (w.1 (p + ch))
  (write w.1 (q + ch) r.2, write w.2 ch r.1)

/-- `BiquadFilter::ProcessSample`, biquad_filter-inl.h:98-121, on the frames at `p` and `q`. The single-channel variant, 122-137,
is the case `C = 1`. The vectorised variant, 138-169, reads the whole frame before it writes; see `biquadFixed`. -/
def biquadSample (f : Biquad.Filter K) (C p q : ℕ) (w : Mem K × (ℕ → K × K)) : Mem K × (ℕ → K × K) :=
  (List.range C).foldl (biquadChannel f p q) w

/-- Assignment of a whole frame, `AsMutableEigenArray(output)->matrix().noalias() = …`. -/
def writeFrame (C q : ℕ) (y : ℕ → K) (m : Mem K) : Mem K :=
  (List.range C).foldl (fun m ch => write m (q + ch) (y ch)) m

/-- The vectorised variant of `ProcessSample`, biquad_filter-inl.h:138-169: `next_state` is an own matrix. -/
def biquadFixed (f : Biquad.Filter K) (C p q : ℕ) (w : Mem K × (ℕ → K × K)) : Mem K × (ℕ → K × K) :=
  let next := fun ch => w.1 (p + ch) - ((w.2 ch).1 * f.fb1 + (w.2 ch).2 * f.fb2)
  let m := writeFrame C q (fun ch => next ch * f.ff0 + ((w.2 ch).1 * f.ff1 + (w.2 ch).2 * f.ff2)) w.1
  (m, fun ch => if ch < C then (next ch, (w.2 ch).1) else w.2 ch)

/-- `FilterTraits::ProcessBlock`, filter_traits.h:153-161, 225-255: the loop over the frames, for any `ProcessSample`. -/
def block {W : Type} (sample : ℕ → ℕ → W → W) (C p q N : ℕ) (w : W) : W :=
  (List.range N).foldl (fun w n => sample (p + n * C) (q + n * C) w) w

/-- `BiquadFilterCascade::ProcessBlock`, biquad_filter-inl.h:194-202: the first stage from the input to the output, the others
in place in the output. -/
def cascade (C p q N : ℕ) : Mem K → List (Biquad.Filter K × (ℕ → K × K)) → Mem K × List (Biquad.Filter K × (ℕ → K × K))
  | m, [] => (m, [])
  | m, (f, s) :: rest =>
    let r := block (biquadSample f C) C p q N (m, s)
    let rs := cascade C q q N r.1 rest
    (rs.1, (f, r.2) :: rs.2)

/-- `FIRFilter::Filter`, signal_vector_util.h:860-877. -/
def fir (h : List K) (p q N : ℕ) (w : Mem K × List K) : Mem K × List K :=
  (List.range N).foldl (fun w i =>
    let sample := w.1 (p + i)
    let r := Fir.firStep h w.2 sample
    (write w.1 (q + i) r.2, r.1)) w

/-- `TwoTapFirFilter::ProcessBlock`, two_tap_fir_filter.h:55-73. The frames are computed in a workspace, which is then swapped
with the output; the address of the output is that of its data after the call. -/
def twoTap (g : Fir.TwoTap K) (C p q N : ℕ) (w : Mem K × (ℕ → K)) : Mem K × (ℕ → K) :=
  let workspace : ℕ → ℕ → K := fun n ch =>
    if 0 < n then g.gainNow * w.1 (p + n * C + ch) + g.gainPrev * w.1 (p + (n - 1) * C + ch)
    else g.gainNow * w.1 (p + ch) + g.gainPrev * w.2 ch
  let state := if 0 < N then fun ch => if ch < C then w.1 (p + (N - 1) * C + ch) else w.2 ch else w.2
  ((List.range N).foldl (fun m n => writeFrame C (q + n * C) (workspace n) m) w.1, state)

end

/-- `LadderFilter::ProcessSample`, ladder_filter-inl.h:205-312, for `C` channels: the coefficients are smoothed once, the states
of all channels are updated, and then the output frame is written. `w.2.1` are the members except `state_`, `w.2.2` is `state_`. -/
noncomputable def ladderSample (cfg : Ladder.Config) (C p q : ℕ) (w : Mem ℝ × Ladder.Filter × (ℕ → ℕ → ℝ)) :
    Mem ℝ × Ladder.Filter × (ℕ → ℕ → ℝ) :=
  let f := Ladder.smooth cfg w.2.1
  let states := (List.range C).foldl
    (fun st ch => write st ch (Ladder.stageLoop f.k f.c f.order (st ch) (w.1 (p + ch)))) w.2.2
  (writeFrame C q (fun ch => Ladder.taps f.order f.v (states ch)) w.1, f, states)

end Verif.InPlace
