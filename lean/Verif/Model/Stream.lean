/-!
# Sample-by-sample processing

Most filters of the library process a block by a loop that handles one sample (or one column of a
multichannel block) at a time and carries a state. These two functions are that loop and the
sequence of `ProcessBlock` calls a client makes.
-/

namespace Verif.Stream

variable {σ α β : Type}

/-- The loop `for (i = 0; i < input.size(); ++i) output[i] = ProcessSample(input[i])`. -/
def runSamples (step : σ → α → σ × β) : σ → List α → σ × List β
  | s, [] => (s, [])
  | s, x :: xs =>
    let r := step s x
    let rs := runSamples step r.1 xs
    (rs.1, r.2 :: rs.2)

/-- Successive calls of a block-processing function. -/
def runBlocks (block : σ → List α → σ × List β) : σ → List (List α) → σ × List (List β)
  | s, [] => (s, [])
  | s, x :: xs =>
    let r := block s x
    let rs := runBlocks block r.1 xs
    (rs.1, r.2 :: rs.2)

end Verif.Stream
