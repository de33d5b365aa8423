import Verif.Model.Resources
import Verif.Theorems.WavString

/-!
# C119: files are closed and memory is freed
-/

namespace Verif.Resources
open Verif.Wav Verif.WavString

/-- Does the reader return samples? -/
def Returned : FileRead → Prop
  | .read _ _ _ => True
  | _ => False

/-- Does the reader return at all? -/
def Returns : FileRead → Prop
  | .aborted | .undefined => False
  | _ => True

/-- Closes a case of the proofs below. -/
local macro "fin" : tactic => `(tactic| (try dsimp only) <;> first
  | rfl
  | (intro hr; exact hr.elim)
  | (intro _; exact Or.inr ⟨id, rfl⟩)
  | (intro _; exact Or.inl ⟨trivial, rfl⟩)
  | (intro _; rfl))

/-- The results are those of the functions without events. -/
theorem read16_result (narrow : BitVec 64 → BitVec 32) (junk : Junk) (info0 : Info) (env : Env) :
    (read16BitWavFile narrow junk info0 env).1 = WavString.read16BitWavFile narrow junk info0 env := by
  unfold read16BitWavFile WavString.read16BitWavFile
  rcases env.file with _ | file
  · fin
  dsimp only
  generalize readHeader junk fileCfg info0 file = o
  rcases o with ⟨info, s⟩ | _ | _
  rotate_left
  · fin
  · fin
  dsimp only
  by_cases c1 : (2 ^ 64 - 1) / 2 < info.remaining
  · simp only [if_pos c1] <;> fin
  simp only [if_neg c1]
  by_cases c2 : ¬env.mallocOk (info.remaining * 2) = true
  · simp only [if_pos c2] <;> fin
  simp only [if_neg c2]
  generalize read16BitSamples narrow junk info.remaining info s = x
  rcases x with _ | (⟨xs, _, _⟩ | _)
  · fin
  · dsimp only; split_ifs <;> fin
  · fin

theorem read_result (narrow : BitVec 64 → BitVec 32) (junk : Junk) (info0 : Info) (env : Env) :
    (readWavFile narrow junk info0 env).1 = WavString.readWavFile narrow junk info0 env := by
  unfold readWavFile WavString.readWavFile
  rcases env.file with _ | file
  · fin
  dsimp only
  generalize readHeader junk fileCfg info0 file = o
  rcases o with ⟨info, s⟩ | _ | _
  rotate_left
  · fin
  · fin
  dsimp only
  by_cases c1 : (2 ^ 64 - 1) / 4 < (upgrade info).remaining
  · simp only [if_pos c1] <;> fin
  simp only [if_neg c1]
  by_cases c2 : ¬env.mallocOk ((upgrade info).remaining * 4) = true
  · simp only [if_pos c2] <;> fin
  simp only [if_neg c2]
  generalize readSamples narrow junk (upgrade info).remaining (upgrade info) s = x
  rcases x with ⟨xs, _, _⟩ | _
  · dsimp only
    generalize convertSamples (upgrade info).format xs = y
    rcases y with _ | ys
    · fin
    · dsimp only; split_ifs <;> fin
  · fin

/-- **C119 (the full statement would omit the condition `hc` that `fclose` succeeds).** Whatever the file contains and whichever
allocations fail: when `Read16BitWavFile` returns, it has closed the file that it opened, once, and it holds no memory except for
the samples that it returns. -/
theorem C119_read16_partial (narrow : BitVec 64 → BitVec 32) (junk : Junk) (info0 : Info) (env : Env)
    (hc : env.closeOk = true) (hr : Returns (read16BitWavFile narrow junk info0 env).1) :
    (Returned (read16BitWavFile narrow junk info0 env).1 ∧
      held [] (read16BitWavFile narrow junk info0 env).2 = some [.memory 0]) ∨
    (¬ Returned (read16BitWavFile narrow junk info0 env).1 ∧ held [] (read16BitWavFile narrow junk info0 env).2 = some []) := by
  revert hr
  unfold read16BitWavFile
  rcases env.file with _ | file
  · fin
  dsimp only
  generalize readHeader junk fileCfg info0 file = o
  rcases o with ⟨info, s⟩ | _ | _
  rotate_left
  · fin
  · fin
  dsimp only
  by_cases c1 : (2 ^ 64 - 1) / 2 < info.remaining
  · simp only [if_pos c1] <;> fin
  simp only [if_neg c1]
  by_cases c2 : ¬env.mallocOk (info.remaining * 2) = true
  · simp only [if_pos c2] <;> fin
  simp only [if_neg c2]
  generalize read16BitSamples narrow junk info.remaining info s = x
  rcases x with _ | (⟨xs, _, _⟩ | _)
  · fin
  · dsimp only; simp only [hc, not_true, if_false]; fin
  · fin

/-- **C119 (the full statement would omit the condition `hc` that `fclose` succeeds).** The same for `ReadWavFile`. -/
theorem C119_read_partial (narrow : BitVec 64 → BitVec 32) (junk : Junk) (info0 : Info) (env : Env)
    (hc : env.closeOk = true) (hr : Returns (readWavFile narrow junk info0 env).1) :
    (Returned (readWavFile narrow junk info0 env).1 ∧ held [] (readWavFile narrow junk info0 env).2 = some [.memory 0]) ∨
    (¬ Returned (readWavFile narrow junk info0 env).1 ∧ held [] (readWavFile narrow junk info0 env).2 = some []) := by
  revert hr
  unfold readWavFile
  rcases env.file with _ | file
  · fin
  dsimp only
  generalize readHeader junk fileCfg info0 file = o
  rcases o with ⟨info, s⟩ | _ | _
  rotate_left
  · fin
  · fin
  dsimp only
  by_cases c1 : (2 ^ 64 - 1) / 4 < (upgrade info).remaining
  · simp only [if_pos c1] <;> fin
  simp only [if_neg c1]
  by_cases c2 : ¬env.mallocOk ((upgrade info).remaining * 4) = true
  · simp only [if_pos c2] <;> fin
  simp only [if_neg c2]
  generalize readSamples narrow junk (upgrade info).remaining (upgrade info) s = x
  rcases x with ⟨xs, _, _⟩ | _
  · dsimp only
    generalize convertSamples (upgrade info).format xs = y
    rcases y with _ | ys
    · fin
    · dsimp only; simp only [hc, not_true, if_false]; fin
  · fin

/-- **Violation of the full C119.** For every file that is read when `fclose` succeeds: when `fclose` fails, both readers close
the file a second time. -/
theorem C119_double_close_violation (narrow : BitVec 64 → BitVec 32) (junk : Junk) (info0 : Info) (env : Env) :
    (Returned (read16BitWavFile narrow junk info0 { env with closeOk := true }).1 →
      held [] (read16BitWavFile narrow junk info0 { env with closeOk := false }).2 = none) ∧
    (Returned (readWavFile narrow junk info0 { env with closeOk := true }).1 →
      held [] (readWavFile narrow junk info0 { env with closeOk := false }).2 = none) := by
  constructor
  · unfold read16BitWavFile
    dsimp only
    rcases env.file with _ | file
    · fin
    dsimp only
    generalize readHeader junk fileCfg info0 file = o
    rcases o with ⟨info, s⟩ | _ | _
    rotate_left
    · fin
    · fin
    dsimp only
    by_cases c1 : (2 ^ 64 - 1) / 2 < info.remaining
    · simp only [if_pos c1] <;> fin
    simp only [if_neg c1]
    by_cases c2 : ¬env.mallocOk (info.remaining * 2) = true
    · simp only [if_pos c2] <;> fin
    simp only [if_neg c2]
    generalize read16BitSamples narrow junk info.remaining info s = x
    rcases x with _ | (⟨xs, _, _⟩ | _)
    · fin
    · dsimp only; simp only [not_true, Bool.false_eq_true, not_false_eq_true, if_false, if_true]; fin
    · fin
  · unfold readWavFile
    dsimp only
    rcases env.file with _ | file
    · fin
    dsimp only
    generalize readHeader junk fileCfg info0 file = o
    rcases o with ⟨info, s⟩ | _ | _
    rotate_left
    · fin
    · fin
    dsimp only
    by_cases c1 : (2 ^ 64 - 1) / 4 < (upgrade info).remaining
    · simp only [if_pos c1] <;> fin
    simp only [if_neg c1]
    by_cases c2 : ¬env.mallocOk ((upgrade info).remaining * 4) = true
    · simp only [if_pos c2] <;> fin
    simp only [if_neg c2]
    generalize readSamples narrow junk (upgrade info).remaining (upgrade info) s = x
    rcases x with ⟨xs, _, _⟩ | _
    · dsimp only
      generalize convertSamples (upgrade info).format xs = y
      rcases y with _ | ys
      · fin
      · dsimp only; simp only [not_true, Bool.false_eq_true, not_false_eq_true, if_false, if_true]; fin
    · fin

/-- The result of `WriteWavFile` is the result of the function without events. -/
theorem write_result (room : ℕ) (closeOk : Bool) (xs : List (BitVec 16)) (rate channels : Int) :
    (writeWavFile (some room) closeOk xs rate channels).map Prod.fst =
      (writeFile xs rate channels closeOk ⟨[], room, false⟩).map Prod.fst := by
  unfold writeWavFile writeFile
  repeat' first | rfl | split
  all_goals simp_all

/-- **C119 (the full statement would omit the condition `hd` that the disk has room for the header).** `WriteWavFile` has closed
the file that it opened, once, whatever else fails. -/
theorem C119_write_partial {disk : Option ℕ} {closeOk : Bool} {xs : List (BitVec 16)} {rate channels : Int}
    (h1 : fitsInt (channels * 2)) (h2 : fitsInt (channels * 2 * rate))
    (hd : ∀ room, disk = some room → (headerBytes xs.length rate channels).length ≤ room) :
    ∃ ok es, writeWavFile disk closeOk xs rate channels = some (ok, es) ∧ held [] es = some [] := by
  unfold writeWavFile
  split
  · exact ⟨_, _, rfl, rfl⟩
  rename_i hg
  cases disk with
  | none => exact ⟨_, _, rfl, rfl⟩
  | some room =>
    obtain ⟨b, w, k1, k2, k3, k4⟩ := writeHeader_eq (numSamples := xs.length) (w0 := ⟨[], room, false⟩) h1 h2
    have hb : b = true := by
      by_contra hb
      have := k4 (by simpa using hb)
      have := hd room rfl
      simp only at *
      omega
    subst hb
    push Not at hg
    obtain ⟨b2, w2, m1, -⟩ := writeSamples_eq (xs := xs) (w0 := w) (by omega)
    simp only [k1, k2, m1, Bool.not_true, Bool.false_eq_true, if_false]
    exact ⟨_, _, rfl, by decide⟩

/-- **Violation of the full C119.** Whenever the disk has no room for the header of a valid file, `WriteWavFile` returns 0 and
leaves the file open. -/
theorem C119_leak_violation {room : ℕ} {closeOk : Bool} {xs : List (BitVec 16)} {rate channels : Int} (hr : 0 < rate)
    (hc : 0 < channels) (hx : xs.length % channels.toNat = 0) (hn : xs.length ≤ (2 ^ 32 - 1 - 60) / 2)
    (h1 : fitsInt (channels * 2)) (h2 : fitsInt (channels * 2 * rate))
    (hd : room < (headerBytes xs.length rate channels).length) :
    ∃ es, writeWavFile (some room) closeOk xs rate channels = some (false, es) ∧ held [] es = some [.file] := by
  unfold writeWavFile
  rw [if_neg (by push Not; exact ⟨hr, hc, hx, hn⟩)]
  obtain ⟨b, w, k1, k2, k3, k4⟩ := writeHeader_eq (numSamples := xs.length) (w0 := ⟨[], room, false⟩) h1 h2
  have hb : b = false := by
    by_contra hb
    have := (k3 (by simpa using hb)).1
    simp only at this
    omega
  subst hb
  simp only [k1, k2, Bool.not_false, if_true]
  exact ⟨_, rfl, by decide⟩

/-- **C119.** Whichever allocations fail, `RationalFactorResamplerMake` holds nothing when it returns `NULL`, and `Free` after a
successful `Make` releases everything that `Make` allocated, once. `Free` of `NULL` does nothing. -/
theorem C119_resampler (valid : Bool) (ok : ℕ → Bool) :
    ((makeResampler valid ok).1 = none → held [] (makeResampler valid ok).2 = some []) ∧
    ((makeResampler valid ok).1 ≠ none → ∃ live, held [] (makeResampler valid ok).2 = some live ∧ live.length = 4 ∧ live.Nodup) ∧
    held [] ((makeResampler valid ok).2 ++ freeResampler (makeResampler valid ok).1) = some [] ∧
    ((makeResampler valid ok).1 ≠ none ↔ valid = true ∧ ∀ k < 4, ok k = true) := by
  have h4 : (∀ k < 4, ok k = true) ↔ ok 0 = true ∧ ok 1 = true ∧ ok 2 = true ∧ ok 3 = true := by
    constructor
    · intro h
      exact ⟨h 0 (by omega), h 1 (by omega), h 2 (by omega), h 3 (by omega)⟩
    · rintro ⟨h0, h1, h2, h3⟩ k hk
      interval_cases k <;> assumption
  rw [h4]
  unfold makeResampler malloc
  cases valid <;> cases ok 0 <;> cases ok 1 <;> cases ok 2 <;> cases ok 3 <;>
    simp [freeResampler, freePointer, held, List.erase_cons]

/-- A file of two 16-bit samples with one channel. -/
def sampleFile : List Serialize.Byte := headerBytes 2 16000 1 ++ sampleBytes [1, 2]

/-- It is read ... -/
example : (readWavFile (fun x => x.truncate 32) (fun _ _ => 0) ⟨0, 0, 0, 0, 0, .pcm16, .int16⟩
    ⟨some sampleFile, fun _ => true, true⟩) =
    (.read [65536, 131072] 1 16000, [.acquire .file, .acquire (.memory 0), .release .file]) := by decide +kernel

/-- ... and closed twice if closing fails. -/
example : held [] (readWavFile (fun x => x.truncate 32) (fun _ _ => 0) ⟨0, 0, 0, 0, 0, .pcm16, .int16⟩
    ⟨some sampleFile, fun _ => true, false⟩).2 = none := by decide +kernel

/-- Without memory the file is closed once. -/
example : held [] (read16BitWavFile (fun x => x.truncate 32) (fun _ _ => 0) ⟨0, 0, 0, 0, 0, .pcm16, .int16⟩
    ⟨some sampleFile, fun _ => false, true⟩).2 = some [] := by decide +kernel

/-- A full disk. -/
example : ∃ es, writeWavFile (some 10) true [1, 2] 16000 1 = some (false, es) ∧ held [] es = some [.file] :=
  C119_leak_violation (by norm_num) (by norm_num) (by decide) (by decide) (by decide) (by decide) (by decide)

example : ∃ ok es, writeWavFile (some 46) false [1, 2] 16000 1 = some (ok, es) ∧ held [] es = some [] :=
  C119_write_partial (by decide) (by decide) (by rintro _ ⟨⟩; decide)

/-- The resampler when its third allocation fails. -/
example : (makeResampler true (· ≠ 2)).2 = [.acquire (.memory 0), .acquire (.memory 1), .release (.memory 1),
    .release (.memory 0)] := by decide

end Verif.Resources
