import Verif.Proof.WavCallback
import Verif.Theorems.Wav

/-!
# C111: the custom chunk callback of the WAV reader

`junk` are the contents of uninitialised buffers, `alloc` says which sizes `malloc` has memory for.
-/

namespace Verif.Wav

open Verif.Serialize Verif.Wav.Spec

/-- The first twelve bytes: the call ends in failure without calling the callback, or the loop runs over the rest. -/
theorem calls_start (junk : Junk) (alloc : Nat → Bool) (cfg : Cfg) (info0 : Info) (file : List Byte) :
    (∃ i, readHeaderCalls junk alloc cfg info0 file = ([], .fail i)) ∨
    ∃ riff rest t, riff.length = 4 ∧ file = idRIFF ++ riff ++ idWAVE ++ rest ∧
      readHeaderCalls junk alloc cfg info0 file =
        callbackLoop junk alloc cfg (file.length + 1) idWAVE { info0 with numChannels := 0 } ⟨rest, false, t⟩ := by
  unfold readHeaderCalls
  simp only
  split
  · exact .inl ⟨_, rfl⟩
  rename_i hR
  split
  · exact .inl ⟨_, rfl⟩
  rename_i hW
  split
  · exact .inl ⟨_, rfl⟩
  rename_i he
  right
  rw [Bool.not_eq_true] at he
  rw [not_not] at hR hW
  obtain ⟨a1, a2⟩ := readCheck_ok he
  obtain ⟨b1, b2⟩ := seekCheck_ok a1
  obtain ⟨c1, c2⟩ := readCheck_ok b1
  rw [readCheck_length, fresh_length] at a2
  rw [fresh_length] at c2
  rw [b2, readCheck_rest, fresh_length] at a2
  simp only [List.length_drop] at a2 c2
  have d1 := readCheck_eq (old := fresh junk ⟨file, false, 0⟩ 4) (s := ⟨file, false, 0⟩)
    (by rw [fresh_length]; exact c2)
  simp only [fresh_length] at d1
  have d2 := seekCheck_eq (cfg := cfg) (n := 4) (s := ⟨file.drop 4, false, 0 + 1⟩)
    (by simp only [List.length_drop]; omega)
  simp only [List.drop_drop, Nat.reduceAdd] at d2
  have d3 := readCheck_eq (old := file.take 4) (s := ⟨file.drop 8, false, 1⟩)
    (by simp only [List.length_drop, List.length_take]; omega)
  rw [List.length_take, Nat.min_eq_left c2] at d3
  simp only [List.drop_drop, Nat.reduceAdd] at d3
  rw [d1] at hR hW ⊢
  simp only [Nat.reduceAdd] at hR hW ⊢
  rw [d2] at hW ⊢
  rw [d3] at hW ⊢
  simp only at hW ⊢
  refine ⟨(file.drop 4).take 4, file.drop 12, 2, ?_, ?_, ?_⟩
  · rw [List.length_take, List.length_drop]; omega
  · rw [← hR, ← hW]
    conv_lhs => rw [← List.take_append_drop 4 file, ← List.take_append_drop 4 (file.drop 4),
      List.drop_drop, ← List.take_append_drop 4 (file.drop (4 + 4)), List.drop_drop]
    simp [List.append_assoc]
  · rw [hW]

/-- **C111.** The callback changes nothing else: with memory for every chunk the header is read (or rejected) as without
looking at the calls; without a callback there are no calls and no memory is needed. -/
theorem C111_result (junk : Junk) (alloc : Nat → Bool) (cfg : Cfg) (info0 : Info) (file : List Byte) :
    ((∀ n, alloc n = true) → (readHeaderCalls junk alloc cfg info0 file).2 = readHeader junk cfg info0 file) ∧
    (cfg.hasCustom = false → readHeaderCalls junk alloc cfg info0 file = ([], readHeader junk cfg info0 file)) := by
  constructor
  · intro ha
    unfold readHeaderCalls readHeader
    simp only
    split
    · rfl
    split
    · rfl
    split
    · rfl
    exact callbackLoop_snd ha _ _ _ _
  · intro hc
    unfold readHeaderCalls readHeader
    simp only
    split
    · rfl
    split
    · rfl
    split
    · rfl
    exact callbackLoop_none hc _ _ _ _

/-- **C111.** A well-formed file is accepted, and the callback is called exactly once for every chunk in front of the audio
other than `fmt ` and `fact`, in the order of the file, with the id and the whole body of the chunk. -/
theorem C111_calls (junk : Junk) (alloc : Nat → Bool) (cfg : Cfg) (info0 : Info) {riff : List Byte}
    {ps : List (List Byte × List Byte)} {f : Fmt} {size : Nat} {tail : List Byte} (hc : cfg.hasCustom = true)
    (ha : ∀ n, alloc n = true) (hr : riff.length = 4) (hp : InFront ps) (hf : Chunks none (chunkBytes ps) (some f))
    (hs : size < 2 ^ 32) :
    ∃ s, readHeaderCalls junk alloc cfg info0
        (idRIFF ++ riff ++ idWAVE ++ chunkBytes ps ++ (idData ++ leBytes 4 size) ++ tail) =
        (unknownChunks ps, .ok (infoOf f (size / (f.bits / 8))) s) ∧ s.rest = tail ∧ s.err = false := by
  set file := idRIFF ++ riff ++ idWAVE ++ chunkBytes ps ++ (idData ++ leBytes 4 size) ++ tail with hfile
  obtain ⟨s, h1, h2, h3⟩ := C06_header_complete junk cfg info0 (file := file) (f := f) (size := size) (tail := tail)
    ⟨riff, _, hr, hs, hf, hfile⟩
  have e2 := (C111_result junk alloc cfg info0 file).1 ha
  rw [h1] at e2
  refine ⟨s, Prod.ext ?_ e2, h2, h3⟩
  rcases calls_start junk alloc cfg info0 file with ⟨i, h⟩ | ⟨riff', rest, t, g1, g2, g3⟩
  · rw [h] at e2; simp at e2
  obtain ⟨qs, u, last, k1, k2, k3, k4, k5⟩ := callbackLoop_calls (junk := junk) (alloc := alloc) hc (file.length + 1)
    (id := idWAVE) (info := { info0 with numChannels := 0 }) (s := ⟨rest, false, t⟩) rfl rfl
  rw [← g3] at k3 k4 k5
  obtain ⟨size', hs', hu⟩ := k5 _ _ e2 h3
  have hl : last = [] := by
    rcases k4 with k | ⟨-, i, k⟩
    · exact k
    · rw [e2] at k; simp at k
  have hrest : chunkBytes ps ++ (idData ++ (leBytes 4 size ++ tail)) = rest := by
    have : idRIFF ++ riff ++ idWAVE ++ (chunkBytes ps ++ (idData ++ (leBytes 4 size ++ tail))) =
        idRIFF ++ riff' ++ idWAVE ++ rest := by
      rw [← g2, hfile]; simp only [List.append_assoc]
    exact (List.append_inj this (by simp [hr, g1])).2
  simp only at k2
  rw [← hrest, hu, List.append_assoc] at k2
  obtain ⟨rfl, -⟩ := chunkBytes_unique hp k1 k2
  rw [k3, hl, List.append_nil]

/-- **C111, partial.** Whatever the file: the calls are those for the complete chunks the file starts with, in order,
followed by at most one more, for a chunk that the file does not contain completely; after that call the header is rejected.
Missing: that there is no such last call (`C111_truncated_violation`, `C111_stale_violation`). -/
theorem C111_calls_partial (junk : Junk) (alloc : Nat → Bool) (cfg : Cfg) (info0 : Info) (file : List Byte)
    (hc : cfg.hasCustom = true) :
    (∃ i, readHeaderCalls junk alloc cfg info0 file = ([], .fail i)) ∨
    ∃ riff ps tail last, riff.length = 4 ∧ InFront ps ∧
      file = idRIFF ++ riff ++ idWAVE ++ chunkBytes ps ++ tail ∧
      (readHeaderCalls junk alloc cfg info0 file).1 = unknownChunks ps ++ last ∧
      (last = [] ∨ ((∃ id data, last = [(id, data)] ∧ tail.length < 8 + data.length) ∧
        ∃ i, (readHeaderCalls junk alloc cfg info0 file).2 = .fail i)) := by
  rcases calls_start junk alloc cfg info0 file with h | ⟨riff, rest, t, g1, g2, g3⟩
  · exact .inl h
  right
  obtain ⟨ps, tail, last, k1, k2, k3, k4, -⟩ := callbackLoop_calls (junk := junk) (alloc := alloc) hc (file.length + 1)
    (id := idWAVE) (info := { info0 with numChannels := 0 }) (s := ⟨rest, false, t⟩) rfl rfl
  rw [← g3] at k3 k4
  simp only at k2
  refine ⟨riff, ps, tail, last, g1, k1, ?_, k3, ?_⟩
  · rw [g2, k2]; simp only [List.append_assoc]
  · rcases k4 with k | ⟨⟨⟨id, data⟩, k, k'⟩, i⟩
    · exact .inl k
    · exact .inr ⟨⟨id, data, k, k'⟩, i⟩

/-- The four bytes `LIST`. -/
def idList : List Byte := [0x4C, 0x49, 0x53, 0x54]

/-- A caller's structure before the call. -/
def noInfo : Info := ⟨0, 0, 0, 0, 0, .pcm16, .int16⟩

/-- The premises of `C111_calls` have instances: two unknown chunks, one on each side of the format. -/
example : InFront [(idList, [7, 7]), (idFmt, [1, 0, 2, 0, 0x44, 0xAC, 0, 0, 0, 0, 0, 0, 6, 0, 24, 0]), ([1, 2, 3, 4], [])] ∧
    Chunks none (chunkBytes [(idList, [7, 7]), (idFmt, [1, 0, 2, 0, 0x44, 0xAC, 0, 0, 0, 0, 0, 0, 6, 0, 24, 0]),
      ([1, 2, 3, 4], [])]) (some ⟨2, 44100, 24, .pcm24⟩) ∧
    unknownChunks [(idList, [7, 7]), (idFmt, [1, 0, 2, 0, 0x44, 0xAC, 0, 0, 0, 0, 0, 0, 6, 0, 24, 0]), ([1, 2, 3, 4], [])] =
      [(idList, [7, 7]), ([1, 2, 3, 4], [])] :=
  ⟨by unfold InFront; decide, .other rfl (by decide) (by decide) (by decide) (by decide)
    (.fmt (by decide) (by decide) (.other rfl (by decide) (by decide) (by decide) (by decide) (.nil _))), by decide⟩

/-- **C111, violation.** A file that ends within a chunk: the callback is given the whole announced length, of which only
the first byte comes from the file; the others are uninitialised memory. -/
theorem C111_truncated_violation (hasSeek : Bool) :
    (readHeaderCalls (fun _ _ => 0) (fun _ => true) ⟨hasSeek, true⟩ noInfo
      (idRIFF ++ [0, 0, 0, 0] ++ idWAVE ++ (idList ++ leBytes 4 3 ++ [9]))).1 = [(idList, [9, 0, 0])] ∧
    (readHeaderCalls (fun _ _ => 255) (fun _ => true) ⟨hasSeek, true⟩ noInfo
      (idRIFF ++ [0, 0, 0, 0] ++ idWAVE ++ (idList ++ leBytes 4 3 ++ [9]))).1 = [(idList, [9, 255, 255])] := by
  cases hasSeek <;> decide +kernel

/-- **C111, violation.** A file that ends after a complete `LIST` chunk (before the format): the callback is called a second
time with the id `LIST`, for a chunk that does not exist, with a length and contents taken from uninitialised memory (here
three bytes). -/
theorem C111_stale_violation (hasSeek : Bool) :
    (readHeaderCalls (fun _ i => if i = 0 then 3 else 0) (fun _ => true) ⟨hasSeek, true⟩ noInfo
      (idRIFF ++ [0, 0, 0, 0] ++ idWAVE ++ chunk idList [9])).1 = [(idList, [9]), (idList, [3, 0, 0])] := by
  cases hasSeek <;> decide +kernel

/-- **C111, violation.** C permits `malloc(0)` to return a null pointer. With such a library a well-formed file with an empty
chunk is rejected if there is a callback, and accepted if there is none. -/
theorem C111_empty_chunk_violation (hasSeek : Bool) :
    let file := idRIFF ++ [0, 0, 0, 0] ++ idWAVE ++
      (chunk [1, 2, 3, 4] [] ++ (chunk idFmt [1, 0, 2, 0, 0x44, 0xAC, 0, 0, 0, 0, 0, 0, 6, 0, 24, 0] ++ [])) ++
      (idData ++ leBytes 4 6) ++ [1, 2, 3, 4, 5, 6]
    WellFormed file ⟨2, 44100, 24, .pcm24⟩ 6 [1, 2, 3, 4, 5, 6] ∧
    (∃ i, readHeaderCalls (fun _ _ => 0) (fun n => decide (n ≠ 0)) ⟨hasSeek, true⟩ noInfo file = ([], .fail i)) ∧
    ∃ s, readHeaderCalls (fun _ _ => 0) (fun n => decide (n ≠ 0)) ⟨hasSeek, false⟩ noInfo file =
      ([], .ok (infoOf ⟨2, 44100, 24, .pcm24⟩ 2) s) := by
  intro file
  have hw : WellFormed file ⟨2, 44100, 24, .pcm24⟩ 6 [1, 2, 3, 4, 5, 6] :=
    ⟨[0, 0, 0, 0], _, rfl, by norm_num, .other rfl (by decide) (by decide) (by decide) (by decide)
      (.fmt (by decide) (by decide) (.nil _)), rfl⟩
  refine ⟨hw, ?_, ?_⟩
  · have h : ∀ b, (match readHeaderCalls (fun _ _ => 0) (fun n => decide (n ≠ 0)) ⟨b, true⟩ noInfo file with
        | ([], .fail _) => true | _ => false) = true := by decide +kernel
    have := h hasSeek
    revert this
    rcases readHeaderCalls (fun _ _ => 0) (fun n => decide (n ≠ 0)) ⟨hasSeek, true⟩ noInfo file with ⟨_ | _, _ | _ | _⟩ <;> simp
  · obtain ⟨s, h1, -, -⟩ := C06_header_complete (fun _ _ => 0) ⟨hasSeek, false⟩ noInfo hw
    exact ⟨s, by rw [(C111_result _ _ _ _ _).2 rfl, h1]; rfl⟩

end Verif.Wav
