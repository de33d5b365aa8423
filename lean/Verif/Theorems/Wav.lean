import Verif.Proof.WavWriter

/-!
# C05, C06, C07, C53: WAV files

The file format is described in `Verif.Spec.Wav`. `junk` are the contents of uninitialised buffers,
`cfg` tells which callbacks the reader has, `info0` is what the caller's struct contained before;
nothing is assumed about them.
-/

namespace Verif.Wav

open Verif.Serialize Verif.Wav.Spec

/-! ### C06: the header -/

/-- The header reader always returns: the iteration bound of the model is never hit. -/
theorem C06_header_terminates (junk : Junk) (cfg : Cfg) (info0 : Info) (file : List Byte) :
    readHeader junk cfg info0 file ≠ .exhausted := by
  unfold readHeader
  simp only
  split
  · simp [failed]
  · split
    · simp [failed]
    · split
      · simp [failed]
      · rename_i he
        rw [Bool.not_eq_true] at he
        refine headerLoop_terminates _ (by rw [readCheck_length, readCheck_length, fresh_length]) ?_
        have h1 := readCheck_ok he
        rw [readCheck_rest, (seekCheck_ok h1.1).2, readCheck_rest]
        simp only [List.length_drop]; omega

/-- Splits the first twelve bytes. -/
theorem header_start {junk : Junk} {cfg : Cfg} {info0 info : Info} {file : List Byte} {s : Src}
    (h : readHeader junk cfg info0 file = .ok info s) :
    ∃ riff rest t, riff.length = 4 ∧ file = idRIFF ++ riff ++ idWAVE ++ rest ∧
      headerLoop junk cfg (file.length + 1) idWAVE { info0 with numChannels := 0 } ⟨rest, false, t⟩ =
        .ok info s := by
  unfold readHeader at h
  simp only at h
  split at h
  · simp [failed] at h
  rename_i hR
  split at h
  · simp [failed] at h
  rename_i hW
  split at h
  · simp [failed] at h
  rename_i he
  rw [Bool.not_eq_true] at he
  rw [not_not] at hR hW
  obtain ⟨a1, a2⟩ := readCheck_ok he
  obtain ⟨b1, b2⟩ := seekCheck_ok a1
  obtain ⟨c1, c2⟩ := readCheck_ok b1
  rw [readCheck_length, fresh_length] at a2
  rw [fresh_length] at c2
  rw [b2, readCheck_rest, fresh_length] at a2
  simp only [List.length_drop] at a2 c2
  have d1 := readCheck_eq (old := fresh junk ⟨file, false, 0⟩ 4) (s := ⟨file, false, 0⟩)
    (by rw [fresh_length]; exact c2)
  simp only [fresh_length] at d1
  have d2 := seekCheck_eq (cfg := cfg) (n := 4) (s := ⟨file.drop 4, false, 0 + 1⟩)
    (by simp only [List.length_drop]; omega)
  simp only [List.drop_drop, Nat.reduceAdd] at d2
  have d3 := readCheck_eq (old := file.take 4) (s := ⟨file.drop 8, false, 1⟩)
    (by simp only [List.length_drop, List.length_take]; omega)
  rw [List.length_take, Nat.min_eq_left c2] at d3
  simp only [List.drop_drop, Nat.reduceAdd] at d3
  rw [d1] at hR h hW
  simp only [Nat.reduceAdd] at hR h hW
  rw [d2] at h hW
  rw [d3] at h hW
  simp only at hW h
  refine ⟨(file.drop 4).take 4, file.drop 12, 2, ?_, ?_, ?_⟩
  · rw [List.length_take, List.length_drop]; omega
  · rw [← hR, ← hW]
    conv_lhs => rw [← List.take_append_drop 4 file, ← List.take_append_drop 4 (file.drop 4),
      List.drop_drop, ← List.take_append_drop 4 (file.drop (4 + 4)), List.drop_drop]
    simp [List.append_assoc]
  · rw [hW] at h; exact h

theorem header_result {junk : Junk} {cfg : Cfg} {info0 info : Info} {file : List Byte} {s : Src}
    (h : readHeader junk cfg info0 file = .ok info s) :
    ∃ riff rest, riff.length = 4 ∧ file = idRIFF ++ riff ++ idWAVE ++ rest ∧
      LoopResult none rest info s := by
  obtain ⟨riff, rest, t, h1, h2, h3⟩ := header_start h
  exact ⟨riff, rest, h1, h2, headerLoop_sound (s := ⟨rest, false, t⟩) (st := none) _ rfl rfl
    (show Rel none { info0 with numChannels := 0 } from rfl) h3⟩

/-- Partial: the missing case is `C06_truncated_data_size_violation`. If the reader accepts a file and
did not run into the end of the file, the file is a well-formed header for what the caller is told, and
the reader stands at the first data byte. -/
theorem C06_header_sound_partial {junk : Junk} {cfg : Cfg} {info0 info : Info} {file : List Byte} {s : Src}
    (h : readHeader junk cfg info0 file = .ok info s) (he : s.err = false) :
    ∃ f size, WellFormed file f size s.rest ∧ info = infoOf f (size / (f.bits / 8)) := by
  obtain ⟨riff, rest, h1, h2, h3⟩ := header_result h
  rcases h3 with ⟨_, bs, f, size, g1, g2, g3, g4, g5⟩ | ⟨h3, _⟩
  · exact ⟨f, size, ⟨riff, bs, h1, g3, g1, by rw [h2, g4]; simp [List.append_assoc]⟩, g5⟩
  · rw [he] at h3; exact absurd h3 (by simp)

/-- The only way to be accepted without a complete header: the file ends within the eight bytes of the
data chunk's id and size. Every earlier truncation is rejected. -/
theorem C06_accepted_cases {junk : Junk} {cfg : Cfg} {info0 info : Info} {file : List Byte} {s : Src}
    (h : readHeader junk cfg info0 file = .ok info s) :
    (∃ f size, WellFormed file f size s.rest ∧ info = infoOf f (size / (f.bits / 8))) ∨
      ∃ f, CutInDataHeader file f ∧ info = infoOf f info.remaining := by
  obtain ⟨riff, rest, h1, h2, h3⟩ := header_result h
  rcases h3 with ⟨_, bs, f, size, g1, g2, g3, g4, g5⟩ | ⟨h3, bs, f, t, g1, g2, g3, g4, g5⟩
  · exact Or.inl ⟨f, size, ⟨riff, bs, h1, g3, g1, by rw [h2, g4]; simp [List.append_assoc]⟩, g5⟩
  · exact Or.inr ⟨f, ⟨riff, bs, t, h1, g1, g3, by rw [h2, g4]; simp [List.append_assoc]⟩, g5⟩

/-- Every well-formed file is accepted, with the announced number of samples, whatever chunks precede
the data chunk. -/
theorem C06_header_complete (junk : Junk) (cfg : Cfg) (info0 : Info) {file : List Byte} {f : Fmt}
    {size : Nat} {tail : List Byte} (h : WellFormed file f size tail) :
    ∃ s, readHeader junk cfg info0 file = .ok (infoOf f (size / (f.bits / 8))) s ∧ s.rest = tail ∧
      s.err = false := by
  obtain ⟨riff, bs, h1, h2, h3, rfl⟩ := h
  set file := idRIFF ++ riff ++ idWAVE ++ bs ++ (idData ++ leBytes 4 size) ++ tail with hfile
  have hlen : 12 + bs.length ≤ file.length := by
    rw [hfile]; simp only [List.length_append, h1]
    have : idRIFF.length = 4 := rfl
    have : idWAVE.length = 4 := rfl
    omega
  have hRl : idRIFF.length = 4 := rfl
  have t4 : file.take 4 = idRIFF := by
    rw [hfile]; simp only [List.append_assoc]; rw [List.take_left' hRl]
  have t8 : (file.drop 8).take 4 = idWAVE := by
    rw [hfile]; simp only [List.append_assoc]
    rw [← List.append_assoc idRIFF, List.drop_left' (by rw [List.length_append, hRl, h1]),
      List.take_left' (show idWAVE.length = 4 from rfl)]
  have t12 : file.drop 12 = bs ++ (idData ++ leBytes 4 size) ++ tail := by
    rw [hfile]; simp only [List.append_assoc]
    rw [← List.append_assoc idRIFF, ← List.append_assoc (idRIFF ++ riff), List.drop_left']
    rw [List.length_append, List.length_append, hRl, h1]; rfl
  have d1 := readCheck_eq (old := fresh junk ⟨file, false, 0⟩ 4) (s := ⟨file, false, 0⟩)
    (by rw [fresh_length]; simp only; omega)
  simp only [fresh_length] at d1
  have d2 := seekCheck_eq (cfg := cfg) (n := 4) (s := ⟨file.drop 4, false, 0 + 1⟩)
    (by simp only [List.length_drop]; omega)
  simp only [List.drop_drop, Nat.reduceAdd] at d2
  have d3 := readCheck_eq (old := idRIFF) (s := ⟨file.drop 8, false, 1⟩)
    (by simp only [List.length_drop, hRl]; omega)
  simp only [hRl, List.drop_drop, Nat.reduceAdd] at d3
  unfold readHeader
  simp only
  rw [d1, t4]
  simp only [Nat.reduceAdd]
  rw [d2, d3, t8, t12]
  simp only [ne_eq, not_true, if_false, Bool.false_eq_true]
  obtain ⟨t, ht⟩ := headerLoop_complete (junk := junk) (cfg := cfg) h3 rfl (fuel := file.length + 1)
    (id := idWAVE) (info := { info0 with numChannels := 0 })
    (s := ⟨bs ++ (idData ++ leBytes 4 size) ++ tail, false, 1 + 1⟩) (size := size) (tail := tail)
    (by omega) rfl rfl rfl h2 rfl
  exact ⟨_, ht, rfl, rfl⟩

theorem formatOf_facts {body : List Byte} {f : Fmt} (h : formatOf body = some f) :
    1 ≤ f.channels ∧ f.channels < 65536 ∧
      ((f.enc, f.bits) = (.pcm16, 16) ∨ (f.enc, f.bits) = (.pcm24, 24) ∨ (f.enc, f.bits) = (.float32, 32) ∨
        (f.enc, f.bits) = (.float64, 64) ∨ (f.enc, f.bits) = (.mulaw, 8)) := by
  obtain ⟨h1, h2, h3, -⟩ := formatOf_channels h
  refine ⟨by omega, h2, ?_⟩
  generalize (if num (field body 0 2) = 0xFFFE ∧ 26 ≤ body.length
      then num (field body 24 2) else num (field body 0 2)) = code at h3
  rw [encodingOf_eq] at h3
  split at h3
  · split at h3
    · rename_i hb; simp only [Option.some.injEq] at h3; simp [← h3, hb]
    · split at h3
      · rename_i hb; simp only [Option.some.injEq] at h3; simp [← h3, hb]
      · exact absurd h3 (by simp)
  · split at h3
    · split at h3
      · rename_i hb; simp only [Option.some.injEq] at h3; simp [← h3, hb]
      · split at h3
        · rename_i hb; simp only [Option.some.injEq] at h3; simp [← h3, hb]
        · exact absurd h3 (by simp)
    · split at h3
      · split at h3
        · exact absurd h3 (by simp)
        · rename_i hb; rw [not_not] at hb; simp only [Option.some.injEq] at h3; simp [← h3, hb]
      · exact absurd h3 (by simp)

theorem chunks_facts {st st' : Option Fmt} {bs : List Byte} (h : Chunks st bs st') :
    ∀ {f : Fmt}, st' = some f → st = some f ∨ ∃ body, formatOf body = some f := by
  induction h with
  | nil st => intro f hf; exact Or.inl hf
  | fmt hl hfo _ ih =>
    intro f hf
    rcases ih hf with h | h
    · rw [Option.some.injEq] at h; subst h; exact Or.inr ⟨_, hfo⟩
    · exact Or.inr h
  | fact hl _ ih => intro f hf; exact ih hf
  | other _ _ _ _ _ _ ih => intro f hf; exact ih hf

/-- Whatever the bytes (truncated or not), an accepted file reports between 1 and 65535 channels and one
of the five supported encodings with its bit depth, sample type and sample size. -/
theorem C06_accepted_info {junk : Junk} {cfg : Cfg} {info0 info : Info} {file : List Byte} {s : Src}
    (h : readHeader junk cfg info0 file = .ok info s) :
    1 ≤ info.numChannels ∧ info.numChannels < 65536 ∧
      (info.encoding, info.bitDepth, info.destAlign, info.format) ∈
        [(Encoding.pcm16, 16, 2, SampleFormat.int16), (.pcm24, 24, 4, .int32), (.mulaw, 8, 2, .int16),
          (.float32, 32, 4, .float), (.float64, 64, 4, .float)] := by
  have key : ∃ f body, formatOf body = some f ∧ info = infoOf f info.remaining := by
    obtain ⟨riff, rest, h1, h2, h3⟩ := header_result h
    rcases h3 with ⟨_, bs, f, size, g1, g2, g3, g4, g5⟩ | ⟨h3, bs, f, t, g1, g2, g3, g4, g5⟩
    · rcases chunks_facts g1 rfl with hh | ⟨body, hb⟩
      · simp at hh
      · exact ⟨f, body, hb, by rw [g5]; rfl⟩
    · rcases chunks_facts g1 rfl with hh | ⟨body, hb⟩
      · simp at hh
      · exact ⟨f, body, hb, g5⟩
  obtain ⟨f, body, hb, hi⟩ := key
  obtain ⟨k1, k2, k3⟩ := formatOf_facts hb
  rw [hi]
  refine ⟨k1, k2, ?_⟩
  simp only [infoOf]
  rcases k3 with k | k | k | k | k <;> rw [Prod.mk.injEq] at k <;> rw [k.1, k.2] <;> simp [container]

/-- A mono 16-bit file that ends right after the four bytes `data`. -/
def truncatedFile : List Byte :=
  idRIFF ++ [0, 0, 0, 0] ++ idWAVE ++
    (idFmt ++ [16, 0, 0, 0] ++ ([1, 0] ++ [1, 0] ++ [0x80, 0xBB, 0, 0] ++ [0, 0, 0, 0] ++ [2, 0] ++ [16, 0])) ++
    idData

/-- Counterexample to the full property: the data chunk's size field is missing, yet the reader reports
success, and the number of samples it announces is whatever the uninitialised buffer contained: it
differs between two runs on the same file. -/
theorem C06_truncated_data_size_violation :
    ∃ info1 s1 info2 s2,
      readHeader (fun _ _ => 0) ⟨true, false⟩ ⟨0, 0, 0, 0, 0, .pcm16, .int16⟩ truncatedFile = .ok info1 s1 ∧
      readHeader (fun _ _ => 255) ⟨true, false⟩ ⟨0, 0, 0, 0, 0, .pcm16, .int16⟩ truncatedFile =
        .ok info2 s2 ∧
      info1.remaining = 0 ∧ info2.remaining = 2147483647 ∧ s1.rest = [] ∧ s2.rest = [] := by
  refine ⟨_, _, _, _, rfl, rfl, ?_⟩
  decide

/-- `C06_header_complete` has instances: a 24-bit stereo file with an unknown chunk before the data. -/
example : WellFormed
    (idRIFF ++ [1, 2, 3, 4] ++ idWAVE ++ (chunk [0x4C, 0x49, 0x53, 0x54] [7, 7, 7] ++
      (chunk idFmt [1, 0, 2, 0, 0x44, 0xAC, 0, 0, 0, 0, 0, 0, 6, 0, 24, 0] ++ [])) ++
      (idData ++ leBytes 4 12) ++ [1, 2])
    ⟨2, 44100, 24, .pcm24⟩ 12 [1, 2] :=
  ⟨[1, 2, 3, 4], _, rfl, by norm_num,
    .other rfl (by decide) (by decide) (by decide) (by decide) (.fmt (by decide) (by decide) (.nil _)), rfl⟩

/-! ### C07: samples -/

/-- The caller may raise a 2-byte destination to 4 bytes before reading (read_wav_info.h:38-42). -/
def Raised (info info' : Info) : Prop :=
  info' = info ∨ (info.destAlign = 2 ∧ info' = { info with destAlign := 4 })

theorem infoOf_valid {f : Fmt} {body : List Byte} (h : formatOf body = some f) {n : Nat} {info : Info}
    (hr : Raised (infoOf f n) info) :
    Valid info.destAlign (info.bitDepth / 8) ∧ info.numChannels = f.channels ∧ f.channels ≠ 0 ∧
      info.remaining = n := by
  obtain ⟨k1, k2, k3⟩ := formatOf_facts h
  rcases hr with rfl | ⟨h2, rfl⟩
  · refine ⟨?_, rfl, by omega, rfl⟩
    unfold Valid infoOf
    rcases k3 with k | k | k | k | k <;> rw [Prod.mk.injEq] at k <;> simp only [k.1, k.2] <;>
      decide
  · refine ⟨?_, rfl, by omega, rfl⟩
    unfold Valid
    simp only [infoOf] at h2 ⊢
    rcases k3 with k | k | k | k | k <;> rw [Prod.mk.injEq] at k <;> rw [k.1] at h2 <;> simp only [k.2] <;>
      first | decide | exact absurd h2 (by decide)

/-- After a header for `size` data bytes has been read from any file, any sequence of read requests is
served as follows. Let `total` be the smaller of the announced number of samples and the number of
complete samples in the rest of the file. Each call returns the largest multiple of the channel count
that neither exceeds the request nor what is left of `total`, and all returned samples together are, in
order, the documented conversions of the bytes at the start of the data. -/
theorem C07_reads (narrow : BitVec 64 → BitVec 32) (junk junk' : Junk) (cfg : Cfg) (info0 : Info)
    {file : List Byte} {f : Fmt} {size : Nat} {data : List Byte} (h : WellFormed file f size data)
    (reqs : List Nat) :
    ∃ info s, readHeader junk cfg info0 file = .ok info s ∧ ∀ info1, Raised info info1 →
      ∃ outs, readAll narrow junk' reqs info1 s = some outs ∧
        outs.map List.length =
          serve f.channels (min (size / (f.bits / 8)) (data.length / (f.bits / 8))) reqs ∧
        DecodesTo narrow info1.destAlign (f.bits / 8) data outs.flatten := by
  obtain ⟨s, h1, h2, h3⟩ := C06_header_complete junk cfg info0 h
  refine ⟨_, s, h1, fun info1 hr => ?_⟩
  obtain ⟨riff, bs, g1, g2, g3, g4⟩ := h
  obtain ⟨body, hb⟩ : ∃ body, formatOf body = some f := by
    rcases chunks_facts g3 rfl with hh | hh
    · simp at hh
    · exact hh
  obtain ⟨k1, k2, k3, k4⟩ := infoOf_valid hb hr
  have kb : info1.bitDepth = f.bits := by rcases hr with rfl | ⟨_, rfl⟩ <;> rfl
  obtain ⟨outs, e1, e2, e3⟩ := readAll_eq (narrow := narrow) (junk := junk') reqs (info := info1) (s := s)
    k1 (by rw [k2]; exact k3) (by rw [k4]; exact lt_of_le_of_lt (Nat.div_le_self _ _) g2)
  rw [k2, k4, kb, h2] at e2
  rw [kb, h2] at e3
  exact ⟨outs, e1, e2, e3⟩

/-- What `serve` guarantees: each call returns a multiple of the channel count not above the request. -/
theorem C07_serve_bounds (c : Nat) : ∀ (reqs : List Nat) (left : Nat),
    (serve c left reqs).sum ≤ left ∧ (serve c left reqs).length = reqs.length ∧
      ∀ p ∈ reqs.zip (serve c left reqs), p.2 ≤ p.1 ∧ c ∣ p.2
  | [], left => by simp [serve]
  | n :: ns, left => by
    have hk : min n left / c * c ≤ min n left := Nat.div_mul_le_self _ _
    obtain ⟨h1, h2, h3⟩ := C07_serve_bounds c ns (left - min n left / c * c)
    refine ⟨?_, ?_, ?_⟩
    · simp only [serve, List.sum_cons]; omega
    · simp only [serve, List.length_cons, h2]
    · intro p hp
      simp only [serve, List.zip_cons_cons, List.mem_cons] at hp
      rcases hp with rfl | hp
      · exact ⟨by simp only; omega, Dvd.intro_left _ rfl⟩
      · exact h3 p hp

theorem serve_sum {c : Nat} (hc : 0 < c) : ∀ (reqs : List Nat) (left : Nat), c ∣ left →
    (serve c left reqs).sum = min left (reqs.map fun n => n / c * c).sum
  | [], left, _ => by simp [serve]
  | n :: ns, left, hd => by
    obtain ⟨q, rfl⟩ := hd
    have hk : min n (c * q) / c * c = min (n / c * c) (c * q) := by
      rcases Nat.le_total n (c * q) with h | h
      · rw [Nat.min_eq_left h, Nat.min_eq_left (le_trans (Nat.div_mul_le_self _ _) h)]
      · rw [Nat.min_eq_right h, Nat.mul_div_cancel_left _ hc, Nat.mul_comm q c, Nat.min_eq_right]
        have : q ≤ n / c := (Nat.le_div_iff_mul_le hc).mpr (by rw [Nat.mul_comm]; exact h)
        rw [Nat.mul_comm c q]; exact Nat.mul_le_mul_right _ this
    have hdv : c ∣ c * q - min n (c * q) / c * c :=
      Nat.dvd_sub (Nat.dvd_mul_right _ _) (Nat.dvd_mul_left _ _)
    simp only [serve, List.sum_cons, List.map_cons]
    rw [serve_sum hc ns _ hdv, hk]; omega

/-- The total over any sequence of calls never exceeds what the header announced nor what the file
contains; each call returns whole frames and not more than asked for; once the requests add up to
enough frames, everything has been delivered. -/
theorem C07_total (narrow : BitVec 64 → BitVec 32) (junk junk' : Junk) (cfg : Cfg) (info0 : Info)
    {file : List Byte} {f : Fmt} {size : Nat} {data : List Byte} (h : WellFormed file f size data)
    (reqs : List Nat) :
    ∃ info s outs, readHeader junk cfg info0 file = .ok info s ∧
      readAll narrow junk' reqs info s = some outs ∧
      outs.flatten.length ≤ info.remaining ∧
      outs.flatten.length * (info.bitDepth / 8) ≤ data.length ∧
      (∀ p ∈ reqs.zip outs, p.2.length ≤ p.1 ∧ info.numChannels ∣ p.2.length) ∧
      (info.numChannels ∣ info.remaining → info.remaining * (info.bitDepth / 8) ≤ data.length →
        info.remaining ≤ (reqs.map fun n => n / info.numChannels * info.numChannels).sum →
        outs.flatten.length = info.remaining) := by
  obtain ⟨info, s, h1, h2⟩ := C07_reads narrow junk junk' cfg info0 h reqs
  obtain ⟨outs, e1, e2, e3⟩ := h2 info (Or.inl rfl)
  obtain ⟨s', h1', -, -⟩ := C06_header_complete junk cfg info0 h
  rw [h1] at h1'
  simp only [Outcome.ok.injEq] at h1'
  obtain ⟨rfl, rfl⟩ := h1'
  have hpos : 0 < f.bits / 8 ∧ 0 < f.channels := by
    obtain ⟨riff, bs, g1, g2, g3, g4⟩ := h
    rcases chunks_facts g3 rfl with hh | ⟨body, hb⟩
    · simp at hh
    · obtain ⟨k1, k2, k3⟩ := formatOf_facts hb
      refine ⟨?_, k1⟩
      rcases k3 with k | k | k | k | k <;> rw [Prod.mk.injEq] at k <;> rw [k.2] <;> decide
  have hlen : outs.flatten.length =
      (serve f.channels (min (size / (f.bits / 8)) (data.length / (f.bits / 8))) reqs).sum := by
    rw [List.length_flatten, e2]
  obtain ⟨b1, b2, b3⟩ := C07_serve_bounds f.channels reqs
    (min (size / (f.bits / 8)) (data.length / (f.bits / 8)))
  refine ⟨_, s, outs, h1, e1, ?_, ?_, ?_, ?_⟩
  · rw [hlen]; simp only [infoOf]; omega
  · exact e3.1
  · intro p hp
    have : (p.1, p.2.length) ∈ reqs.zip (serve f.channels (min (size / (f.bits / 8)) (data.length / (f.bits / 8))) reqs) := by
      rw [← e2, List.zip_map_right, List.mem_map]
      exact ⟨p, hp, rfl⟩
    exact b3 _ this
  · simp only [infoOf]
    intro hd hdat hreq
    have hmin : min (size / (f.bits / 8)) (data.length / (f.bits / 8)) = size / (f.bits / 8) := by
      apply Nat.min_eq_left
      rw [Nat.le_div_iff_mul_le hpos.1]; exact hdat
    rw [hlen, hmin, serve_sum hpos.2 _ _ hd]; omega

/-- On an accepted file, `Read16BitWavSamples` passes its checks exactly for the 16-bit PCM and mu-law
encodings, and then is `ReadWavSamples`; for other encodings it aborts. -/
theorem C07_read16 (narrow : BitVec 64 → BitVec 32) {junk junk' : Junk} {cfg : Cfg} {info0 info : Info}
    {file : List Byte} {s : Src} (h : readHeader junk cfg info0 file = .ok info s) (n : Nat) (s' : Src) :
    read16BitSamples narrow junk' n info s' =
      if info.encoding = .pcm16 ∨ info.encoding = .mulaw then some (readSamples narrow junk' n info s')
      else none := by
  obtain ⟨-, -, h3⟩ := C06_accepted_info h
  unfold read16BitSamples
  simp only [List.mem_cons, Prod.mk.injEq, List.not_mem_nil, or_false] at h3
  rcases h3 with ⟨h1, h2, h3, h4⟩ | ⟨h1, h2, h3, h4⟩ | ⟨h1, h2, h3, h4⟩ | ⟨h1, h2, h3, h4⟩ |
    ⟨h1, h2, h3, h4⟩ <;> simp [h1, h2, h3, h4]

/-- The mu-law table is the G.711 expansion for all 256 codes. -/
theorem C07_mulaw_table (b : Byte) : mulawTable.getD b.toNat 0 = mulaw b.toNat :=
  (mulaw_table b.toNat b.isLt).1

/-- After a failed header read, reading samples divides by zero when the struct held a valid sample size
before: the zeroed struct is not an end of stream. -/
theorem C07_read_after_failure_violation (narrow : BitVec 64 → BitVec 32) (junk : Junk) (s : Src) :
    ∃ info, readHeader junk ⟨true, false⟩ ⟨1, 48000, 10, 16, 2, .pcm16, .int16⟩ [] = .fail info ∧
      readSamples narrow junk 1 info s = .undefined := by
  refine ⟨⟨0, 0, 0, 16, 2, .pcm16, .int16⟩, ?_, ?_⟩
  · unfold readHeader
    simp only
    have hr : (readCheck (fresh junk ⟨[], false, 0⟩ 4) ⟨[], false, 0⟩).2.err = true :=
      readCheck_err (by rw [fresh_length]; simp)
    split
    · rfl
    · split
      · rfl
      · split
        · rfl
        · rename_i he
          exfalso
          rw [Bool.not_eq_true] at he
          rw [(seekCheck_ok (readCheck_ok he).1).1] at hr
          exact absurd hr (by simp)
  · simp [readSamples]

/-! ### C05: round trip -/

/-- Writing samples and reading the file back. For every channel count from 1 to 65535, every sample rate
for which the header's bytes-per-second field does not overflow, and every sample sequence of whole frames
within the size limit: writing succeeds, the header is read back with the same channel count, sample rate,
bit depth 16 and number of samples, and any sequence of read requests returns the written samples in order,
complete as soon as the requests add up to enough frames. -/
theorem C05_round_trip (narrow : BitVec 64 → BitVec 32) (junk junk' : Junk) (cfg : Cfg) (info0 : Info)
    (xs : List (BitVec 16)) (rate channels : Int) (room : Nat)
    (hc0 : 1 ≤ channels) (hc1 : channels ≤ 65535) (hr0 : 0 < rate)
    (hov : channels * 2 * rate < 2 ^ 31) (hdvd : channels.toNat ∣ xs.length)
    (hsize : xs.length ≤ (2 ^ 32 - 1 - 60) / 2) (hroom : 80 + 2 * xs.length ≤ room) :
    ∃ w, writeFile xs rate channels true ⟨[], room, false⟩ = some (true, w) ∧
      ∃ s, readHeader junk cfg info0 w.out =
          .ok ⟨channels.toNat, rate, xs.length, 16, 2, .pcm16, .int16⟩ s ∧
        ∀ reqs : List Nat, ∃ outs,
          readAll narrow junk' reqs ⟨channels.toNat, rate, xs.length, 16, 2, .pcm16, .int16⟩ s = some outs ∧
          outs.map List.length = serve channels.toNat xs.length reqs ∧
          outs.flatten <+: xs.map (fun x => Sample.i16 x.toInt) ∧
          (xs.length ≤ (reqs.map fun n => n / channels.toNat * channels.toNat).sum →
            outs.flatten = xs.map fun x => Sample.i16 x.toInt) := by
  have hmono : 2 * rate ≤ channels * 2 * rate := by nlinarith
  have f1 : fitsInt (channels * 2) := by
    simp only [fitsInt, decide_eq_true_eq]; omega
  have f2 : fitsInt (channels * 2 * rate) := by
    simp only [fitsInt, decide_eq_true_eq]; omega
  have hhl : (headerBytes xs.length rate channels).length ≤ 80 := by
    unfold headerBytes fmtBody
    by_cases h : 2 < channels
    · simp [h, leWriteU16, leWriteU32, pcmGuid, idRIFF, idWAVE, idFmt, idFact, idData]
    · simp [h, leWriteU16, leWriteU32, idRIFF, idWAVE, idFmt, idData]
  obtain ⟨b1, w1, k1, k2, k3, k4⟩ := writeHeader_eq (numSamples := xs.length) (w0 := ⟨[], room, false⟩) f1 f2
  have hb1 : b1 = true := by
    by_contra hb
    have := k4 (by simpa using hb)
    simp only at this; omega
  subst hb1
  obtain ⟨k5, k6⟩ := k3 rfl
  obtain ⟨b2, w2, m1, m2, m3, m4⟩ := writeSamples_eq (xs := xs) (w0 := w1) (by omega)
  have hb2 : b2 = true := by
    by_contra hb
    have := m4 (by simpa using hb)
    rw [k6, sampleBytes_length] at this
    simp only at this; omega
  subst hb2
  obtain ⟨m5, m6⟩ := m3 rfl
  refine ⟨w2, ?_, ?_⟩
  · unfold writeFile
    have hmod : xs.length % channels.toNat = 0 := Nat.mod_eq_zero_of_dvd hdvd
    rw [if_neg (by omega), k1]
    simp only
    rw [if_neg (by rw [k2]; simp), m1]
  · have hout : w2.out = headerBytes xs.length rate channels ++ sampleBytes xs := by
      rw [m6, k6]; simp
    have hwf := headerBytes_wellFormed (n := xs.length) hc0 (by omega : channels < 65536)
      (by omega : -2 ^ 31 ≤ rate) (by omega : rate < 2 ^ 31) (by omega) (sampleBytes xs)
    rw [← hout] at hwf
    obtain ⟨s, e1, e2, e3⟩ := C06_header_complete junk cfg info0 hwf
    have hdiv : 2 * xs.length / (16 / 8) = xs.length := by omega
    have hinfo : infoOf ⟨channels.toNat, rate, 16, .pcm16⟩ (2 * xs.length / (16 / 8)) =
        ⟨channels.toNat, rate, xs.length, 16, 2, .pcm16, .int16⟩ := by
      simp only [infoOf, container]
      simp
    simp only at e1
    rw [hinfo] at e1
    refine ⟨s, e1, fun reqs => ?_⟩
    obtain ⟨outs, g1, g2, g3⟩ := readAll_eq (narrow := narrow) (junk := junk') reqs
      (info := ⟨channels.toNat, rate, xs.length, 16, 2, .pcm16, .int16⟩) (s := s)
      (Or.inl ⟨rfl, Or.inr (show 16 / 8 = 2 from rfl)⟩) (by simp only; omega) (by simp only; omega)
    simp only [e2, sampleBytes_length] at g2 g3
    have hm : min xs.length (xs.length * 2 / (16 / 8)) = xs.length := by omega
    rw [hm] at g2
    have hle : outs.flatten.length ≤ xs.length := by
      have := (C07_serve_bounds channels.toNat reqs xs.length).1
      rw [List.length_flatten, g2]; exact this
    have hpre : outs.flatten = (xs.map fun x => Sample.i16 x.toInt).take outs.flatten.length := by
      apply List.ext_getElem
      · rw [List.length_take, List.length_map]; omega
      · intro i h1 h2
        have hd := g3.2 i h1
        rw [show 16 / 8 = 2 from rfl] at hd
        rw [sampleBytes_field xs i (by omega)] at hd
        simp only [decode, leBytes_length, Option.some.injEq] at hd
        rw [← hd, List.getElem_take, List.getElem_map]
        have hlt := (xs[i]'(by omega)).isLt
        rw [num_leBytes, Nat.mod_eq_of_lt (by norm_num at hlt ⊢; omega), ← toInt_ofNat16 (by norm_num at hlt ⊢; omega)]
        simp
    refine ⟨outs, g1, g2, ?_, fun hreq => ?_⟩
    · rw [hpre]; exact List.take_prefix _ _
    · have : outs.flatten.length = xs.length := by
        rw [List.length_flatten, g2, serve_sum (by omega) _ _ hdvd]; omega
      rw [hpre, this, List.take_of_length_le (by simp)]

/-- `C05_round_trip` has instances: three channels (extended header), six samples, odd request sizes. -/
example : ∃ w, writeFile [1, 0x8000, 0xFFFF, 4, 5, 6] 48000 3 true ⟨[], 1000, false⟩ = some (true, w) ∧
    w.out.length = 92 := ⟨_, rfl, rfl⟩

/-- With more than 65535 channels the 16-bit field wraps: the writer reports success, and the reader
rejects the file. -/
theorem C05_channel_count_wraps_violation :
    ∃ w info, writeFile [] 1 65536 true ⟨[], 1000, false⟩ = some (true, w) ∧
      readHeader (fun _ _ => 0) ⟨true, false⟩ ⟨0, 0, 0, 0, 0, .pcm16, .int16⟩ w.out = .fail info :=
  ⟨_, _, rfl, rfl⟩

/-! ### C53: error reporting of the writer -/

/-- `WriteWavHeader` reports success exactly when the sink accepted every byte. -/
theorem C53_header_reports (numSamples : Nat) (rate channels : Int) (w0 : Sink)
    (h1 : fitsInt (channels * 2)) (h2 : fitsInt (channels * 2 * rate)) :
    ∃ b w, writeHeader numSamples rate channels w0 = some (b, w) ∧
      (b = true ↔ (headerBytes numSamples rate channels).length ≤ w0.room) ∧
      (b = true → w.out = w0.out ++ headerBytes numSamples rate channels) := by
  obtain ⟨b, w, k1, -, k3, k4⟩ := writeHeader_eq (numSamples := numSamples) (w0 := w0) h1 h2
  refine ⟨b, w, k1, ⟨fun hb => (k3 hb).1, fun hl => ?_⟩, fun hb => by rw [(k3 hb).2]⟩
  by_contra hb
  have := k4 (by simpa using hb); omega

/-- `WriteWavSamples` reports success exactly when the sink accepted every byte; the bytes are the
little-endian samples. -/
theorem C53_samples_report (xs : List (BitVec 16)) (w0 : Sink) (h : xs.length < 2 ^ 31) :
    ∃ b w, writeSamples xs w0 = some (b, w) ∧ (b = true ↔ 2 * xs.length ≤ w0.room) ∧
      (b = true → w.out = w0.out ++ xs.flatMap fun x => leBytes 2 x.toNat) := by
  obtain ⟨b, w, k1, -, k3, k4⟩ := writeSamples_eq (w0 := w0) h
  rw [sampleBytes_length] at k3 k4
  refine ⟨b, w, k1, ⟨fun hb => by have := (k3 hb).1; omega, fun hl => ?_⟩, fun hb => ?_⟩
  · by_contra hb
    have := k4 (by simpa using hb); omega
  · rw [(k3 hb).2]
    simp only [sampleBytes]
    congr 1
    apply congrArg (fun g => List.flatMap g xs)
    funext x
    exact leWriteU16_eq x

/-- Partial: `WriteWavFile` reports a header that could not be written and a failing close; it does not
report samples that could not be written (`C53_lost_samples_violation`). -/
theorem C53_file_reports_partial (xs : List (BitVec 16)) (rate channels : Int) (closeOk : Bool) (w0 w : Sink)
    (h : writeFile xs rate channels closeOk w0 = some (true, w)) :
    closeOk = true ∧ (headerBytes xs.length rate channels).length ≤ w0.room ∧
      (w.err = false → w.out = w0.out ++ headerBytes xs.length rate channels ++ sampleBytes xs) := by
  unfold writeFile at h
  split at h
  · simp at h
  rename_i hg
  push Not at hg
  by_cases f1 : fitsInt (channels * 2)
  swap
  · unfold writeHeader at h; simp [f1] at h
  by_cases f2 : fitsInt (channels * 2 * rate)
  · obtain ⟨b1, w1, k1, k2, k3, k4⟩ := writeHeader_eq (numSamples := xs.length) (w0 := w0) f1 f2
    rw [k1] at h
    simp only at h
    split at h
    · simp at h
    rename_i he
    have hb1 : b1 = true := by rw [k2] at he; simpa using he
    subst hb1
    obtain ⟨b2, w2, m1, m2, m3, m4⟩ := writeSamples_eq (xs := xs) (w0 := w1) (by omega)
    rw [m1] at h
    simp only [Option.some.injEq, Prod.mk.injEq] at h
    obtain ⟨rfl, rfl⟩ := h
    refine ⟨rfl, (k3 rfl).1, fun he2 => ?_⟩
    have hb2 : b2 = true := by rw [he2] at m2; simpa using m2.symm
    rw [(m3 hb2).2, (k3 rfl).2]
  · exfalso
    cases hh : writeHeader xs.length rate channels w0 with
    | none => rw [hh] at h; simp at h
    | some p =>
      obtain ⟨b, w1⟩ := p
      rw [hh] at h
      have he : w1.err = true := by
        unfold writeHeader at hh
        simp only [f1, f2, not_true, if_false, Bool.false_eq_true, not_false_eq_true, if_true] at hh
        generalize writeCheck idWAVE _ = W at hh
        split at hh
        · rename_i he
          simp only [Option.some.injEq, Prod.mk.injEq] at hh
          rw [← hh.2]; exact he
        · simp at hh
      simp only [he, if_true] at h
      simp at h

/-- Counterexample to the full property: a sink that runs full after the header; `WriteWavFile` returns
success although no sample was stored. -/
theorem C53_lost_samples_violation :
    ∃ w, writeFile [1, 2, 3, 4] 48000 1 true ⟨[], 44, false⟩ = some (true, w) ∧
      w.out = headerBytes 4 48000 1 ∧ w.err = true := ⟨_, rfl, by decide, rfl⟩

end Verif.Wav
