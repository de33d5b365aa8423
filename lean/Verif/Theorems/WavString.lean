import Verif.Proof.WavString
import Verif.Spec.WavFile

/-!
# C93, C94: WAV data in strings, and reading whole files

The file format is `Verif.Spec.Wav`, quantization is `Verif.Quantize.quantize`, the value of a sample on the
32-bit scale is `Verif.Wav.Spec.sample32`.
-/

namespace Verif.WavString

open Verif.Wav Verif.Quantize Verif.Serialize Verif.Wav.Spec

/-! ### C93: quantization of float samples -/

/-- Partial: NaN is missing (`C93_nan_violation`). Every other float, infinities included, becomes the
16-bit quantization: scaled, truncated towards zero, saturated. -/
theorem C93_quantize_partial (x : FVal) (h : x ≠ .nan) : floatToInt16 x = some (quantize 16 x) := by
  cases x with
  | nan => exact absurd rfl h
  | inf negative =>
    have h1 := trunc_int (-32768)
    have h2 := trunc_int 32767
    push_cast at h1 h2
    cases negative
    · norm_num [floatToInt16, FVal.scale, FVal.minimum, FVal.maximum, FVal.less, FVal.isNan, FVal.toInt, h2,
        quantize]
    · norm_num [floatToInt16, FVal.scale, FVal.minimum, FVal.maximum, FVal.less, FVal.isNan, FVal.toInt, h1,
        quantize]
  | fin q =>
    rw [floatToInt16_fin]
    norm_num [quantize]

/-- NaN samples are meant to be written as 0, but the order of the comparisons turns them into full-scale
negative samples before the test for NaN. -/
theorem C93_nan_violation : floatToInt16 .nan = some (-32768) ∧ quantize 16 .nan = 0 := by
  have h := trunc_int (-32768)
  push_cast at h
  refine ⟨?_, rfl⟩
  norm_num [floatToInt16, FVal.scale, FVal.minimum, FVal.maximum, FVal.less, FVal.isNan, FVal.toInt, h]

/-- What a float sample becomes. -/
def written (x : FVal) : ℤ := if x = .nan then -32768 else quantize 16 x

/-- The conversion is defined for every float. -/
theorem C93_quantize_total (x : FVal) : floatToInt16 x = some (written x) := by
  unfold written
  by_cases h : x = .nan
  · rw [if_pos h, h]; exact C93_nan_violation.1
  · rw [if_neg h]; exact C93_quantize_partial x h

/-- Within full scale the error is less than one step, never away from zero; the result fits 16 bits. -/
theorem C93_quantization_error (q : ℚ) (h1 : -1 ≤ q) (h2 : q < 1) :
    |q - quantize 16 (.fin q) / 32768| < 1 / 32768 ∧ |(quantize 16 (.fin q) : ℚ) / 32768| ≤ |q| ∧
      0 ≤ q * quantize 16 (.fin q) ∧ -32768 ≤ quantize 16 (.fin q) ∧ quantize 16 (.fin q) ≤ 32767 := by
  have hq : quantize 16 (.fin q) = trunc (q * 2 ^ 15) := by
    have a1 : -(2 : ℤ) ^ 15 ≤ trunc (q * 2 ^ 15) := by
      have := trunc_mono (show (-2 ^ 15 : ℚ) ≤ q * 2 ^ 15 by linarith)
      rwa [trunc_neg_pow] at this
    have a2 : trunc (q * 2 ^ 15) ≤ 2 ^ 15 - 1 := by
      rcases le_total 0 (q * 2 ^ 15) with hv | hv
      · have := ((trunc_spec _).1 hv).2.1
        have h3 : (trunc (q * 2 ^ 15) : ℚ) < ((2 ^ 15 : ℤ) : ℚ) := by push_cast; linarith
        have : trunc (q * 2 ^ 15) < 2 ^ 15 := by exact_mod_cast h3
        omega
      · have := ((trunc_spec _).2 hv).1
        omega
    simp only [quantize]
    norm_num at a1 a2 ⊢
    rw [min_eq_right a2, max_eq_right a1]
  have hr : -32768 ≤ quantize 16 (.fin q) ∧ quantize 16 (.fin q) ≤ 32767 := by
    simp only [quantize]
    constructor
    · exact le_trans (by norm_num) (le_max_left _ _)
    · exact max_le (by norm_num) (le_trans (min_le_left _ _) (by norm_num))
  refine ⟨?_, ?_, ?_, hr.1, hr.2⟩
  all_goals rw [hq]
  all_goals rcases le_total 0 q with h0 | h0
  · obtain ⟨b1, b2, b3⟩ := (trunc_spec (q * 2 ^ 15)).1 (by positivity)
    rw [abs_lt]; constructor <;> norm_num at b2 b3 ⊢ <;> linarith
  · obtain ⟨b1, b2, b3⟩ := (trunc_spec (q * 2 ^ 15)).2 (by nlinarith)
    rw [abs_lt]; constructor <;> norm_num at b2 b3 ⊢ <;> linarith
  · obtain ⟨b1, b2, b3⟩ := (trunc_spec (q * 2 ^ 15)).1 (by positivity)
    have b1' : (0 : ℚ) ≤ trunc (q * 2 ^ 15) := by exact_mod_cast b1
    rw [abs_of_nonneg (by positivity), abs_of_nonneg h0]
    norm_num at b2 ⊢; linarith
  · obtain ⟨b1, b2, b3⟩ := (trunc_spec (q * 2 ^ 15)).2 (by nlinarith)
    have b1' : (trunc (q * 2 ^ 15) : ℚ) ≤ 0 := by exact_mod_cast b1
    rw [abs_of_nonpos (div_nonpos_of_nonpos_of_nonneg b1' (by norm_num)), abs_of_nonpos h0]
    norm_num at b2 ⊢; linarith
  · obtain ⟨b1, b2, b3⟩ := (trunc_spec (q * 2 ^ 15)).1 (by positivity)
    have b1' : (0 : ℚ) ≤ trunc (q * 2 ^ 15) := by exact_mod_cast b1
    positivity
  · obtain ⟨b1, b2, b3⟩ := (trunc_spec (q * 2 ^ 15)).2 (by nlinarith)
    have b1' : (trunc (q * 2 ^ 15) : ℚ) ≤ 0 := by exact_mod_cast b1
    exact mul_nonneg_of_nonpos_of_nonpos h0 b1'

/-! ### C93: strings -/

/-- The string written for 16-bit samples: whenever `WriteWavFile` accepts the arguments, the string is
exactly the file it writes. -/
theorem C93_string_is_file (xs : List (BitVec 16)) (rate channels : Int) (room : Nat)
    (hc0 : 1 ≤ channels) (hr0 : 0 < rate) (hov : channels * 2 * rate < 2 ^ 31)
    (hdvd : channels.toNat ∣ xs.length) (hsize : xs.length ≤ (2 ^ 32 - 1 - 60) / 2)
    (hroom : 80 + 2 * xs.length ≤ room) :
    ∃ w, writeString xs rate channels room = some (true, w) ∧
      writeFile xs rate channels true ⟨[], room, false⟩ = some (true, w) := by
  have hmono : 2 * rate ≤ channels * 2 * rate := by nlinarith
  have hmono2 : channels * 2 ≤ channels * 2 * rate := by nlinarith
  have f1 : fitsInt (channels * 2) := by
    simp only [fitsInt, decide_eq_true_eq]; omega
  have f2 : fitsInt (channels * 2 * rate) := by
    simp only [fitsInt, decide_eq_true_eq]; omega
  have hl := headerBytes_length xs.length rate channels
  have hmod : xs.length % channels.toNat = 0 := Nat.mod_eq_zero_of_dvd hdvd
  unfold writeString writeFile
  rw [if_neg (by omega), writeHeader_room f1 f2 (by omega)]
  simp only [Bool.false_eq_true, if_false]
  rw [writeSamples_room (by omega) (by simp only; omega)]
  exact ⟨_, rfl, rfl⟩

/-- Reading back a string: header and samples are unchanged, for any split of the reading. -/
theorem C93_round_trip (narrow : BitVec 64 → BitVec 32) (junk junk' : Junk) (cfg : Cfg) (info0 : Info)
    (xs : List (BitVec 16)) (rate channels : Int) (room : Nat)
    (hc0 : 1 ≤ channels) (hc1 : channels ≤ 65535) (hr0 : 0 < rate)
    (hov : channels * 2 * rate < 2 ^ 31) (hdvd : channels.toNat ∣ xs.length)
    (hsize : xs.length ≤ (2 ^ 32 - 1 - 60) / 2) (hroom : 80 + 2 * xs.length ≤ room) :
    ∃ w s, writeString xs rate channels room = some (true, w) ∧
      readHeader junk cfg info0 w.out = .ok ⟨channels.toNat, rate, xs.length, 16, 2, .pcm16, .int16⟩ s ∧
        ∀ reqs : List Nat, ∃ outs,
          readAll narrow junk' reqs ⟨channels.toNat, rate, xs.length, 16, 2, .pcm16, .int16⟩ s = some outs ∧
          outs.flatten <+: xs.map (fun x => Sample.i16 x.toInt) ∧
          (xs.length ≤ (reqs.map fun n => n / channels.toNat * channels.toNat).sum →
            outs.flatten = xs.map fun x => Sample.i16 x.toInt) := by
  obtain ⟨w, h1, h2⟩ := C93_string_is_file xs rate channels room hc0 hr0 hov hdvd hsize hroom
  obtain ⟨w', g1, s, g2, g3⟩ := C05_round_trip narrow junk junk' cfg info0 xs rate channels room hc0 hc1 hr0
    hov hdvd hsize hroom
  rw [h2] at g1
  simp only [Option.some.injEq, Prod.mk.injEq, true_and] at g1
  subst g1
  refine ⟨w, s, h1, g2, fun reqs => ?_⟩
  obtain ⟨outs, k1, -, k3, k4⟩ := g3 reqs
  exact ⟨outs, k1, k3, k4⟩

/-- Float samples: for every number of samples (a multiple of the block size or not), the string is the one
for the quantized samples. The 512-sample blocks are invisible. -/
theorem C93_float_string (xs : List FVal) (rate channels : Int) (room : Nat)
    (f1 : fitsInt (channels * 2)) (f2 : fitsInt (channels * 2 * rate))
    (hroom : 80 + 2 * xs.length ≤ room) (hn : xs.length < 2 ^ 31) :
    ∃ w, writeFloatString xs rate channels room = some (true, w) ∧
      writeString (xs.map fun x => BitVec.ofInt 16 (written x)) rate channels room = some (true, w) ∧
      w.err = false := by
  have hl := headerBytes_length xs.length rate channels
  unfold writeFloatString writeString
  rw [List.length_map, writeHeader_room f1 f2 (by omega)]
  simp only
  rw [writeBlocks_eq written C93_quantize_total _ _ _ _ rfl rfl (by simp only; omega),
    writeSamples_room (by rw [List.length_map]; exact hn) (by rw [List.length_map]; simp only; omega)]
  exact ⟨_, rfl, by rw [List.length_map], rfl⟩

/-- Reading back a string written from floats gives the quantized samples. -/
theorem C93_float_round_trip (narrow : BitVec 64 → BitVec 32) (junk junk' : Junk) (cfg : Cfg) (info0 : Info)
    (xs : List FVal) (rate channels : Int) (room : Nat)
    (hc0 : 1 ≤ channels) (hc1 : channels ≤ 65535) (hr0 : 0 < rate)
    (hov : channels * 2 * rate < 2 ^ 31) (hdvd : channels.toNat ∣ xs.length) (hnan : ∀ x ∈ xs, x ≠ .nan)
    (hsize : xs.length ≤ (2 ^ 32 - 1 - 60) / 2) (hroom : 80 + 2 * xs.length ≤ room) :
    ∃ w s, writeFloatString xs rate channels room = some (true, w) ∧
      readHeader junk cfg info0 w.out = .ok ⟨channels.toNat, rate, xs.length, 16, 2, .pcm16, .int16⟩ s ∧
        ∀ reqs : List Nat,
          xs.length ≤ (reqs.map fun n => n / channels.toNat * channels.toNat).sum → ∃ outs,
          readAll narrow junk' reqs ⟨channels.toNat, rate, xs.length, 16, 2, .pcm16, .int16⟩ s = some outs ∧
            outs.flatten = xs.map fun x => Sample.i16 (quantize 16 x) := by
  have hmono : 2 * rate ≤ channels * 2 * rate := by nlinarith
  have hmono2 : channels * 2 ≤ channels * 2 * rate := by nlinarith
  have f1 : fitsInt (channels * 2) := by
    simp only [fitsInt, decide_eq_true_eq]; omega
  have f2 : fitsInt (channels * 2 * rate) := by
    simp only [fitsInt, decide_eq_true_eq]; omega
  obtain ⟨w, h1, h2, -⟩ := C93_float_string xs rate channels room f1 f2 hroom (by omega)
  obtain ⟨w', s, g1, g2, g3⟩ := C93_round_trip narrow junk junk' cfg info0
    (xs.map fun x => BitVec.ofInt 16 (written x)) rate channels room hc0 hc1 hr0
    hov (by rwa [List.length_map]) (by rwa [List.length_map]) (by rwa [List.length_map])
  rw [h2] at g1
  simp only [Option.some.injEq, Prod.mk.injEq, true_and] at g1
  subst g1
  simp only [List.length_map] at g2 g3
  refine ⟨w, s, h1, g2, fun reqs hreq => ?_⟩
  obtain ⟨outs, k1, -, k3⟩ := g3 reqs
  refine ⟨outs, k1, ?_⟩
  rw [k3 hreq, List.map_map]
  apply List.map_congr_left
  intro x hx
  simp only [Function.comp, written, if_neg (hnan x hx), Sample.i16.injEq]
  rw [BitVec.toInt_ofInt]
  have hr : -32768 ≤ quantize 16 x ∧ quantize 16 x ≤ 32767 := by
    cases x with
    | nan => exact absurd rfl (hnan _ hx)
    | inf b => cases b <;> norm_num [quantize]
    | fin q =>
      simp only [quantize]
      constructor
      · exact le_trans (by norm_num) (le_max_left _ _)
      · exact max_le (by norm_num) (le_trans (min_le_left _ _) (by norm_num))
  rw [Int.bmod_eq_of_le] <;> norm_num <;> omega

/-- `C93_float_round_trip` has instances: three channels, six samples with infinities and clipping. -/
example : (writeFloatString [.fin (1/2), .fin (-1), .fin 1, .inf true, .fin (1/65536), .fin (-3/65536)] 48000 3
    1000).isSome = true := by
  obtain ⟨w, h, -⟩ := C93_float_string
    [.fin (1/2), .fin (-1), .fin 1, .inf true, .fin (1/65536), .fin (-3/65536)] 48000 3 1000 (by decide) (by decide)
    (by decide) (by decide)
  rw [h]; rfl

/-- Unlike the file writer, the string writer does not check its arguments: no channels and no sample rate
are reported as success, and the string cannot be read. -/
theorem C93_arguments_violation :
    ∃ w info, writeString [1, 2] 0 0 1000 = some (true, w) ∧
      writeFile [1, 2] 0 0 true ⟨[], 1000, false⟩ = some (false, ⟨[], 1000, false⟩) ∧
      readHeader (fun _ _ => 0) ⟨true, false⟩ ⟨0, 0, 0, 0, 0, .pcm16, .int16⟩ w.out = .fail info :=
  ⟨_, _, rfl, rfl, rfl⟩

/-- The size fields wrap: `2 ^ 31` float samples are written with success, and the header announces no
samples at all. -/
theorem C93_size_violation (junk : Junk) (cfg : Cfg) (info0 : Info) (xs : List FVal) (hx : xs.length = 2 ^ 31)
    (room : Nat) (hroom : 80 + 2 * xs.length ≤ room) :
    ∃ w info s, writeFloatString xs 48000 1 room = some (true, w) ∧
      xs.length * 2 ≤ w.out.length ∧ readHeader junk cfg info0 w.out = .ok info s ∧ info.remaining = 0 := by
  have hl := headerBytes_length xs.length 48000 1
  have hz : headerBytes xs.length 48000 1 = headerBytes 0 48000 1 := by
    rw [hx]; rfl
  have hwf := headerBytes_wellFormed (n := 0) (rate := 48000) (channels := 1) (by norm_num) (by norm_num)
    (by norm_num) (by norm_num) (by norm_num)
    (sampleBytes (xs.map fun x => BitVec.ofInt 16 (written x)))
  obtain ⟨s, e1, -, -⟩ := C06_header_complete junk cfg info0 hwf
  refine ⟨⟨headerBytes 0 48000 1 ++ sampleBytes (xs.map fun x => BitVec.ofInt 16 (written x)),
    room - (headerBytes 0 48000 1).length - xs.length * 2, false⟩,
    infoOf ⟨(1 : Int).toNat, 48000, 16, .pcm16⟩ (2 * 0 / (16 / 8)), s, ?_, ?_, e1, rfl⟩
  · unfold writeFloatString
    rw [writeHeader_room (by decide) (by decide) (by omega)]
    simp only
    rw [writeBlocks_eq written C93_quantize_total _ _ _ _ rfl rfl (by simp only; omega)]
    rw [hz]; rfl
  · simp only [List.length_append, sampleBytes_length, List.length_map]; omega

/-! ### C94: reading whole files -/

theorem mapM_get {α β : Type} (g : α → Option β) : ∀ (l : List α) {ys : List β}, l.mapM g = some ys →
    ys.length = l.length ∧ ∀ i (h : i < l.length) (h' : i < ys.length), g l[i] = some ys[i]
  | [], ys, h => by
    simp only [List.mapM_nil] at h
    cases h
    exact ⟨rfl, fun i h => absurd h (by simp)⟩
  | a :: l, ys, h => by
    rw [List.mapM_cons] at h
    cases ha : g a with
    | none => rw [ha] at h; simp at h
    | some b =>
      cases hl : l.mapM g with
      | none => rw [ha, hl] at h; simp at h
      | some bs =>
        rw [ha, hl] at h
        have e : ys = b :: bs := by simpa using h.symm
        subst e
        obtain ⟨k1, k2⟩ := mapM_get g l hl
        refine ⟨by simp [k1], fun i h h' => ?_⟩
        cases i with
        | zero => simpa using ha
        | succ i => simpa using k2 i (by simpa using h) (by simpa using h')

theorem mapM_none {α β : Type} (g : α → Option β) : ∀ (l : List α), l.mapM g = none ↔ ∃ a ∈ l, g a = none
  | [] => by simp
  | a :: l => by
    rw [List.mapM_cons]
    cases ha : g a with
    | none => simp [ha]
    | some b =>
      have := mapM_none g l
      cases hl : l.mapM g with
      | none => rw [hl] at this; simpa [ha] using this
      | some bs => rw [hl] at this; simpa [ha] using this

/-- Partial: floats of at least 1 are missing (`C94_full_scale_violation`). Every other float, NaN included,
becomes its 32-bit quantization; for the missing ones the conversion is undefined. -/
theorem C94_quantize_partial (x : FVal) :
    floatToInt32 x = if atLeastOne x then none else some (quantize 32 x) := by
  cases x with
  | nan => decide +kernel
  | inf b => cases b <;> decide +kernel
  | fin q =>
    rw [floatToInt32_fin]
    simp only [atLeastOne, decide_eq_true_eq]
    by_cases h : 1 ≤ q
    · rw [if_pos h, if_pos h]
    · rw [if_neg h, if_neg h]
      simp only [quantize]
      have : trunc (q * 2 ^ 31) ≤ 2 ^ 31 - 1 := by
        push Not at h
        rcases le_total 0 (q * 2 ^ 31) with hv | hv
        · have := ((trunc_spec _).1 hv).2.1
          have h3 : (trunc (q * 2 ^ 31) : ℚ) < ((2 ^ 31 : ℤ) : ℚ) := by push_cast; linarith
          have : trunc (q * 2 ^ 31) < 2 ^ 31 := by exact_mod_cast h3
          omega
        · have := ((trunc_spec _).2 hv).1
          omega
      norm_num at this ⊢
      rw [min_eq_right this]

theorem decode_sample {narrow : BitVec 64 → BitVec 32} {f : Fmt} {body : List Byte}
    (hf : formatOf body = some f) {bs : List Byte} (hl : bs.length = f.bits / 8) {x : Sample}
    (hd : decode narrow 4 bs = some x) :
    (isFloat f.enc = false → sampleInt x = sample32 narrow f.enc bs) ∧
      (isFloat f.enc = true → ∃ bits, x = .f32 bits ∧ valueOf bits = floatOf narrow f.enc bs ∧
        sample32 narrow f.enc bs = quantize 32 (valueOf bits)) := by
  obtain ⟨-, -, k⟩ := formatOf_facts hf
  rcases k with k | k | k | k | k <;> rw [Prod.mk.injEq] at k <;> rw [k.2] at hl <;>
    simp only [decode, hl, Nat.reduceDiv, Option.some.injEq] at hd <;> subst hd <;> rw [k.1]
  · exact ⟨fun _ => rfl, fun h => absurd h (by decide)⟩
  · exact ⟨fun _ => rfl, fun h => absurd h (by decide)⟩
  · exact ⟨fun h => absurd h (by decide), fun _ => ⟨_, rfl, rfl, rfl⟩⟩
  · exact ⟨fun h => absurd h (by decide), fun _ => ⟨_, rfl, rfl, rfl⟩⟩
  · exact ⟨fun _ => rfl, fun h => absurd h (by decide)⟩

theorem wellFormed_fmt {file : List Byte} {f : Fmt} {size : Nat} {data : List Byte}
    (h : WellFormed file f size data) : ∃ body, formatOf body = some f := by
  obtain ⟨riff, bs, g1, g2, g3, g4⟩ := h
  rcases chunks_facts g3 rfl with hh | hh
  · simp at hh
  · exact hh

theorem upgrade_infoOf {f : Fmt} {body : List Byte} (hf : formatOf body = some f) (n : Nat) :
    (upgrade (infoOf f n)).numChannels = f.channels ∧ (upgrade (infoOf f n)).remaining = n ∧
      (upgrade (infoOf f n)).bitDepth = f.bits ∧ (upgrade (infoOf f n)).destAlign = 4 ∧
      ((upgrade (infoOf f n)).format = .float ↔ isFloat f.enc = true) := by
  obtain ⟨-, -, k⟩ := formatOf_facts hf
  unfold upgrade infoOf
  rcases k with k | k | k | k | k <;> rw [Prod.mk.injEq] at k <;> rw [k.1, k.2] <;>
    simp [container, isFloat]

theorem field_len {data : List Byte} {i b n : Nat} (h : n * b ≤ data.length) (hi : i < n) :
    (field data (i * b) b).length = b := by
  have h1 : (i + 1) * b ≤ n * b := Nat.mul_le_mul_right b hi
  unfold field
  rw [List.length_take, List.length_drop]
  have : (i + 1) * b = i * b + b := by ring
  omega

/-- The body of the two theorems below. -/
theorem readWavFile_cases (narrow : BitVec 64 → BitVec 32) (junk : Junk) (info0 : Info)
    {file : List Byte} {f : Fmt} {size : Nat} {data : List Byte} (h : WellFormed file f size data)
    (mallocOk : Nat → Bool) (hm : mallocOk (size / (f.bits / 8) * 4) = true) :
    ∃ xs : List Sample, xs.length = sampleCount f size data ∧
      (∀ i (hi : i < xs.length), (sampleAt f data i).length = f.bits / 8 ∧
        decode narrow 4 (sampleAt f data i) = some xs[i]) ∧
      ∀ closeOk, readWavFile narrow junk info0 ⟨some file, mallocOk, closeOk⟩ =
        match (if isFloat f.enc then inPlaceFloatToInt32 xs else some (xs.map sampleInt)) with
        | none => .undefined
        | some ys => if ¬closeOk then .failed else .read ys f.channels f.rate := by
  obtain ⟨body, hf⟩ := wellFormed_fmt h
  obtain ⟨s, h1, h2, h3⟩ := C06_header_complete junk fileCfg info0 h
  obtain ⟨-, v2, -⟩ := readHeader_valid h1
  have hrem := readHeader_remaining h1
  obtain ⟨u1, u2, u3, u4, u5⟩ := upgrade_infoOf hf (size / (f.bits / 8))
  have hc : 1 ≤ f.channels := (formatOf_facts hf).1
  simp only [infoOf] at hrem
  obtain ⟨xs, info', s', r1, r2, r3, -⟩ := readSamples_eq (narrow := narrow) (junk := junk)
    (n := size / (f.bits / 8)) (info := upgrade (infoOf f (size / (f.bits / 8)))) (s := s) v2
    (by rw [u1]; omega) (by rw [u2]; exact hrem)
  rw [u1, u2, u3, h2] at r2
  rw [u3, u4, h2] at r3
  refine ⟨xs, ?_, fun i hi => ⟨field_len r3.1 hi, r3.2 i hi⟩, fun closeOk => ?_⟩
  · rw [r2]; unfold sampleCount; congr 2; omega
  · unfold readWavFile
    simp only [h1]
    rw [if_neg (by rw [u2]; omega), u2, if_neg (by simp [hm]), r1]
    simp only [convertSamples]
    by_cases hfl : isFloat f.enc = true
    · rw [if_pos (u5.mpr hfl), if_pos hfl]; rfl
    · rw [if_neg (fun hh => hfl (u5.mp hh)), if_neg hfl]; rfl

/-- Partial: float samples of at least 1 are missing (`C94_full_scale_violation`). Every well-formed file is
read completely: the channel count and sample rate of the header, and for each of the samples that are
announced and present (whole frames) its value on the 32-bit scale. -/
theorem C94_read_file_partial (narrow : BitVec 64 → BitVec 32) (junk : Junk) (info0 : Info)
    {file : List Byte} {f : Fmt} {size : Nat} {data : List Byte} (h : WellFormed file f size data)
    (mallocOk : Nat → Bool) (hm : mallocOk (size / (f.bits / 8) * 4) = true)
    (hlt : isFloat f.enc = true → ∀ i < sampleCount f size data,
      atLeastOne (floatOf narrow f.enc (sampleAt f data i)) = false) :
    ∃ ys, readWavFile narrow junk info0 ⟨some file, mallocOk, true⟩ = .read ys f.channels f.rate ∧
      ys.length = sampleCount f size data ∧
      ∀ i (hi : i < ys.length), ys[i] = sample32 narrow f.enc (sampleAt f data i) := by
  obtain ⟨body, hf⟩ := wellFormed_fmt h
  obtain ⟨xs, h1, h2, h3⟩ := readWavFile_cases narrow junk info0 h mallocOk hm
  rw [h3 true]
  by_cases hfl : isFloat f.enc = true
  · rw [if_pos hfl]
    cases hc : inPlaceFloatToInt32 xs with
    | none =>
      exfalso
      unfold inPlaceFloatToInt32 at hc
      rw [mapM_none] at hc
      obtain ⟨x, hx, hn⟩ := hc
      obtain ⟨i, hi, rfl⟩ := List.mem_iff_getElem.mp hx
      obtain ⟨bits, e1, e2, -⟩ := (decode_sample hf (h2 i hi).1 (h2 i hi).2).2 hfl
      rw [e1] at hn
      simp only [C94_quantize_partial, e2] at hn
      rw [hlt hfl i (by omega)] at hn
      simp at hn
    | some ys =>
      unfold inPlaceFloatToInt32 at hc
      obtain ⟨k1, k2⟩ := mapM_get _ _ hc
      refine ⟨ys, by simp, by omega, fun i hi => ?_⟩
      have hi' : i < xs.length := by omega
      have e := k2 i hi' hi
      obtain ⟨bits, e1, e2, e3⟩ := (decode_sample hf (h2 i hi').1 (h2 i hi').2).2 hfl
      rw [e1] at e
      simp only [C94_quantize_partial, e2, hlt hfl i (by omega)] at e
      simp only [Bool.false_eq_true, if_false, Option.some.injEq] at e
      rw [e3, e2, e]
  · rw [if_neg hfl]
    refine ⟨_, by simp; rfl, by rw [List.length_map]; exact h1, fun i hi => ?_⟩
    rw [List.getElem_map]
    rw [List.length_map] at hi
    exact (decode_sample hf (h2 i hi).1 (h2 i hi).2).1 (by simpa using hfl)

/-- Any float sample of at least 1 in the part of the file that is read makes the conversion undefined:
`INT32_MAX` is not a float, so the clipping bound is `2 ^ 31`. -/
theorem C94_full_scale_violation (narrow : BitVec 64 → BitVec 32) (junk : Junk) (info0 : Info)
    {file : List Byte} {f : Fmt} {size : Nat} {data : List Byte} (h : WellFormed file f size data)
    (mallocOk : Nat → Bool) (hm : mallocOk (size / (f.bits / 8) * 4) = true) (closeOk : Bool)
    (hfl : isFloat f.enc = true) (i : Nat) (hi : i < sampleCount f size data)
    (hbig : atLeastOne (floatOf narrow f.enc (sampleAt f data i)) = true) :
    readWavFile narrow junk info0 ⟨some file, mallocOk, closeOk⟩ = .undefined := by
  obtain ⟨body, hf⟩ := wellFormed_fmt h
  obtain ⟨xs, h1, h2, h3⟩ := readWavFile_cases narrow junk info0 h mallocOk hm
  rw [h3 closeOk, if_pos hfl]
  have : inPlaceFloatToInt32 xs = none := by
    unfold inPlaceFloatToInt32
    rw [mapM_none]
    have hi' : i < xs.length := by omega
    refine ⟨xs[i], List.getElem_mem hi', ?_⟩
    obtain ⟨bits, e1, e2, e3⟩ := (decode_sample hf (h2 i hi').1 (h2 i hi').2).2 hfl
    rw [e1]
    simp only [C94_quantize_partial, e2, hbig, if_true]
  rw [this]

/-- A mono float file with the single sample `1.0` is well formed. -/
example : WellFormed
    (idRIFF ++ [0, 0, 0, 0] ++ idWAVE ++
      (chunk idFmt [3, 0, 1, 0, 0x80, 0xBB, 0, 0, 0, 0, 0, 0, 4, 0, 32, 0] ++ []) ++
      (idData ++ leBytes 4 4) ++ [0, 0, 0x80, 0x3F])
    ⟨1, 48000, 32, .float32⟩ 4 [0, 0, 0x80, 0x3F] ∧
    sampleCount ⟨1, 48000, 32, .float32⟩ 4 [0, 0, 0x80, 0x3F] = 1 ∧
    floatOf (fun _ => 0) .float32 (sampleAt ⟨1, 48000, 32, .float32⟩ [0, 0, 0x80, 0x3F] 0) = .fin 1 := by
  refine ⟨⟨[0, 0, 0, 0], _, rfl, by norm_num, .fmt (by decide) (by decide) (.nil _), rfl⟩, by decide, ?_⟩
  decide +kernel

/-- Reading 16-bit and mu-law files as 16-bit samples; every other encoding aborts the program. -/
theorem C94_read16_file (narrow : BitVec 64 → BitVec 32) (junk : Junk) (info0 : Info)
    {file : List Byte} {f : Fmt} {size : Nat} {data : List Byte} (h : WellFormed file f size data)
    (mallocOk : Nat → Bool) (hm : mallocOk (size / (f.bits / 8) * 2) = true) :
    ((f.enc = .pcm16 ∨ f.enc = .mulaw) →
      ∃ ys, read16BitWavFile narrow junk info0 ⟨some file, mallocOk, true⟩ = .read ys f.channels f.rate ∧
        ys.length = sampleCount f size data ∧
        ∀ i (hi : i < ys.length), ys[i] = sample16 f.enc (sampleAt f data i)) ∧
    (¬(f.enc = .pcm16 ∨ f.enc = .mulaw) → ∀ closeOk,
      read16BitWavFile narrow junk info0 ⟨some file, mallocOk, closeOk⟩ = .aborted) := by
  obtain ⟨body, hf⟩ := wellFormed_fmt h
  obtain ⟨s, h1, h2, h3⟩ := C06_header_complete junk fileCfg info0 h
  obtain ⟨v1, -, -⟩ := readHeader_valid h1
  have hrem := readHeader_remaining h1
  have hc : 1 ≤ f.channels := (formatOf_facts hf).1
  obtain ⟨xs, info', s', r1, r2, r3, -⟩ := readSamples_eq (narrow := narrow) (junk := junk)
    (n := size / (f.bits / 8)) (info := infoOf f (size / (f.bits / 8))) (s := s) v1
    (by simp only [infoOf]; omega) hrem
  simp only [infoOf] at hrem r2
  rw [h2] at r2
  simp only [infoOf, h2] at r3
  have key : ∀ closeOk, read16BitWavFile narrow junk info0 ⟨some file, mallocOk, closeOk⟩ =
      match read16BitSamples narrow junk (size / (f.bits / 8)) (infoOf f (size / (f.bits / 8))) s with
      | none => .aborted
      | some .undefined => .undefined
      | some (.samples xs _ _) =>
        if ¬closeOk then .failed else .read (xs.map sampleInt) f.channels f.rate := by
    intro closeOk
    unfold read16BitWavFile
    simp only [h1]
    rw [if_neg (by simp only [infoOf]; omega), if_neg (by simp only [infoOf]; simp [hm])]
    rfl
  constructor
  · intro he
    rw [key, C07_read16 narrow h1, if_pos (show (infoOf f (size / (f.bits / 8))).encoding = .pcm16 ∨
      (infoOf f (size / (f.bits / 8))).encoding = .mulaw from he), r1]
    refine ⟨_, by simp; rfl, ?_, fun i hi => ?_⟩
    · rw [List.length_map, r2]; unfold sampleCount; congr 2; omega
    · rw [List.getElem_map]
      rw [List.length_map] at hi
      have hl := field_len r3.1 hi
      have hd := r3.2 i hi
      obtain ⟨-, -, k⟩ := formatOf_facts hf
      unfold sampleAt
      generalize field data (i * (f.bits / 8)) (f.bits / 8) = bs at hl hd ⊢
      generalize xs[i] = x at hd ⊢
      rcases k with k | k | k | k | k <;> rw [Prod.mk.injEq] at k <;> rw [k.1] at he hd ⊢ <;>
        rw [k.2] at hl
      · simp only [decode, container, hl, Nat.reduceDiv, Option.some.injEq] at hd
        rw [← hd]; rfl
      · simp at he
      · simp at he
      · simp at he
      · simp only [decode, container, hl, Nat.reduceDiv, Option.some.injEq] at hd
        rw [← hd]; rfl
  · intro he closeOk
    rw [key, C07_read16 narrow h1, if_neg (show ¬((infoOf f (size / (f.bits / 8))).encoding = .pcm16 ∨
      (infoOf f (size / (f.bits / 8))).encoding = .mulaw) from he)]

/-- A file is read only if it is well formed, or cut within the eight bytes that start its data chunk; a
missing file, a rejected header, a failed allocation or a failed close give NULL. On every byte string
whatsoever reading to 32 bits never aborts, and is undefined only for float files. -/
theorem C94_outcomes (narrow : BitVec 64 → BitVec 32) (junk : Junk) (info0 : Info) (env : Env) :
    (env.file = none → readWavFile narrow junk info0 env = .notOpened) ∧
    readWavFile narrow junk info0 env ≠ .aborted ∧
    (readWavFile narrow junk info0 env = .undefined →
      ∃ file info s, env.file = some file ∧ readHeader junk fileCfg info0 file = .ok info s ∧
        isFloat info.encoding = true) ∧
    (∀ ys c r, readWavFile narrow junk info0 env = .read ys c r →
      env.closeOk = true ∧ ∃ file f, env.file = some file ∧ c = f.channels ∧ r = f.rate ∧ c ∣ ys.length ∧
        ((∃ size data, WellFormed file f size data ∧ env.mallocOk (size / (f.bits / 8) * 4) = true) ∨
          CutInDataHeader file f)) := by
  cases hfile : env.file with
  | none =>
    have e : readWavFile narrow junk info0 env = .notOpened := by unfold readWavFile; rw [hfile]
    rw [e]
    simp
  | some file =>
    cases hh : readHeader junk fileCfg info0 file with
    | exhausted => exact absurd hh (C06_header_terminates junk fileCfg info0 file)
    | fail info =>
      have e : readWavFile narrow junk info0 env = .failed := by
        unfold readWavFile; rw [hfile]; simp only [hh]
      rw [e]
      simp
    | ok info s =>
      obtain ⟨-, v2, -⟩ := readHeader_valid hh
      have hrem := readHeader_remaining hh
      obtain ⟨hc1, hc2, h3⟩ := C06_accepted_info hh
      have uc : (upgrade info).numChannels = info.numChannels := by unfold upgrade; split <;> rfl
      have ur : (upgrade info).remaining = info.remaining := by unfold upgrade; split <;> rfl
      have uf : (upgrade info).format = .float → isFloat info.encoding = true := by
        simp only [List.mem_cons, Prod.mk.injEq, List.not_mem_nil, or_false] at h3
        unfold upgrade
        rcases h3 with ⟨h1, h2, h3, h4⟩ | ⟨h1, h2, h3, h4⟩ | ⟨h1, h2, h3, h4⟩ | ⟨h1, h2, h3, h4⟩ |
          ⟨h1, h2, h3, h4⟩ <;> simp [h1, h4, isFloat]
      obtain ⟨xs, info', s', r1, r2, r3, -⟩ := readSamples_eq (narrow := narrow) (junk := junk)
        (n := (upgrade info).remaining) (info := upgrade info) (s := s) v2
        (by rw [uc]; omega) (by rw [ur]; exact hrem)
      have e : readWavFile narrow junk info0 env =
          if ¬env.mallocOk (info.remaining * 4) then .failed
          else match convertSamples (upgrade info).format xs with
            | none => .undefined
            | some ys => if ¬env.closeOk then .failed else .read ys info.numChannels info.sampleRateHz := by
        unfold readWavFile
        rw [hfile]
        simp only [hh]
        rw [if_neg (by rw [ur]; omega), r1, ur]
        rfl
      rw [e]
      refine ⟨by simp, ?_, ?_, ?_⟩
      · split
        · simp
        · split
          · simp
          · split <;> simp
      · intro hu
        refine ⟨file, info, s, rfl, hh, ?_⟩
        split at hu
        · simp at hu
        · split at hu
          · rename_i hcv
            apply uf
            by_contra hn
            rw [convertSamples, if_neg hn] at hcv
            simp at hcv
          · split at hu <;> simp at hu
      · intro ys c r hr
        split at hr
        · simp at hr
        · rename_i hm
          split at hr
          · simp at hr
          · rename_i ys' hcv
            split at hr
            · simp at hr
            · rename_i hcl
              simp only [FileRead.read.injEq] at hr
              obtain ⟨rfl, rfl, rfl⟩ := hr
              have hlen : ys'.length = xs.length := by
                unfold convertSamples at hcv
                split at hcv
                · unfold inPlaceFloatToInt32 at hcv
                  exact (mapM_get _ _ hcv).1
                · simp only [Option.some.injEq] at hcv
                  rw [← hcv, List.length_map]
              refine ⟨by simpa using hcl, ?_⟩
              have hdv : info.numChannels ∣ ys'.length := by
                rw [hlen, r2, uc]; exact Dvd.intro_left _ rfl
              rcases C06_accepted_cases hh with ⟨f, size, g1, g2⟩ | ⟨f, g1, g2⟩
              · refine ⟨file, f, rfl, by rw [g2]; rfl, by rw [g2]; rfl, hdv, Or.inl ⟨size, s.rest, g1, ?_⟩⟩
                have : info.remaining = size / (f.bits / 8) := by rw [g2]; rfl
                rw [← this]; simpa using hm
              · exact ⟨file, f, rfl, by rw [g2]; rfl, by rw [g2]; rfl, hdv, Or.inr g1⟩

/-- A string written by the library and stored in a file is read back by both readers: the samples
themselves as 16-bit integers, and times `2 ^ 16` as 32-bit integers. -/
theorem C94_round_trip (narrow : BitVec 64 → BitVec 32) (junk : Junk) (info0 : Info)
    (xs : List (BitVec 16)) (rate channels : Int) (room : Nat)
    (hc0 : 1 ≤ channels) (hc1 : channels ≤ 65535) (hr0 : 0 < rate)
    (hov : channels * 2 * rate < 2 ^ 31) (hdvd : channels.toNat ∣ xs.length)
    (hsize : xs.length ≤ (2 ^ 32 - 1 - 60) / 2) (hroom : 80 + 2 * xs.length ≤ room) :
    ∃ w, writeString xs rate channels room = some (true, w) ∧
      read16BitWavFile narrow junk info0 ⟨some w.out, fun _ => true, true⟩ =
        .read (xs.map BitVec.toInt) channels.toNat rate ∧
      readWavFile narrow junk info0 ⟨some w.out, fun _ => true, true⟩ =
        .read (xs.map fun x => x.toInt * 2 ^ 16) channels.toNat rate := by
  have hmono : 2 * rate ≤ channels * 2 * rate := by nlinarith
  have hmono2 : channels * 2 ≤ channels * 2 * rate := by nlinarith
  have f1 : fitsInt (channels * 2) := by
    simp only [fitsInt, decide_eq_true_eq]; omega
  have f2 : fitsInt (channels * 2 * rate) := by
    simp only [fitsInt, decide_eq_true_eq]; omega
  have hl := headerBytes_length xs.length rate channels
  have hwf := headerBytes_wellFormed (n := xs.length) hc0 (by omega : channels < 65536)
    (by omega : -2 ^ 31 ≤ rate) (by omega : rate < 2 ^ 31) (by omega) (sampleBytes xs)
  have hcount : sampleCount ⟨channels.toNat, rate, 16, .pcm16⟩ (2 * xs.length) (sampleBytes xs) =
      xs.length := by
    unfold sampleCount
    simp only [sampleBytes_length]
    have : min (2 * xs.length / (16 / 8)) (xs.length * 2 / (16 / 8)) = xs.length := by omega
    rw [this]
    exact Nat.div_mul_cancel hdvd
  have hval : ∀ i (hi : i < xs.length),
      signed 16 (num (sampleAt ⟨channels.toNat, rate, 16, .pcm16⟩ (sampleBytes xs) i)) = (xs[i]).toInt := by
    intro i hi
    have : sampleAt ⟨channels.toNat, rate, 16, .pcm16⟩ (sampleBytes xs) i = leBytes 2 xs[i].toNat := by
      simp only [sampleAt, Nat.reduceDiv]
      exact sampleBytes_field xs i hi
    have hlt := xs[i].isLt
    rw [this, num_leBytes, Nat.mod_eq_of_lt (by norm_num at hlt ⊢; omega),
      ← toInt_ofNat16 (by norm_num at hlt ⊢; omega)]
    simp
  refine ⟨⟨headerBytes xs.length rate channels ++ sampleBytes xs,
    room - (headerBytes xs.length rate channels).length - xs.length * 2, false⟩, ?_, ?_, ?_⟩
  · unfold writeString
    rw [writeHeader_room f1 f2 (by omega)]
    simp only
    rw [writeSamples_room (by omega) (by simp only; omega)]
  · obtain ⟨ys, k1, k2, k3⟩ := (C94_read16_file narrow junk info0 hwf (fun _ => true) rfl).1 (Or.inl rfl)
    have e : ys = xs.map BitVec.toInt := by
      apply List.ext_getElem
      · rw [k2, hcount, List.length_map]
      · intro i h1 h2
        rw [k3 i h1, List.getElem_map]
        exact hval i (by rw [k2, hcount] at h1; exact h1)
    rw [← e]; exact k1
  · obtain ⟨ys, k1, k2, k3⟩ := C94_read_file_partial narrow junk info0 hwf (fun _ => true) rfl
      (fun h => absurd h (by simp [isFloat]))
    have e : ys = xs.map fun x => x.toInt * 2 ^ 16 := by
      apply List.ext_getElem
      · rw [k2, hcount, List.length_map]
      · intro i h1 h2
        rw [k3 i h1, List.getElem_map, ← hval i (by rw [k2, hcount] at h1; exact h1)]
        simp only [sample32]
    rw [← e]; exact k1

end Verif.WavString
