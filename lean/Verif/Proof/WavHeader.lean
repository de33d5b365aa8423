import Verif.Proof.Wav

/-! # The header loop: soundness, completeness, termination -/

namespace Verif.Wav

open Verif.Serialize Verif.Wav.Spec

/-- What is known when the loop has succeeded. -/
def LoopResult (st : Option Fmt) (rest : List Byte) (info' : Info) (s' : Src) : Prop :=
  (s'.err = false ∧ ∃ bs f size, Chunks st bs (some f) ∧ f.channels ≠ 0 ∧ size < 2 ^ 32 ∧
      rest = bs ++ (idData ++ leBytes 4 size) ++ s'.rest ∧ info' = infoOf f (size / (f.bits / 8))) ∨
  (s'.err = true ∧ ∃ bs f t, Chunks st bs (some f) ∧ f.channels ≠ 0 ∧ t.length < 8 ∧ rest = bs ++ t ∧
      info' = infoOf f info'.remaining)

theorem LoopResult.prepend {st st1 : Option Fmt} {c rest : List Byte} {info' : Info} {s' : Src}
    (hc : ∀ {bs st'}, Chunks st1 bs st' → Chunks st (c ++ bs) st')
    (h : LoopResult st1 rest info' s') : LoopResult st (c ++ rest) info' s' := by
  rcases h with ⟨he, bs, f, size, h1, h2, h3, h4, h5⟩ | ⟨he, bs, f, t, h1, h2, h3, h4, h5⟩
  · exact Or.inl ⟨he, c ++ bs, f, size, hc h1, h2, h3, by rw [h4]; simp, h5⟩
  · exact Or.inr ⟨he, c ++ bs, f, t, hc h1, h2, h3, by rw [h4]; simp, h5⟩

theorem size_lt {s : Src} : num ((s.rest.drop 4).take 4) < 2 ^ 32 := num_field_lt s.rest 4 4

/-- When at least eight bytes are left, the id and the size are those bytes. -/
theorem read_id_size {junk : Junk} {id : List Byte} (hid : id.length = 4) {s : Src}
    (hs : s.err = false) (h8 : 8 ≤ s.rest.length) :
    (readCheck id s).1 = s.rest.take 4 ∧
    readUint32 junk (readCheck id s).2 = (BitVec.ofNat 32 (num ((s.rest.drop 4).take 4)),
      { rest := s.rest.drop 8, err := false, tick := s.tick + 1 + 1 }) := by
  rw [readCheck_eq (by omega), hid]
  refine ⟨rfl, ?_⟩
  rw [readUint32_eq (by simp only [List.length_drop]; omega)]
  simp only [List.drop_drop, hs]

/-- With fewer than eight bytes left, the error flag is set after reading the size. -/
theorem read_id_size_err {junk : Junk} {id : List Byte} (hid : id.length = 4) {s : Src}
    (h8 : s.rest.length < 8) : (readUint32 junk (readCheck id s).2).2.err = true := by
  by_contra hc
  rw [Bool.not_eq_true] at hc
  have := (readUint32_ok hc).2
  rw [readCheck_rest, List.length_drop, hid] at this
  omega

theorem headerLoop_sound {junk : Junk} {cfg : Cfg} (fuel : Nat) : ∀ {id : List Byte} {st : Option Fmt}
    {info : Info} {s : Src} {info' : Info} {s' : Src}, id.length = 4 → s.err = false → Rel st info →
    headerLoop junk cfg fuel id info s = .ok info' s' → LoopResult st s.rest info' s' := by
  induction fuel with
  | zero => intro id st info s info' s' _ _ _ h; simp [headerLoop] at h
  | succ fuel ih =>
    intro id st info s info' s' hid hs hrel h
    rw [headerLoop_succ] at h
    simp only at h
    have hid' : (readCheck id s).1.length = 4 := by rw [readCheck_length, hid]
    by_cases h8 : 8 ≤ s.rest.length
    · obtain ⟨e1, e2⟩ := read_id_size (junk := junk) hid hs h8
      rw [e2] at h
      simp only at h
      set N := (BitVec.ofNat 32 (num ((s.rest.drop 4).take 4))).toNat with hN
      have hNv : N = num ((s.rest.drop 4).take 4) := by
        rw [hN, BitVec.toNat_ofNat, Nat.mod_eq_of_lt size_lt]
      have hN32 : N < 2 ^ 32 := by rw [hNv]; exact size_lt
      split at h
      · rename_i hfmt
        cases hf : readFmtChunk junk cfg info (BitVec.ofNat 32 (num ((s.rest.drop 4).take 4)))
            { rest := s.rest.drop 8, err := false, tick := s.tick + 1 + 1 } with
        | none => rw [hf] at h; simp [failed] at h
        | some p =>
          obtain ⟨i1, s1⟩ := p
          rw [hf] at h
          simp only at h
          split at h
          · simp [failed] at h
          rename_i herr
          rw [Bool.not_eq_true] at herr
          by_cases hle : N ≤ (s.rest.drop 8).length
          · obtain ⟨t, ht⟩ := readFmtChunk_eq (junk := junk) (cfg := cfg) (info := info)
              (size := BitVec.ofNat 32 (num ((s.rest.drop 4).take 4)))
              (s := { rest := s.rest.drop 8, err := false, tick := s.tick + 1 + 1 }) rfl hle
            rw [hf] at ht
            rw [← hN] at ht
            symm at ht
            rw [Option.map_eq_some_iff] at ht
            obtain ⟨f, hfo, hfi⟩ := ht
            simp only [Prod.mk.injEq] at hfi
            obtain ⟨rfl, rfl⟩ := hfi
            have hch := formatOf_channels hfo
            have hr := ih (st := some f) hid' rfl ⟨rfl, hch.1, hch.2.1⟩ h
            have hsplit := split_chunk h8 hle hNv.symm
            rw [e1] at hfmt
            rw [hfmt] at hsplit
            rw [hsplit]
            simp only [List.drop_drop] at hr
            exact hr.prepend fun hb => Chunks.fmt (by rw [List.length_take]; omega) hfo hb
          · have hr0 := (readFmtChunk_ok hf).2.2
            rw [← hN] at hr0
            simp only at hr0
            rw [List.drop_eq_nil_of_le (by omega)] at hr0
            exact absurd h (headerLoop_empty fuel hid' (by rw [hfmt]; decide) i1 hr0)
      · split at h
        · rename_i hnf hfact
          cases hf : readFactChunk junk info (BitVec.ofNat 32 (num ((s.rest.drop 4).take 4)))
              { rest := s.rest.drop 8, err := false, tick := s.tick + 1 + 1 } with
          | none => rw [hf] at h; simp [failed] at h
          | some p =>
            obtain ⟨i1, s1⟩ := p
            rw [hf] at h
            simp only at h
            split at h
            · simp [failed] at h
            rename_i herr
            rw [Bool.not_eq_true] at herr
            obtain ⟨h4, hnc, hrest, hok, hinfo⟩ := readFactChunk_ok hf
            rw [← hN] at h4
            have hlen := (hok herr).2
            simp only at hlen hrest
            cases st with
            | none => exact absurd hrel hnc
            | some f =>
              obtain ⟨hr1, hr2, hr3⟩ := hrel
              have hrel1 : Rel (some f) i1 := by
                refine ⟨?_, hr2, hr3⟩
                rw [hinfo, hr1]; rfl
              have hr := ih (st := some f) hid' herr hrel1 h
              have hsplit := split_chunk h8 (by omega : N ≤ (s.rest.drop 8).length) hNv.symm
              rw [e1] at hfact
              rw [hfact] at hsplit
              rw [hsplit]
              rw [hrest, List.drop_drop] at hr
              rw [h4] at *
              exact hr.prepend fun hb => Chunks.fact (by rw [List.length_take]; omega) hb
        · split at h
          · rename_i hnf hnfa hdata
            split at h
            · simp [failed] at h
            rename_i hnc
            simp only [Outcome.ok.injEq] at h
            obtain ⟨rfl, rfl⟩ := h
            cases st with
            | none => exact absurd hrel hnc
            | some f =>
              obtain ⟨hr1, hr2, hr3⟩ := hrel
              refine Or.inl ⟨rfl, [], f, N, Chunks.nil _, hr2, hN32, ?_, ?_⟩
              · have hsplit := split_chunk h8 (Nat.zero_le _ : 0 ≤ (s.rest.drop 8).length)
                rw [e1] at hdata
                have hb : leBytes 4 N = (s.rest.drop 4).take 4 := by
                  have h := leBytes_num ((s.rest.drop 4).take 4)
                  rw [← hNv, List.length_take, List.length_drop, Nat.min_eq_left (by omega)] at h
                  exact h
                rw [hb, ← hdata, List.nil_append]
                simp only
                conv_lhs => rw [← List.take_append_drop 4 s.rest, ← List.take_append_drop 4 (s.rest.drop 4),
                  List.drop_drop]
                simp
              · rw [hr1]; rfl
          · rename_i hnf hnfa hnd
            split at h
            · simp [failed] at h
            rename_i herr
            rw [Bool.not_eq_true] at herr
            have hsk := (skipUnknown_ok herr).2
            simp only at hsk
            by_cases hle : N ≤ (s.rest.drop 8).length
            · have hr := ih (st := st) hid' herr hrel h
              rw [hsk, List.drop_drop] at hr
              have hsplit := split_chunk h8 hle hNv.symm
              rw [hsplit]
              rw [e1] at hnf hnfa hnd
              exact hr.prepend fun hb => Chunks.other (by rw [List.length_take]; omega) hnf hnfa hnd
                (by rw [List.length_take]; omega) hb
            · rw [List.drop_eq_nil_of_le (as := s.rest.drop 8) (i := N) (by omega)] at hsk
              exact absurd h (headerLoop_empty fuel hid' hnd info hsk)
    · have he2 := read_id_size_err (junk := junk) hid (s := s) (by omega)
      split at h
      · cases hf : readFmtChunk junk cfg info (readUint32 junk (readCheck id s).2).1
            (readUint32 junk (readCheck id s).2).2 with
        | none => rw [hf] at h; simp [failed] at h
        | some p =>
          rw [(readFmtChunk_ok hf).1] at he2; exact absurd he2 (by simp)
      · split at h
        · cases hf : readFactChunk junk info (readUint32 junk (readCheck id s).2).1
              (readUint32 junk (readCheck id s).2).2 with
          | none => rw [hf] at h; simp [failed] at h
          | some p =>
            obtain ⟨i1, s1⟩ := p
            rw [hf] at h
            simp only at h
            split at h
            · simp [failed] at h
            rename_i herr
            rw [Bool.not_eq_true] at herr
            rw [((readFactChunk_ok hf).2.2.2.1 herr).1] at he2; exact absurd he2 (by simp)
        · split at h
          · split at h
            · simp [failed] at h
            rename_i hnc
            simp only [Outcome.ok.injEq] at h
            obtain ⟨rfl, rfl⟩ := h
            cases st with
            | none => exact absurd hrel hnc
            | some f =>
              obtain ⟨hr1, hr2, hr3⟩ := hrel
              refine Or.inr ⟨he2, [], f, s.rest, Chunks.nil _, hr2, by omega, by simp, ?_⟩
              rw [hr1]; rfl
          · split at h
            · simp [failed] at h
            rename_i herr
            rw [Bool.not_eq_true] at herr
            rw [(skipUnknown_ok herr).1] at he2; exact absurd he2 (by simp)

theorem chunk_length {id body : List Byte} (hid : id.length = 4) :
    (chunk id body).length = 8 + body.length := by
  simp only [chunk, List.length_append, leBytes_length, hid]

theorem chunk_take4 {id body r : List Byte} (hid : id.length = 4) : (chunk id body ++ r).take 4 = id := by
  simp [chunk, List.append_assoc, hid]

theorem chunk_size {id body r : List Byte} (hid : id.length = 4) (hb : body.length < 2 ^ 32) :
    num (((chunk id body ++ r).drop 4).take 4) = body.length := by
  have : ((chunk id body ++ r).drop 4).take 4 = leBytes 4 body.length := by
    rw [chunk, List.append_assoc, List.append_assoc, List.drop_left' hid, List.take_left' (by simp)]
  rw [this, num_leBytes, Nat.mod_eq_of_lt (by norm_num; omega)]

theorem chunk_drop8 {id body r : List Byte} (hid : id.length = 4) :
    (chunk id body ++ r).drop 8 = body ++ r := by
  rw [chunk, List.append_assoc, List.drop_left' (by simp [hid])]

theorem headerLoop_complete {junk : Junk} {cfg : Cfg} {st st' : Option Fmt} {bs : List Byte}
    (hc : Chunks st bs st') : ∀ {f : Fmt}, st' = some f → ∀ {fuel : Nat} {id : List Byte} {info : Info}
    {s : Src} {size : Nat} {tail : List Byte},
    bs.length < fuel → id.length = 4 → s.err = false → Rel st info → size < 2 ^ 32 →
    s.rest = bs ++ (idData ++ leBytes 4 size) ++ tail →
    ∃ t, headerLoop junk cfg fuel id info s =
      .ok (infoOf f (size / (f.bits / 8))) { rest := tail, err := false, tick := t } := by
  induction hc with
  | nil st =>
    intro f hst fuel id info s size tail hfuel hid hs hrel hsize hr
    subst hst
    obtain ⟨fuel, rfl⟩ : ∃ k, fuel = k + 1 := ⟨fuel - 1, by simp at hfuel; omega⟩
    rw [headerLoop_succ]
    simp only
    have hdl : idData.length = 4 := rfl
    have h8 : 8 ≤ s.rest.length := by rw [hr]; simp [hdl]; omega
    obtain ⟨e1, e2⟩ := read_id_size (junk := junk) hid hs h8
    have ht : s.rest.take 4 = idData := by rw [hr]; simp [List.append_assoc, idData]
    have hn : num ((s.rest.drop 4).take 4) = size := by
      have : (s.rest.drop 4).take 4 = leBytes 4 size := by
        rw [hr, List.nil_append, List.append_assoc, List.drop_left' hdl, List.take_left' (by simp)]
      rw [this, num_leBytes, Nat.mod_eq_of_lt (by norm_num; omega)]
    have hd : s.rest.drop 8 = tail := by
      rw [hr, List.nil_append, List.drop_left' (by simp [hdl])]
    rw [e2, e1, ht, if_neg (by decide), if_neg (by decide), if_pos rfl, hn, hd]
    obtain ⟨hr1, hr2, hr3⟩ := hrel
    have hnc : info.numChannels ≠ 0 := by rw [hr1]; exact hr2
    rw [if_neg hnc]
    refine ⟨s.tick + 1 + 1, ?_⟩
    simp only [Outcome.ok.injEq, and_true]
    rw [BitVec.toNat_ofNat, Nat.mod_eq_of_lt hsize, hr1]; rfl
  | @fmt st body bs f1 st' hlen hfo hcs ih =>
    intro f hst fuel id info s size tail hfuel hid hs hrel hsize hr
    obtain ⟨fuel, rfl⟩ : ∃ k, fuel = k + 1 := ⟨fuel - 1, by simp at hfuel; omega⟩
    have hl4 : idFmt.length = 4 := rfl
    rw [List.append_assoc, List.append_assoc] at hr
    have h8 : 8 ≤ s.rest.length := by rw [hr, List.length_append, chunk_length hl4]; omega
    obtain ⟨e1, e2⟩ := read_id_size (junk := junk) hid hs h8
    have hn : num ((s.rest.drop 4).take 4) = body.length := by rw [hr, chunk_size hl4 hlen]
    have hd : s.rest.drop 8 = body ++ (bs ++ ((idData ++ leBytes 4 size) ++ tail)) := by
      rw [hr, chunk_drop8 hl4]
    rw [headerLoop_succ]
    simp only
    rw [e2, e1, hn, hd, hr, chunk_take4 hl4, if_pos rfl]
    have hsz : (BitVec.ofNat 32 body.length).toNat = body.length := by
      rw [BitVec.toNat_ofNat, Nat.mod_eq_of_lt hlen]
    obtain ⟨t, ht⟩ := readFmtChunk_eq (junk := junk) (cfg := cfg) (info := info)
      (size := BitVec.ofNat 32 body.length)
      (s := { rest := body ++ (bs ++ ((idData ++ leBytes 4 size) ++ tail)), err := false,
              tick := s.tick + 1 + 1 }) rfl (by simp only; rw [hsz, List.length_append]; omega)
    rw [hsz] at ht
    simp only at ht
    rw [List.take_left' rfl, List.drop_left' rfl, hfo, Option.map_some] at ht
    rw [ht]
    have hch := formatOf_channels hfo
    have hfl : bs.length < fuel := by
      rw [List.length_append, chunk_length hl4] at hfuel; omega
    exact ih hst hfl hl4 rfl ⟨rfl, hch.1, hch.2.1⟩ hsize (by simp [List.append_assoc])
  | @fact f1 body bs st' hlen hcs ih =>
    intro f hst fuel id info s size tail hfuel hid hs hrel hsize hr
    obtain ⟨fuel, rfl⟩ : ∃ k, fuel = k + 1 := ⟨fuel - 1, by simp at hfuel; omega⟩
    have hl4 : idFact.length = 4 := rfl
    rw [List.append_assoc, List.append_assoc] at hr
    have h8 : 8 ≤ s.rest.length := by rw [hr, List.length_append, chunk_length hl4]; omega
    obtain ⟨e1, e2⟩ := read_id_size (junk := junk) hid hs h8
    have hn : num ((s.rest.drop 4).take 4) = body.length := by rw [hr, chunk_size hl4 (by omega)]
    have hd : s.rest.drop 8 = body ++ (bs ++ ((idData ++ leBytes 4 size) ++ tail)) := by
      rw [hr, chunk_drop8 hl4]
    rw [headerLoop_succ]
    simp only
    rw [e2, e1, hn, hd, hr, chunk_take4 hl4, if_neg (by decide), if_pos rfl]
    obtain ⟨hr1, hr2, hr3⟩ := hrel
    have hnc : info.numChannels = f1.channels := by rw [hr1]; rfl
    obtain ⟨n, hfe⟩ := readFactChunk_eq (junk := junk) (info := info)
      (size := BitVec.ofNat 32 body.length)
      (s := { rest := body ++ (bs ++ ((idData ++ leBytes 4 size) ++ tail)), err := false,
              tick := s.tick + 1 + 1 }) (by rw [hlen]; rfl) (by rw [hnc]; exact hr2)
      (by rw [hnc]; exact hr3) (by simp only [List.length_append]; omega)
    rw [hfe]
    simp only
    rw [if_neg (by simp), List.drop_left' hlen]
    have hfl : bs.length < fuel := by
      rw [List.length_append, chunk_length hl4] at hfuel; omega
    refine ih hst hfl hl4 rfl ⟨?_, hr2, hr3⟩ hsize (by simp [List.append_assoc])
    conv_lhs => rw [hr1]
    rfl
  | @other st id1 body bs st' hid1 hnf hnfa hnd hlen hcs ih =>
    intro f hst fuel id info s size tail hfuel hid hs hrel hsize hr
    obtain ⟨fuel, rfl⟩ : ∃ k, fuel = k + 1 := ⟨fuel - 1, by simp at hfuel; omega⟩
    rw [List.append_assoc, List.append_assoc] at hr
    have h8 : 8 ≤ s.rest.length := by rw [hr, List.length_append, chunk_length hid1]; omega
    obtain ⟨e1, e2⟩ := read_id_size (junk := junk) hid hs h8
    have hn : num ((s.rest.drop 4).take 4) = body.length := by rw [hr, chunk_size hid1 hlen]
    have hd : s.rest.drop 8 = body ++ (bs ++ ((idData ++ leBytes 4 size) ++ tail)) := by
      rw [hr, chunk_drop8 hid1]
    rw [headerLoop_succ]
    simp only
    rw [e2, e1, hn, hd, hr, chunk_take4 hid1, if_neg hnf, if_neg hnfa, if_neg hnd]
    have hsz : (BitVec.ofNat 32 body.length).toNat = body.length := by
      rw [BitVec.toNat_ofNat, Nat.mod_eq_of_lt hlen]
    obtain ⟨t, ht⟩ := skipUnknown_eq (junk := junk) (cfg := cfg) (n := body.length)
      (s := { rest := body ++ (bs ++ ((idData ++ leBytes 4 size) ++ tail)), err := false,
              tick := s.tick + 1 + 1 }) (by simp only [List.length_append]; omega)
    simp only [List.drop_left' (rfl : body.length = body.length)] at ht
    simp only
    rw [hsz, ht]
    simp only [Bool.false_eq_true, if_false]
    have hfl : bs.length < fuel := by
      rw [List.length_append, chunk_length hid1] at hfuel; omega
    exact ih hst hfl hid1 rfl hrel hsize (by simp [List.append_assoc])

theorem headerLoop_terminates {junk : Junk} {cfg : Cfg} (fuel : Nat) : ∀ {id : List Byte} {info : Info}
    {s : Src}, id.length = 4 → s.rest.length < fuel → headerLoop junk cfg fuel id info s ≠ .exhausted := by
  induction fuel with
  | zero => intro id info s _ h; omega
  | succ fuel ih =>
    intro id info s hid hfuel
    rw [headerLoop_succ]
    simp only
    have hid' : (readCheck id s).1.length = 4 := by rw [readCheck_length, hid]
    have hlen : (readUint32 junk (readCheck id s).2).2.rest.length = s.rest.length - 8 := by
      rw [readUint32_rest, readCheck_rest, List.length_drop, List.length_drop, hid]; omega
    have hpos : ∀ {s' : Src}, s'.rest.length ≤ s.rest.length - 8 →
        (s'.err = false → (readUint32 junk (readCheck id s).2).2.err = false) → s'.err = false →
        s'.rest.length < fuel := by
      intro s' h1 h2 h3
      have h4 : 8 ≤ s.rest.length := by
        by_contra hc
        have := read_id_size_err (junk := junk) hid (s := s) (by omega)
        rw [h2 h3] at this; exact absurd this (by simp)
      omega
    split
    · cases hf : readFmtChunk junk cfg info (readUint32 junk (readCheck id s).2).1
          (readUint32 junk (readCheck id s).2).2 with
      | none => simp [failed]
      | some p =>
        obtain ⟨i1, s1⟩ := p
        simp only
        split
        · simp [failed]
        · rename_i herr
          rw [Bool.not_eq_true] at herr
          obtain ⟨h1, h2, h3⟩ := readFmtChunk_ok hf
          exact ih hid' (hpos (by rw [h3, List.length_drop]; omega) (fun _ => h1) herr)
    · split
      · cases hf : readFactChunk junk info (readUint32 junk (readCheck id s).2).1
            (readUint32 junk (readCheck id s).2).2 with
        | none => simp [failed]
        | some p =>
          obtain ⟨i1, s1⟩ := p
          simp only
          split
          · simp [failed]
          · rename_i herr
            rw [Bool.not_eq_true] at herr
            obtain ⟨-, -, h3, h4, -⟩ := readFactChunk_ok hf
            exact ih hid' (hpos (by rw [h3, List.length_drop]; omega) (fun h => (h4 h).1) herr)
      · split
        · split
          · simp [failed]
          · simp
        · split
          · simp [failed]
          · rename_i herr
            rw [Bool.not_eq_true] at herr
            obtain ⟨h1, h2⟩ := skipUnknown_ok herr
            exact ih hid' (hpos (by rw [h2, List.length_drop]; omega) (fun _ => h1) herr)

end Verif.Wav
