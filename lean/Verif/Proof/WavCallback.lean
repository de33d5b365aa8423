import Verif.Model.WavCallback
import Verif.Spec.WavCallback
import Verif.Proof.WavHeader

/-! # Lemmas about the custom chunk callback -/

namespace Verif.Wav

open Verif.Serialize Verif.Wav.Spec

/-- The results are those of the model without the calls. -/
theorem callbackLoop_snd {junk : Junk} {alloc : Nat → Bool} {cfg : Cfg} (ha : ∀ n, alloc n = true) (fuel : Nat) :
    ∀ (id : List Byte) (info : Info) (s : Src),
    (callbackLoop junk alloc cfg fuel id info s).2 = headerLoop junk cfg fuel id info s := by
  induction fuel with
  | zero => intros; rfl
  | succ fuel ih =>
    intro id info s
    unfold callbackLoop headerLoop
    simp only
    split
    · cases readFmtChunk junk cfg info (readUint32 junk (readCheck id s).2).1 (readUint32 junk (readCheck id s).2).2 with
      | none => rfl
      | some p =>
        obtain ⟨i1, s1⟩ := p
        simp only
        split
        · rfl
        · exact ih _ _ _
    · split
      · cases readFactChunk junk info (readUint32 junk (readCheck id s).2).1 (readUint32 junk (readCheck id s).2).2 with
        | none => rfl
        | some p =>
          obtain ⟨i1, s1⟩ := p
          simp only
          split
          · rfl
          · exact ih _ _ _
      · split
        · split <;> rfl
        · unfold skipUnknown
          rw [ha, if_pos rfl]
          by_cases hc : cfg.hasCustom = true
          · simp only [hc, if_true]
            split
            · rfl
            · exact ih _ _ _
          · simp only [hc, if_false, Bool.false_eq_true]
            split
            · rfl
            · exact ih _ _ _

theorem callbackLoop_none {junk : Junk} {alloc : Nat → Bool} {cfg : Cfg} (hc : cfg.hasCustom = false) (fuel : Nat) :
    ∀ (id : List Byte) (info : Info) (s : Src),
    callbackLoop junk alloc cfg fuel id info s = ([], headerLoop junk cfg fuel id info s) := by
  induction fuel with
  | zero => intros; rfl
  | succ fuel ih =>
    intro id info s
    unfold callbackLoop headerLoop
    simp only
    split
    · cases readFmtChunk junk cfg info (readUint32 junk (readCheck id s).2).1 (readUint32 junk (readCheck id s).2).2 with
      | none => rfl
      | some p =>
        obtain ⟨i1, s1⟩ := p
        simp only
        split
        · rfl
        · exact ih _ _ _
    · split
      · cases readFactChunk junk info (readUint32 junk (readCheck id s).2).1 (readUint32 junk (readCheck id s).2).2 with
        | none => rfl
        | some p =>
          obtain ⟨i1, s1⟩ := p
          simp only
          split
          · rfl
          · exact ih _ _ _
      · split
        · split <;> rfl
        · unfold skipUnknown
          simp only [hc, if_false, Bool.false_eq_true]
          split
          · rfl
          · exact ih _ _ _

/-- What the loop has done, starting with the bytes `rest`. -/
def CallsResult (rest : List Byte) (x : List Call × Outcome) : Prop :=
  ∃ ps tail last, InFront ps ∧ rest = chunkBytes ps ++ tail ∧ x.1 = unknownChunks ps ++ last ∧
    (last = [] ∨ ((∃ c, last = [c] ∧ tail.length < 8 + c.2.length) ∧ ∃ i, x.2 = .fail i)) ∧
    ∀ i s', x.2 = .ok i s' → s'.err = false → ∃ size < 2 ^ 32, tail = idData ++ leBytes 4 size ++ s'.rest

theorem CallsResult.fail (rest : List Byte) (info : Info) : CallsResult rest ([], failed info) :=
  ⟨[], rest, [], by simp [InFront], by simp [chunkBytes], by simp [unknownChunks], .inl rfl, by simp [failed]⟩

theorem CallsResult.exhausted (rest : List Byte) : CallsResult rest ([], .exhausted) :=
  ⟨[], rest, [], by simp [InFront], by simp [chunkBytes], by simp [unknownChunks], .inl rfl, by simp⟩

/-- A chunk the reader knows. -/
theorem CallsResult.known {id body rest : List Byte} {x : List Call × Outcome} (hid : id = idFmt ∨ id = idFact)
    (hb : body.length < 2 ^ 32) (h : CallsResult rest x) : CallsResult (chunk id body ++ rest) x := by
  obtain ⟨ps, tail, last, h1, h2, h3, h4, h5⟩ := h
  refine ⟨(id, body) :: ps, tail, last, ?_, ?_, ?_, h4, h5⟩
  · intro p hp
    rcases List.mem_cons.1 hp with rfl | hp
    · exact ⟨by rcases hid with rfl | rfl <;> rfl, by rcases hid with rfl | rfl <;> [show idFmt ≠ idData; show idFact ≠ idData] <;> decide, hb⟩
    · exact h1 p hp
  · rw [h2, chunkBytes, chunkBytes, List.flatMap_cons, List.append_assoc]
  · rw [h3, unknownChunks, unknownChunks, List.filter_cons_of_neg]
    rcases hid with rfl | rfl <;> simp

/-- A chunk the reader does not know. -/
theorem CallsResult.unknown {id body rest : List Byte} {x : List Call × Outcome} (hid : id.length = 4)
    (h1 : id ≠ idFmt) (h2 : id ≠ idFact) (h3 : id ≠ idData)
    (hb : body.length < 2 ^ 32) (h : CallsResult rest x) : CallsResult (chunk id body ++ rest) ((id, body) :: x.1, x.2) := by
  obtain ⟨ps, tail, last, g1, g2, g3, g4, g5⟩ := h
  refine ⟨(id, body) :: ps, tail, last, ?_, ?_, ?_, g4, g5⟩
  · intro p hp
    rcases List.mem_cons.1 hp with rfl | hp
    · exact ⟨hid, h3, hb⟩
    · exact g1 p hp
  · rw [g2, chunkBytes, chunkBytes, List.flatMap_cons, List.append_assoc]
  · rw [g3, unknownChunks, unknownChunks, List.filter_cons_of_pos]
    · rfl
    · simp [h1, h2]

/-- At the end of the file, after a chunk the reader knows, there is no call. -/
theorem callbackLoop_end {junk : Junk} {alloc : Nat → Bool} {cfg : Cfg} (fuel : Nat) {id : List Byte} (info : Info)
    {s : Src} (hid : id = idFmt ∨ id = idFact) (hs : s.rest = []) :
    ∃ i, callbackLoop junk alloc cfg fuel id info s = ([], failed i) ∨
      callbackLoop junk alloc cfg fuel id info s = ([], .exhausted) := by
  cases fuel with
  | zero => exact ⟨info, .inr rfl⟩
  | succ fuel =>
    have hid4 : id.length = 4 := by rcases hid with rfl | rfl <;> rfl
    have h1 : (readCheck id s).1 = id := by unfold readCheck; simp [hs]
    have he2 := read_id_size_err (junk := junk) hid4 (s := s) (by simp [hs])
    unfold callbackLoop
    simp only [h1]
    rcases hid with rfl | rfl
    · rw [if_pos rfl]
      cases hf : readFmtChunk junk cfg info (readUint32 junk (readCheck idFmt s).2).1
          (readUint32 junk (readCheck idFmt s).2).2 with
      | none => exact ⟨info, .inl rfl⟩
      | some p =>
        rw [(readFmtChunk_ok hf).1] at he2; exact absurd he2 (by simp)
    · rw [if_neg (by decide), if_pos rfl]
      cases hf : readFactChunk junk info (readUint32 junk (readCheck idFact s).2).1
          (readUint32 junk (readCheck idFact s).2).2 with
      | none => exact ⟨info, .inl rfl⟩
      | some p =>
        obtain ⟨i1, s1⟩ := p
        simp only
        split
        · exact ⟨i1, .inl rfl⟩
        · rename_i herr
          rw [Bool.not_eq_true] at herr
          rw [((readFactChunk_ok hf).2.2.2.1 herr).1] at he2; exact absurd he2 (by simp)

theorem callbackLoop_calls {junk : Junk} {alloc : Nat → Bool} {cfg : Cfg} (hcc : cfg.hasCustom = true) (fuel : Nat) :
    ∀ {id : List Byte} {info : Info} {s : Src}, id.length = 4 → s.err = false →
    CallsResult s.rest (callbackLoop junk alloc cfg fuel id info s) := by
  induction fuel with
  | zero => intro id info s _ _; exact .exhausted _
  | succ fuel ih =>
    intro id info s hid hs
    have hid' : (readCheck id s).1.length = 4 := by rw [readCheck_length, hid]
    unfold callbackLoop
    simp only [hcc, if_true]
    by_cases h8 : 8 ≤ s.rest.length
    · obtain ⟨e1, e2⟩ := read_id_size (junk := junk) hid hs h8
      rw [e2]
      simp only
      set N := (BitVec.ofNat 32 (num ((s.rest.drop 4).take 4))).toNat with hN
      have hNv : N = num ((s.rest.drop 4).take 4) := by
        rw [hN, BitVec.toNat_ofNat, Nat.mod_eq_of_lt size_lt]
      have hN32 : N < 2 ^ 32 := by rw [hNv]; exact size_lt
      split
      · rename_i hfmt
        cases hf : readFmtChunk junk cfg info (BitVec.ofNat 32 (num ((s.rest.drop 4).take 4)))
            { rest := s.rest.drop 8, err := false, tick := s.tick + 1 + 1 } with
        | none => exact .fail _ _
        | some p =>
          obtain ⟨i1, s1⟩ := p
          simp only
          split
          · exact .fail _ _
          rename_i herr
          rw [Bool.not_eq_true] at herr
          have hr0 := (readFmtChunk_ok hf).2.2
          rw [← hN] at hr0
          simp only at hr0
          by_cases hle : N ≤ (s.rest.drop 8).length
          · have hr := ih (info := i1) hid' herr
            have hsplit := split_chunk h8 hle hNv.symm
            rw [e1] at hfmt
            rw [hfmt] at hsplit
            rw [hsplit]
            rw [hr0, List.drop_drop] at hr
            exact hr.known (.inl rfl) (by rw [List.length_take]; omega)
          · rw [List.drop_eq_nil_of_le (by omega)] at hr0
            obtain ⟨i, h | h⟩ := callbackLoop_end (junk := junk) (alloc := alloc) (cfg := cfg) fuel i1 (.inl hfmt) hr0
            · rw [h]; exact .fail _ _
            · rw [h]; exact .exhausted _
      · split
        · rename_i hnf hfact
          cases hf : readFactChunk junk info (BitVec.ofNat 32 (num ((s.rest.drop 4).take 4)))
              { rest := s.rest.drop 8, err := false, tick := s.tick + 1 + 1 } with
          | none => exact .fail _ _
          | some p =>
            obtain ⟨i1, s1⟩ := p
            simp only
            split
            · exact .fail _ _
            rename_i herr
            rw [Bool.not_eq_true] at herr
            obtain ⟨h4, hnc, hrest, hok, hinfo⟩ := readFactChunk_ok hf
            rw [← hN] at h4
            have hlen := (hok herr).2
            simp only at hlen hrest
            have hr := ih (info := i1) hid' herr
            have hsplit := split_chunk h8 (by omega : N ≤ (s.rest.drop 8).length) hNv.symm
            rw [e1] at hfact
            rw [hfact] at hsplit
            rw [hsplit]
            rw [hrest, List.drop_drop] at hr
            rw [h4] at *
            exact hr.known (.inr rfl) (by rw [List.length_take]; omega)
        · split
          · rename_i hnf hnfa hdata
            split
            · exact .fail _ _
            refine ⟨[], s.rest, [], by simp [InFront], by simp [chunkBytes], by simp [unknownChunks], .inl rfl, ?_⟩
            intro i s' h _
            simp only [Outcome.ok.injEq] at h
            obtain ⟨rfl, rfl⟩ := h
            refine ⟨N, hN32, ?_⟩
            rw [e1] at hdata
            have hb : leBytes 4 N = (s.rest.drop 4).take 4 := by
              have h := leBytes_num ((s.rest.drop 4).take 4)
              rw [← hNv, List.length_take, List.length_drop, Nat.min_eq_left (by omega)] at h
              exact h
            rw [hb, ← hdata]
            simp only
            conv_lhs => rw [← List.take_append_drop 4 s.rest, ← List.take_append_drop 4 (s.rest.drop 4),
              List.drop_drop]
            simp
          · rename_i hnf hnfa hnd
            split
            · by_cases hle : N ≤ (s.rest.drop 8).length
              · have hd : readCheck (fresh junk { rest := s.rest.drop 8, err := false, tick := s.tick + 1 + 1 } N)
                    { rest := s.rest.drop 8, err := false, tick := s.tick + 1 + 1 } =
                    ((s.rest.drop 8).take N, { rest := (s.rest.drop 8).drop N, err := false, tick := s.tick + 1 + 1 + 1 }) := by
                  rw [readCheck_eq (by rw [fresh_length]; exact hle), fresh_length]
                rw [hd]
                simp only [Bool.false_eq_true, if_false]
                have hr := ih (info := info) (s := { rest := (s.rest.drop 8).drop N, err := false, tick := s.tick + 1 + 1 + 1 }) hid' rfl
                have hsplit := split_chunk h8 hle hNv.symm
                simp only [List.drop_drop] at hr ⊢
                rw [e1] at hnf hnfa hnd hr ⊢
                conv_lhs => rw [hsplit]
                exact hr.unknown (by rw [List.length_take]; omega) hnf hnfa hnd (by rw [List.length_take]; omega)
              · have herr : (readCheck (fresh junk { rest := s.rest.drop 8, err := false, tick := s.tick + 1 + 1 } N)
                    { rest := s.rest.drop 8, err := false, tick := s.tick + 1 + 1 }).2.err = true :=
                  readCheck_err (by rw [fresh_length]; simp only; omega)
                rw [herr]
                simp only [if_true]
                refine ⟨[], s.rest, [(_, _)], by simp [InFront], by simp [chunkBytes], by simp [unknownChunks]; exact ⟨rfl, rfl⟩, .inr ⟨⟨_, rfl, ?_⟩, _, rfl⟩, by simp [failed]⟩
                rw [readCheck_length, fresh_length]
                rw [List.length_drop] at hle
                omega
            · exact .fail _ _
    · have he2 := read_id_size_err (junk := junk) hid (s := s) (by omega)
      split
      · cases hf : readFmtChunk junk cfg info (readUint32 junk (readCheck id s).2).1
            (readUint32 junk (readCheck id s).2).2 with
        | none => exact .fail _ _
        | some p =>
          rw [(readFmtChunk_ok hf).1] at he2; exact absurd he2 (by simp)
      · split
        · cases hf : readFactChunk junk info (readUint32 junk (readCheck id s).2).1
              (readUint32 junk (readCheck id s).2).2 with
          | none => exact .fail _ _
          | some p =>
            obtain ⟨i1, s1⟩ := p
            simp only
            split
            · exact .fail _ _
            rename_i herr
            rw [Bool.not_eq_true] at herr
            rw [((readFactChunk_ok hf).2.2.2.1 herr).1] at he2; exact absurd he2 (by simp)
        · split
          · split
            · exact .fail _ _
            refine ⟨[], s.rest, [], by simp [InFront], by simp [chunkBytes], by simp [unknownChunks], .inl rfl, ?_⟩
            intro i s' h he
            simp only [Outcome.ok.injEq] at h
            obtain ⟨rfl, rfl⟩ := h
            rw [he2] at he; exact absurd he (by simp)
          · split
            · have herr : (readCheck (fresh junk (readUint32 junk (readCheck id s).2).2
                  (readUint32 junk (readCheck id s).2).1.toNat) (readUint32 junk (readCheck id s).2).2).2.err = true := by
                unfold readCheck at he2 ⊢
                simp only at he2 ⊢
                rw [he2, Bool.true_or]
              rw [herr]
              simp only [if_true]
              refine ⟨[], s.rest, [(_, _)], by simp [InFront], by simp [chunkBytes], by simp [unknownChunks]; exact ⟨rfl, rfl⟩, .inr ⟨⟨_, rfl, ?_⟩, _, rfl⟩, by simp [failed]⟩
              omega
            · exact .fail _ _

/-- There is only one way to read a sequence of chunks that ends with the `data` chunk. -/
theorem chunkBytes_unique : ∀ {ps qs : List (List Byte × List Byte)} {t u : List Byte}, InFront ps → InFront qs →
    chunkBytes ps ++ (idData ++ t) = chunkBytes qs ++ (idData ++ u) → ps = qs ∧ t = u := by
  have key : ∀ {p q : List Byte × List Byte} {x y : List Byte}, p.1.length = 4 → p.2.length < 2 ^ 32 → q.1.length = 4 →
      q.2.length < 2 ^ 32 → chunk p.1 p.2 ++ x = chunk q.1 q.2 ++ y → p = q ∧ x = y := by
    intro p q x y h1 h2 h3 h4 h
    have a := chunk_take4 (id := p.1) (body := p.2) (r := x) h1
    rw [h, chunk_take4 h3] at a
    have b := chunk_size (id := p.1) (body := p.2) (r := x) h1 h2
    rw [h, chunk_size h3 h4] at b
    have c := chunk_drop8 (id := p.1) (body := p.2) (r := x) h1
    rw [h, chunk_drop8 h3] at c
    obtain ⟨c1, c2⟩ := List.append_inj c b
    exact ⟨Prod.ext a.symm c1.symm, c2.symm⟩
  have ne : ∀ {p : List Byte × List Byte} {x t : List Byte}, p.1.length = 4 → p.1 ≠ idData →
      chunk p.1 p.2 ++ x ≠ idData ++ t := by
    intro p x t h1 h2 h
    have a := chunk_take4 (id := p.1) (body := p.2) (r := x) h1
    rw [h, List.take_left' (show idData.length = 4 from rfl)] at a
    exact h2 a.symm
  intro ps
  induction ps with
  | nil =>
    intro qs t u _ hq h
    cases qs with
    | nil =>
      simp only [chunkBytes, List.flatMap_nil, List.nil_append] at h
      exact ⟨rfl, List.append_cancel_left h⟩
    | cons q qs =>
      simp only [chunkBytes, List.flatMap_nil, List.nil_append, List.flatMap_cons, List.append_assoc] at h
      have := hq q (by simp)
      exact absurd h.symm (ne this.1 this.2.1)
  | cons p ps ih =>
    intro qs t u hp hq h
    have a := hp p (by simp)
    cases qs with
    | nil =>
      simp only [chunkBytes, List.flatMap_nil, List.nil_append, List.flatMap_cons, List.append_assoc] at h
      exact absurd h (ne a.1 a.2.1)
    | cons q qs =>
      have b := hq q (by simp)
      simp only [chunkBytes, List.flatMap_cons, List.append_assoc] at h
      obtain ⟨rfl, h'⟩ := key a.1 a.2.2 b.1 b.2.2 h
      obtain ⟨rfl, rfl⟩ := ih (fun x hx => hp x (by simp [hx])) (fun x hx => hq x (by simp [hx])) h'
      exact ⟨rfl, rfl⟩

end Verif.Wav
