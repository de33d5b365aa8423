import Verif.Proof.WavHeader

/-! # Reading samples -/

namespace Verif.Wav

open Verif.Serialize Verif.Wav.Spec

/-- The (memory size, file size) pairs for which a conversion exists. -/
def Valid (dest src : Nat) : Prop :=
  (dest = 2 ∧ (src = 1 ∨ src = 2)) ∨
  (dest = 4 ∧ (src = 1 ∨ src = 2 ∨ src = 3 ∨ src = 4 ∨ src = 8))

theorem mulaw_table : ∀ b < 256, mulawTable.getD b 0 = mulaw b ∧
    (BitVec.ofInt 32 (mulawTable.getD b 0) <<< 16).toInt = mulaw b * 2 ^ 16 := by
  decide +kernel

theorem toInt_ofNat16 {n : Nat} (h : n < 256 ^ 2) : (BitVec.ofNat 16 n).toInt = signed 16 n := by
  unfold signed
  rw [BitVec.toInt_eq_toNat_cond, BitVec.toNat_ofNat, Nat.mod_eq_of_lt (by norm_num at h; omega)]
  norm_num
  split <;> split <;> omega

theorem shift16 {n : Nat} (h : n < 256 ^ 2) :
    ((BitVec.ofNat 16 n).setWidth 32 <<< 16).toInt = signed 16 n * 2 ^ 16 := by
  norm_num at h
  unfold signed
  rw [BitVec.toInt_eq_toNat_cond, BitVec.toNat_shiftLeft, BitVec.toNat_setWidth, BitVec.toNat_ofNat,
    Nat.mod_eq_of_lt (a := n) (by omega), Nat.mod_eq_of_lt (a := n) (by omega), Nat.shiftLeft_eq,
    Nat.mod_eq_of_lt (by omega)]
  norm_num
  split <;> split <;> omega

theorem shift24 (b0 b1 b2 : Byte) :
    (b0.setWidth 32 <<< 8 ||| b1.setWidth 32 <<< 16 ||| b2.setWidth 32 <<< 24).toInt =
      signed 24 (num [b0, b1, b2]) * 2 ^ 8 := by
  have h0 := step_toNat (W := 32) (n := 32) 0 b0 8 (by omega) (by omega) (by simp)
  rw [show (0 : BitVec 32) ||| b0.setWidth 32 <<< 8 = b0.setWidth 32 <<< 8 by simp] at h0
  have h1 := step_toNat (W := 32) (n := 32) _ b1 16 (by omega) (by omega) h0.2
  have h2 := step_toNat (W := 32) (n := 32) _ b2 24 (by omega) (by omega) h1.2
  have e : (b0.setWidth 32 <<< 8 ||| b1.setWidth 32 <<< 16 ||| b2.setWidth 32 <<< 24).toNat =
      256 * num [b0, b1, b2] := by
    rw [h2.1, h1.1, h0.1]
    simp only [num, show BitVec.toNat (0 : BitVec 32) = 0 from rfl]; omega
  have hl := num_lt [b0, b1, b2]
  norm_num at hl
  rw [BitVec.toInt_eq_toNat_cond, e]
  unfold signed
  norm_num
  split <;> split <;> omega

theorem readOne_eq {narrow : BitVec 64 → BitVec 32} {junk : Junk} {dest src : Nat} (hv : Valid dest src)
    {s : Src} (h : src ≤ s.rest.length) :
    ∃ x, decode narrow dest (s.rest.take src) = some x ∧
      readOne narrow junk dest src s =
        some (x, { rest := s.rest.drop src, err := s.err, tick := s.tick + 1 }) := by
  have hmu : ∀ {s : Src}, 1 ≤ s.rest.length → readMulaw junk s =
      (mulawTable.getD (num (s.rest.take 1)) 0, { rest := s.rest.drop 1, err := s.err, tick := s.tick + 1 }) := by
    intro s h
    unfold readMulaw readUint8
    rw [readCheck_eq (by rw [fresh_length]; exact h)]
    simp only [fresh_length]
    conv_rhs => rw [take1 h]
    simp [num]
  have hn1 : s.rest.length ≥ 1 → num (s.rest.take 1) < 256 := fun h => by
    have := num_lt (s.rest.take 1)
    rwa [List.length_take, Nat.min_eq_left h] at this
  have hn2 : s.rest.length ≥ 2 → num (s.rest.take 2) < 256 ^ 2 := fun h => by
    have := num_lt (s.rest.take 2)
    rwa [List.length_take, Nat.min_eq_left h] at this
  have hl : (s.rest.take src).length = src := by rw [List.length_take, Nat.min_eq_left h]
  unfold readOne decode
  rw [hl]
  rcases hv with ⟨rfl, rfl | rfl⟩ | ⟨rfl, rfl | rfl | rfl | rfl | rfl⟩
  · refine ⟨_, rfl, ?_⟩
    simp only [if_true, hmu h]
    rw [(mulaw_table _ (hn1 h)).1]
  · refine ⟨_, rfl, ?_⟩
    simp only [if_true, readUint16_eq h]
    rw [toInt_ofNat16 (hn2 h)]
    simp
  · refine ⟨_, rfl, ?_⟩
    simp only [if_true, hmu h]
    rw [(mulaw_table _ (hn1 h)).2]
    simp
  · refine ⟨_, rfl, ?_⟩
    simp only [if_true, readUint16_eq h]
    rw [shift16 (hn2 h)]
    simp
  · refine ⟨_, rfl, ?_⟩
    simp only [if_true]
    unfold read3BytesIntoUint32
    rw [readCheck_eq (by rw [fresh_length]; exact h)]
    simp only [fresh_length]
    rw [shift24, ← take3 h]
    simp
  · refine ⟨_, rfl, ?_⟩
    simp [readUint32_eq h]
  · refine ⟨_, rfl, ?_⟩
    simp [readUint64_eq h]

theorem readOne_err {narrow : BitVec 64 → BitVec 32} {junk : Junk} {dest src : Nat} (hv : Valid dest src)
    {s : Src} (h : s.rest.length < src) :
    ∃ x s', readOne narrow junk dest src s = some (x, s') ∧ s'.err = true := by
  have hs : ∀ k, s.rest.length < k → (readCheck (fresh junk s k) s).2.err = true := fun k hk =>
    readCheck_err (by rw [fresh_length]; exact hk)
  unfold readOne
  rcases hv with ⟨rfl, rfl | rfl⟩ | ⟨rfl, rfl | rfl | rfl | rfl | rfl⟩ <;>
  exact ⟨_, _, rfl, hs _ h⟩

theorem decodesTo_nil (narrow : BitVec 64 → BitVec 32) (dest src : Nat) (data : List Byte) :
    DecodesTo narrow dest src data [] := ⟨by simp, fun i h => by simp at h⟩

theorem decodesTo_append {narrow : BitVec 64 → BitVec 32} {dest src : Nat} {data : List Byte}
    {xs ys : List Sample} (hx : DecodesTo narrow dest src data xs)
    (hy : DecodesTo narrow dest src (data.drop (xs.length * src)) ys) :
    DecodesTo narrow dest src data (xs ++ ys) := by
  obtain ⟨h1, h2⟩ := hx
  obtain ⟨h3, h4⟩ := hy
  rw [List.length_drop] at h3
  refine ⟨by rw [List.length_append, Nat.add_mul]; omega, fun i hi => ?_⟩
  rw [List.length_append] at hi
  by_cases hc : i < xs.length
  · rw [List.getElem_append_left hc]; exact h2 i hc
  · rw [List.getElem_append_right (by omega), ← h4 (i - xs.length) (by omega)]
    unfold field
    rw [List.drop_drop, ← Nat.add_mul, show xs.length + (i - xs.length) = i by omega]

theorem decodesTo_take {narrow : BitVec 64 → BitVec 32} {dest src : Nat} {data : List Byte}
    {xs : List Sample} (hx : DecodesTo narrow dest src data xs) (k : Nat) :
    DecodesTo narrow dest src data (xs.take k) := by
  obtain ⟨h1, h2⟩ := hx
  refine ⟨le_trans (Nat.mul_le_mul_right _ (by rw [List.length_take]; omega)) h1, fun i hi => ?_⟩
  rw [List.length_take] at hi
  rw [List.getElem_take]; exact h2 i (by omega)

theorem decodesTo_single {narrow : BitVec 64 → BitVec 32} {dest src : Nat} {data : List Byte}
    {x : Sample} (hl : src ≤ data.length) (h : decode narrow dest (data.take src) = some x) :
    DecodesTo narrow dest src data [x] := by
  refine ⟨by simpa using hl, fun i hi => ?_⟩
  have : i = 0 := by simpa using hi
  subst this
  simpa [field] using h

theorem sampleLoop_eq {narrow : BitVec 64 → BitVec 32} {junk : Junk} {dest src : Nat}
    (hv : Valid dest src) : ∀ (want : Nat) {s : Src}, s.err = false →
    ∃ xs s', sampleLoop narrow junk dest src want s =
        some (xs, decide (s.rest.length < want * src), s') ∧
      xs.length = min want (s.rest.length / src) ∧ DecodesTo narrow dest src s.rest xs ∧
      (want * src ≤ s.rest.length → s'.rest = s.rest.drop (want * src)) := by
  have hpos : 0 < src := by rcases hv with ⟨_, h | h⟩ | ⟨_, h | h | h | h | h⟩ <;> omega
  intro want
  induction want with
  | zero =>
    intro s hs
    exact ⟨[], s, by simp [sampleLoop], by simp, decodesTo_nil _ _ _ _, by simp⟩
  | succ n ih =>
    intro s hs
    by_cases hl : src ≤ s.rest.length
    · obtain ⟨x, hx, hr⟩ := readOne_eq (narrow := narrow) (junk := junk) hv hl
      obtain ⟨xs, s', h1, h2, h3, h4⟩ := ih (s := { rest := s.rest.drop src, err := s.err, tick := s.tick + 1 }) hs
      refine ⟨x :: xs, s', ?_, ?_, ?_, ?_⟩
      · rw [sampleLoop, hr]
        simp only [hs, Bool.false_eq_true, if_false]
        rw [hs] at h1
        rw [h1]
        simp only [List.length_drop, Option.some.injEq, Prod.mk.injEq, true_and, and_true, decide_eq_decide]
        rw [Nat.add_mul]; omega
      · rw [List.length_cons, h2]
        simp only [List.length_drop]
        have : s.rest.length / src = (s.rest.length - src) / src + 1 := by
          rw [← Nat.add_div_right _ hpos, Nat.sub_add_cancel hl]
        omega
      · have := decodesTo_append (decodesTo_single hl hx) (ys := xs) (by simpa using h3)
        simpa using this
      · intro hh
        rw [Nat.add_mul] at hh ⊢
        simp only [List.length_drop, List.drop_drop] at h4
        rw [h4 (by omega)]
        congr 1; omega
    · obtain ⟨x, s', hr, he⟩ := readOne_err (narrow := narrow) (junk := junk) hv (by omega : s.rest.length < src)
      refine ⟨[], s', ?_, ?_, decodesTo_nil _ _ _ _, ?_⟩
      · rw [sampleLoop, hr]
        simp only [he, if_true, Option.some.injEq, Prod.mk.injEq, true_and, and_true]
        symm
        rw [decide_eq_true_eq, Nat.add_mul]; omega
      · have : s.rest.length / src = 0 := Nat.div_eq_of_lt (by omega)
        rw [this]; simp
      · intro hh; rw [Nat.add_mul] at hh; omega

theorem serve_lt {c : Nat} : ∀ (ns : List Nat) {left : Nat}, left < c →
    serve c left ns = ns.map fun _ => 0
  | [], _, _ => rfl
  | n :: ns, left, h => by
    have : min n left / c = 0 := Nat.div_eq_of_lt (by omega)
    simp only [serve, this, Nat.zero_mul, Nat.sub_zero, List.map_cons]
    rw [serve_lt ns h]

theorem roundDown_eq {a c : Nat} : a - a % c = a / c * c := by
  have := Nat.div_add_mod a c
  rw [Nat.mul_comm] at this; omega

/-- The result of one call. -/
theorem readSamples_eq {narrow : BitVec 64 → BitVec 32} {junk : Junk} {n : Nat} {info : Info} {s : Src}
    (hv : Valid info.destAlign (info.bitDepth / 8)) (hc : info.numChannels ≠ 0)
    (hr : info.remaining < 2 ^ 32) :
    ∃ xs info' s', readSamples narrow junk n info s = .samples xs info' s' ∧
      xs.length = min n (min info.remaining (s.rest.length / (info.bitDepth / 8))) / info.numChannels
        * info.numChannels ∧
      DecodesTo narrow info.destAlign (info.bitDepth / 8) s.rest xs ∧
      info' = { info with remaining := info'.remaining } ∧ info'.remaining ≤ info.remaining ∧
      ((info'.remaining = info.remaining - xs.length ∧
          s'.rest = s.rest.drop (xs.length * (info.bitDepth / 8))) ∨
        (info'.remaining = 0 ∧
          min info.remaining (s.rest.length / (info.bitDepth / 8)) - xs.length < info.numChannels)) := by
  have hpos : 0 < info.bitDepth / 8 := by
    rcases hv with ⟨_, h | h⟩ | ⟨_, h | h | h | h | h⟩ <;> omega
  have hd : info.destAlign = 2 ∨ info.destAlign = 4 := by
    rcases hv with ⟨h, _⟩ | ⟨h, _⟩ <;> simp [h]
  set c := info.numChannels with hcdef
  set src := info.bitDepth / 8 with hsrc
  unfold readSamples
  rw [if_neg (by omega), ← hcdef, ← hsrc]
  by_cases h0 : info.remaining < c ∨ n = 0
  · rw [if_pos h0]
    have hz : min n (min info.remaining (s.rest.length / src)) / c = 0 := Nat.div_eq_of_lt (by omega)
    exact ⟨[], info, s, rfl, by rw [hz]; simp, decodesTo_nil _ _ _ _, rfl, le_refl _, Or.inl (by simp)⟩
  · rw [if_neg h0, if_neg hc]
    push Not at h0
    simp only
    have hmin : (if n < info.remaining then n else info.remaining) = min n info.remaining := by
      split <;> omega
    rw [hmin, roundDown_eq]
    set want := min n info.remaining / c * c with hwant
    have hwle : want ≤ min n info.remaining := Nat.div_mul_le_self _ _
    have hsz : ¬((2 ^ 64 - 1) / info.destAlign < want) := by
      rcases hd with h | h <;> rw [h] <;> omega
    rw [if_neg hsz]
    obtain ⟨xs, s', h1, h2, h3, h4⟩ := sampleLoop_eq (narrow := narrow) (junk := junk) hv want
      (s := { s with err := false }) rfl
    simp only at h1 h2 h3 h4
    rw [h1]
    by_cases ht : s.rest.length < want * src
    · rw [decide_eq_true ht]
      simp only
      have hdv : s.rest.length / src < want := (Nat.div_lt_iff_lt_mul hpos).mpr ht
      have hlen : xs.length = s.rest.length / src := by rw [h2]; omega
      have hm : min n (min info.remaining (s.rest.length / src)) = s.rest.length / src := by omega
      have htl : (xs.take (xs.length - xs.length % c)).length = s.rest.length / src / c * c := by
        rw [List.length_take, hlen, roundDown_eq]
        have := Nat.div_mul_le_self (s.rest.length / src) c
        omega
      refine ⟨_, _, _, rfl, ?_, decodesTo_take h3 _, rfl, Nat.zero_le _, Or.inr ⟨rfl, ?_⟩⟩
      · rw [htl, hm]
      · rw [htl]
        have h5 := Nat.div_add_mod (s.rest.length / src) c
        have h6 := Nat.mod_lt (s.rest.length / src) (by omega : c > 0)
        rw [Nat.mul_comm] at h5
        omega
    · rw [decide_eq_false ht]
      simp only
      have hdv : want ≤ s.rest.length / src := (Nat.le_div_iff_mul_le hpos).mpr (by omega)
      have hlen : xs.length = want := by rw [h2]; omega
      refine ⟨_, _, _, rfl, ?_, h3, rfl, Nat.sub_le _ _, Or.inl ⟨by rw [hlen], ?_⟩⟩
      · rw [hlen]
        apply le_antisymm
        · rw [hwant]
          apply Nat.mul_le_mul_right
          rw [Nat.le_div_iff_mul_le (by omega)]
          omega
        · rw [hwant]
          exact Nat.mul_le_mul_right _ (Nat.div_le_div_right (by omega))
      · rw [hlen]; exact h4 (by omega)

theorem readAll_eq {narrow : BitVec 64 → BitVec 32} {junk : Junk} : ∀ (reqs : List Nat) {info : Info}
    {s : Src}, Valid info.destAlign (info.bitDepth / 8) → info.numChannels ≠ 0 →
    info.remaining < 2 ^ 32 →
    ∃ outs, readAll narrow junk reqs info s = some outs ∧
      outs.map List.length =
        serve info.numChannels (min info.remaining (s.rest.length / (info.bitDepth / 8))) reqs ∧
      DecodesTo narrow info.destAlign (info.bitDepth / 8) s.rest outs.flatten
  | [], info, s, _, _, _ => ⟨[], rfl, rfl, decodesTo_nil _ _ _ _⟩
  | n :: reqs, info, s, hv, hc, hr => by
    have hpos : 0 < info.bitDepth / 8 := by
      rcases hv with ⟨_, h | h⟩ | ⟨_, h | h | h | h | h⟩ <;> omega
    obtain ⟨xs, info', s', h1, h2, h3, h4, h5, h6⟩ := readSamples_eq (narrow := narrow) (junk := junk)
      (n := n) (s := s) hv hc hr
    have e1 : info'.destAlign = info.destAlign := by rw [h4]
    have e2 : info'.bitDepth = info.bitDepth := by rw [h4]
    have e3 : info'.numChannels = info.numChannels := by rw [h4]
    obtain ⟨outs, g1, g2, g3⟩ := readAll_eq (narrow := narrow) (junk := junk) reqs (info := info') (s := s')
      (by rw [e1, e2]; exact hv) (by rw [e3]; exact hc) (by omega)
    rw [e1, e2] at g3
    rw [e2, e3] at g2
    refine ⟨xs :: outs, by simp [readAll, h1, g1], ?_, ?_⟩
    · rw [List.map_cons, serve, h2, g2]
      congr 1
      rcases h6 with ⟨h6, h7⟩ | ⟨h6, h7⟩
      · rw [h6, h7, List.length_drop, ← h2]
        congr 1
        have : (s.rest.length - xs.length * (info.bitDepth / 8)) / (info.bitDepth / 8) =
            s.rest.length / (info.bitDepth / 8) - xs.length := by
          rw [Nat.mul_comm xs.length, Nat.sub_mul_div]
        rw [this]; omega
      · rw [h6, serve_lt _ (by omega), serve_lt _ (by rw [← h2]; exact h7)]
    · rw [List.flatten_cons]
      rcases h6 with ⟨h6, h7⟩ | ⟨h6, h7⟩
      · rw [h7] at g3
        exact decodesTo_append h3 g3
      · have hz : outs.flatten = [] := by
          rw [← List.length_eq_zero_iff, List.length_flatten, g2, serve_lt _ (by omega)]
          simp
        rw [hz, List.append_nil]; exact h3

end Verif.Wav
