import Verif.Model.SpectralProcessor
import Verif.Spec.SpectralProcessor
import Verif.Proof.CircularBuffer
import Mathlib.Tactic.Ring

/-! Helper lemmas for `SpectralProcessor`. -/

namespace Verif.SpectralProcessor

open CircularBuffer (Buf Rel)
open Spec

section lists
variable {M : Type} [AddCommMonoid M]

theorem getD_app (a b : List M) (t : ℕ) :
    (a ++ b).getD t 0 = if t < a.length then a.getD t 0 else b.getD (t - a.length) 0 := by
  simp only [List.getD_eq_getElem?_getD]
  split
  · rename_i h
    rw [List.getElem?_append_left h]
  · rename_i h
    rw [List.getElem?_append_right (by omega)]

theorem getD_none (a : List M) (t : ℕ) (h : a.length ≤ t) : a.getD t 0 = 0 := by
  rw [List.getD_eq_getElem?_getD, List.getElem?_eq_none h]; rfl

theorem getD_take' (a : List M) (n t : ℕ) : (a.take n).getD t 0 = if t < n then a.getD t 0 else 0 := by
  split
  · rename_i h
    simp only [List.getD_eq_getElem?_getD, List.getElem?_take_of_lt h]
  · exact getD_none _ _ (by simp; omega)

theorem getD_drop' (a : List M) (n t : ℕ) : (a.drop n).getD t 0 = a.getD (n + t) 0 := by
  simp only [List.getD_eq_getElem?_getD, List.getElem?_drop]

theorem getD_rep (n t : ℕ) : (List.replicate n (0 : M)).getD t 0 = 0 := by
  simp only [List.getD_eq_getElem?_getD, List.getElem?_replicate]
  split <;> simp

theorem getD_set' (l : List M) (k m : ℕ) (v : M) (hk : k < l.length) :
    (l.set k v).getD m 0 = if m = k then v else l.getD m 0 := by
  simp only [List.getD_eq_getElem?_getD]
  by_cases h : m = k
  · subst h; rw [List.getElem?_set_self hk]; simp
  · rw [List.getElem?_set_ne (by omega), if_neg h]

theorem getD_zipAdd (a b : List M) (t : ℕ) (hl : b.length ≤ a.length) (ht : t < b.length) :
    (List.zipWith (· + ·) a b).getD t 0 = a.getD t 0 + b.getD t 0 := by
  simp only [List.getD_eq_getElem?_getD]
  rw [List.getElem?_eq_getElem (by rw [List.length_zipWith]; omega), List.getElem?_eq_getElem (by omega),
    List.getElem?_eq_getElem ht]
  simp

theorem addAt_length (x y : List M) (start : ℕ) (h : start + y.length ≤ x.length) :
    (addAt x start y).length = x.length := by
  unfold addAt
  simp
  omega

theorem addAt_getD (x y : List M) (start t : ℕ) (h : start + y.length ≤ x.length) :
    (addAt x start y).getD t 0 = x.getD t 0 + if start ≤ t then y.getD (t - start) 0 else 0 := by
  unfold addAt
  have l1 : (x.take start).length = start := by simp; omega
  have l2 : (List.zipWith (· + ·) (x.drop start) y).length = y.length := by simp; omega
  rw [List.append_assoc, getD_app, l1]
  by_cases h1 : t < start
  · rw [if_pos h1, if_neg (by omega), add_zero, getD_take', if_pos h1]
  · rw [if_neg h1, if_pos (by omega), getD_app, l2]
    by_cases h2 : t - start < y.length
    · rw [if_pos h2, getD_zipAdd _ _ _ (by simp; omega) h2, getD_drop']
      congr 2
      omega
    · rw [if_neg h2, getD_drop', getD_none y _ (by omega), add_zero]
      congr 1
      omega

theorem shiftLoop_spec (shift : ℕ) (hs : 0 < shift) (v0 : List M) : ∀ (n i : ℕ) (v : List M),
    i + n + shift ≤ v0.length → v.length = v0.length →
    (∀ j, v.getD j 0 = if j < i then v0.getD (j + shift) 0 else if shift ≤ j ∧ j < i + shift then 0
      else v0.getD j 0) →
    (shiftLoop shift n i v).length = v0.length ∧
    ∀ j, (shiftLoop shift n i v).getD j 0 = if j < i + n then v0.getD (j + shift) 0
      else if shift ≤ j ∧ j < i + n + shift then 0 else v0.getD j 0
  | 0, i, v, _, hl, h => ⟨hl, h⟩
  | n + 1, i, v, hn, hl, h => by
    unfold shiftLoop
    have := shiftLoop_spec shift hs v0 n (i + 1) ((v.set i (v.getD (i + shift) 0)).set (i + shift) 0)
      (by omega) (by simpa using hl) (by
        intro j
        rw [getD_set' _ _ _ _ (by simp; omega), getD_set' _ _ _ _ (by omega)]
        by_cases h1 : j = i + shift
        · rw [if_pos h1, if_neg (by omega), if_pos (by omega)]
        · rw [if_neg h1]
          by_cases h2 : j = i
          · subst h2
            rw [if_pos rfl, h, if_neg (by omega), if_neg (by omega), if_pos (by omega)]
          · rw [if_neg h2, h]
            by_cases h3 : j < i
            · rw [if_pos h3, if_pos (by omega)]
            · have e1 : ¬ j < i + 1 := by omega
              rw [if_neg h3, if_neg e1]
              by_cases h4 : shift ≤ j ∧ j < i + shift
              · have e2 : shift ≤ j ∧ j < i + 1 + shift := by omega
                rw [if_pos h4, if_pos e2]
              · have e2 : ¬ (shift ≤ j ∧ j < i + 1 + shift) := by omega
                rw [if_neg h4, if_neg e2])
    rw [show i + (n + 1) = i + 1 + n by omega]
    exact this

theorem moveOverflow_spec (v : List M) (c B : ℕ) (hc : 0 < c) (hL : c + B ≤ v.length)
    (hz : ∀ i, B ≤ i → v.getD i 0 = 0) :
    (moveOverflow v c).1.length = c ∧ (moveOverflow v c).2.length = v.length ∧
    (∀ i, i < c → (moveOverflow v c).1.getD i 0 = v.getD i 0) ∧
    ∀ i, (moveOverflow v c).2.getD i 0 = v.getD (i + c) 0 := by
  have hm : min v.length c = c := by omega
  obtain ⟨h1, h2⟩ := shiftLoop_spec c hc v (v.length - c) 0 v (by omega) rfl (by
    intro j; rw [if_neg (by omega), if_neg (by omega)])
  unfold moveOverflow
  rw [hm]
  refine ⟨by simp; omega, h1, ?_, ?_⟩
  · intro i hi
    simp only [Nat.sub_self, List.replicate_zero, List.append_nil]
    rw [getD_take', if_pos hi]
  · intro i
    simp only
    rw [h2]
    by_cases h3 : i < 0 + (v.length - c)
    · rw [if_pos h3]
    · rw [if_neg h3, getD_none v (i + c) (by omega)]
      split
      · rfl
      · exact hz i (by omega)

theorem moveProcessed_spec (p out v : List M) (start : ℕ) (hs : start < out.length)
    (hv : p.length ≤ v.length) :
    ∃ o' v', moveProcessed p start out v = some (o', v') ∧ o'.length = out.length ∧
      v'.length = v.length ∧
      (∀ i, i < out.length →
        o'.getD i 0 = out.getD i 0 + if start ≤ i then p.getD (i - start) 0 else 0) ∧
      ∀ i, v'.getD i 0 = if start + p.length ≤ out.length + i then 0
        else v.getD i 0 + p.getD (out.length - start + i) 0 := by
  obtain ⟨n, hn⟩ : ∃ n, n = min p.length (out.length - start) := ⟨_, rfl⟩
  have hN : (max 0 (min (p.length : ℤ) ((out.length : ℤ) - start))).toNat = n := by omega
  unfold moveProcessed
  rw [hN]
  simp only
  rw [if_pos (by omega)]
  have lt : (p.take n).length = n := by simp; omega
  have ld : (p.drop n).length = p.length - n := by simp
  refine ⟨_, _, rfl, addAt_length _ _ _ (by rw [lt]; omega), ?_, ?_, ?_⟩
  · rw [List.length_append, List.length_take, addAt_length _ _ _ (by rw [ld]; omega)]
    simp; omega
  · intro i hi
    rw [addAt_getD _ _ _ _ (by rw [lt]; omega)]
    congr 1
    by_cases h1 : start ≤ i
    · rw [if_pos h1, if_pos h1, getD_take']
      by_cases h2 : i - start < n
      · rw [if_pos h2]
      · rw [if_neg h2, getD_none p _ (by omega)]
    · rw [if_neg h1, if_neg h1]
  · intro i
    rw [getD_app, List.length_take, addAt_length _ _ _ (by rw [ld]; omega)]
    by_cases h1 : i < min (p.length - n) v.length
    · rw [if_pos h1, if_neg (by omega), getD_take', if_pos (by omega),
        addAt_getD _ _ _ _ (by rw [ld]; omega), if_pos (by omega), getD_drop']
      congr 2
      omega
    · rw [if_neg h1, if_pos (by omega), getD_rep]

end lists

section columns
variable {α : Type}

theorem flatten_drop {n : ℕ} : ∀ (x : List (List α)) (k : ℕ), (∀ f ∈ x, f.length = n) →
    x.flatten.drop (k * n) = (x.drop k).flatten
  | [], k, _ => by simp
  | f :: x, 0, _ => by simp
  | f :: x, k + 1, h => by
    have hf := h f (by simp)
    rw [List.flatten_cons, List.drop_succ_cons, ← flatten_drop x k (fun g hg => h g (by simp [hg])),
      List.drop_append, hf]
    rw [List.drop_eq_nil_of_le (by rw [hf, Nat.add_mul]; omega), List.nil_append]
    congr 1
    rw [Nat.add_mul]; omega

theorem flatten_take {n : ℕ} : ∀ (x : List (List α)) (k : ℕ), (∀ f ∈ x, f.length = n) →
    x.flatten.take (k * n) = (x.take k).flatten
  | [], k, _ => by simp
  | f :: x, 0, _ => by simp
  | f :: x, k + 1, h => by
    have hf := h f (by simp)
    rw [List.flatten_cons, List.take_succ_cons, List.flatten_cons,
      ← flatten_take x k (fun g hg => h g (by simp [hg])), List.take_append, hf]
    rw [List.take_of_length_le (by rw [hf, Nat.add_mul]; omega)]
    congr 2
    rw [Nat.add_mul]; omega

theorem flatten_len {n : ℕ} (x : List (List α)) (h : ∀ f ∈ x, f.length = n) :
    x.flatten.length = n * x.length := by
  induction x with
  | nil => simp
  | cons f x ih =>
    rw [List.flatten_cons, List.length_append, ih (fun g hg => h g (by simp [hg])), h f (by simp)]
    simp; ring

theorem columns_flatten {n : ℕ} (x : List (List α)) (h : ∀ f ∈ x, f.length = n) :
    columns n x.length x.flatten = x := by
  unfold columns
  apply List.ext_getElem
  · simp
  · intro i h1 h2
    simp only [List.getElem_map, List.getElem_range]
    rw [flatten_drop x i h]
    have : (x.drop i) = x[i] :: x.drop (i + 1) := List.drop_eq_getElem_cons h2
    rw [this, List.flatten_cons, List.take_append, h x[i] (List.getElem_mem h2)]
    simp [h x[i] (List.getElem_mem h2)]

end columns

section main
variable {α M σ : Type} [Zero α] [AddCommMonoid M]

theorem processed_length (f : σ → List (List α) → σ × List M) (s0 : σ) (x : List (List α)) (B H : ℕ) :
    ∀ n, (processed f s0 x B H n).2.length = n
  | 0 => rfl
  | n + 1 => by simp [processed, processed_length f s0 x B H n]

theorem processed_append (f : σ → List (List α) → σ × List M) (s0 : σ) (x y : List (List α)) (B H : ℕ)
    (hH : 0 < H) : ∀ n, (n = 0 ∨ (n - 1) * H + B ≤ x.length) →
      processed f s0 (x ++ y) B H n = processed f s0 x B H n
  | 0, _ => rfl
  | n + 1, h => by
    have hn : n * H + B ≤ x.length := by
      rcases h with h | h
      · omega
      · simpa using h
    have hle : (n - 1) * H ≤ n * H := Nat.mul_le_mul_right _ (by omega)
    unfold processed
    rw [processed_append f s0 x y B H hH n (by omega)]
    have : block (x ++ y) B H n = block x B H n := by
      unfold block
      rw [List.drop_append_of_le_length (by omega), List.take_append_of_le_length (by simp; omega)]
    rw [this]

theorem overlapAdd_snoc (P : List (List M)) (p : List M) (H t : ℕ) :
    overlapAdd (P ++ [p]) H t =
      overlapAdd P H t + if P.length * H ≤ t then p.getD (t - P.length * H) 0 else 0 := by
  unfold overlapAdd
  rw [List.length_append, List.length_singleton, Finset.sum_range_succ]
  congr 1
  · apply Finset.sum_congr rfl
    intro j hj
    rw [Finset.mem_range] at hj
    simp only [List.getD_eq_getElem?_getD, List.getElem?_append_left hj]
  · simp

/-- Nothing is output beyond the end of the last block. -/
theorem overlapAdd_zero (f : σ → List (List α) → σ × List M) (s0 : σ) (x : List (List α)) (B H : ℕ)
    (hf : ∀ s b, b.length = B → (f s b).2.length = B) : ∀ n t, (∀ m, m < n → m * H + B ≤ t) →
      (∀ m, m < n → m * H + B ≤ x.length) →
      overlapAdd (processed f s0 x B H n).2 H t = 0
  | 0, t, _, _ => by simp [processed, overlapAdd]
  | n + 1, t, h, hx => by
    unfold processed
    simp only
    rw [overlapAdd_snoc, overlapAdd_zero f s0 x B H hf n t (fun m hm => h m (by omega))
      (fun m hm => hx m (by omega)), zero_add, processed_length]
    have h1 := h n (by omega)
    have h2 := hx n (by omega)
    rw [if_pos (by omega), getD_none]
    rw [hf _ _ (by unfold block; simp; omega)]
    omega

/-- Well-formed configuration: `D` is the greatest common divisor. -/
structure Good (c : Config) (D : ℕ) : Prop where
  nIn : 0 < c.nIn
  hop : 0 < c.hop
  le : c.hop ≤ c.block
  pos : 0 < D
  dvd : D ∣ c.hop
  delay : c.delay + D = c.block

/-- State between two iterations: `x` are the columns written so far, `n` the number of blocks processed,
`T` the number of columns output before this chunk, `out` the output chunk. -/
structure Mid (c : Config) (D : ℕ) (f : σ → List (List α) → σ × List M) (s0 : σ) (x : List (List α))
    (T chunk n : ℕ) (s : State α M σ) (out : List M) : Prop where
  cols : ∀ k ∈ x, k.length = c.nIn
  xlen : x.length = c.delay + T + chunk
  cle : chunk ≤ c.maxChunk
  dT : D ∣ T
  dc : D ∣ chunk
  buf : Rel s.buf ⟨c.nIn * (c.maxChunk + c.block), (x.drop (n * c.hop)).flatten⟩
  cb : s.cb = (processed f s0 x c.block c.hop n).1
  pos : s.pos + T = n * c.hop
  small : n = 0 ∨ (n - 1) * c.hop < T + chunk
  olen : out.length = chunk
  vlen : s.overflow.length = c.maxChunk + c.block
  oval : ∀ i, i < chunk → out.getD i 0 = overlapAdd (processed f s0 x c.block c.hop n).2 c.hop (T + i)
  vval : ∀ i, s.overflow.getD i 0 =
    overlapAdd (processed f s0 x c.block c.hop n).2 c.hop (T + chunk + i)

theorem Mid.step {c : Config} {D : ℕ} (hg : Good c D) {f : σ → List (List α) → σ × List M} {s0 : σ}
    (hf : ∀ s b, b.length = c.block → (f s b).2.length = c.block)
    {x : List (List α)} {T chunk n : ℕ} {s : State α M σ} {out : List M}
    (h : Mid c D f s0 x T chunk n s out) (hp : s.pos < chunk) (fuel : ℕ) :
    ∃ s' out', Mid c D f s0 x T chunk (n + 1) s' out' ∧ s'.pos = s.pos + c.hop ∧
      CircularBuffer.numReadable s'.buf + c.nIn * c.hop = CircularBuffer.numReadable s.buf ∧
      loop c f (fuel + 1) s out = if s'.pos ≥ chunk then some (s', out') else loop c f fuel s' out' := by
  have hpos := h.pos
  have hxl := h.xlen
  have hdel := hg.delay
  have hdp : D ∣ s.pos := by
    have : D ∣ s.pos + T := by rw [hpos]; exact Dvd.dvd.mul_left hg.dvd n
    exact (Nat.dvd_add_left h.dT).1 this
  have hge : s.pos + D ≤ chunk := by
    obtain ⟨a, ha⟩ := hdp
    obtain ⟨b, hb⟩ := h.dc
    have : a < b := by
      by_contra hc
      have := Nat.mul_le_mul_left D (Nat.le_of_not_lt hc)
      omega
    have := Nat.mul_le_mul_left D (show a + 1 ≤ b by omega)
    rw [Nat.mul_add] at this
    omega
  have hfit : n * c.hop + c.block ≤ x.length := by omega
  have hcd : ∀ k ∈ x.drop (n * c.hop), k.length = c.nIn := fun k hk => h.cols k (List.mem_of_mem_drop hk)
  have hrl : CircularBuffer.numReadable s.buf = c.nIn * (x.drop (n * c.hop)).length := by
    have := h.buf.count
    unfold CircularBuffer.numReadable
    rw [this, flatten_len _ hcd]
  have hread : c.nIn * c.block ≤ CircularBuffer.numReadable s.buf := by
    rw [hrl, List.length_drop]
    exact Nat.mul_le_mul_left _ (by omega)
  have hle : c.nIn * c.hop ≤ c.nIn * c.block := Nat.mul_le_mul_left _ hg.le
  have hcount := h.buf.count
  have hq : ((x.drop (n * c.hop)).flatten).length = CircularBuffer.numReadable s.buf := hcount.symm
  have hpk := CircularBuffer.peek_rel h.buf (n := c.nIn * c.block) (by simp only; omega)
  obtain ⟨b', hadv, hrel, -⟩ := CircularBuffer.advance_rel h.buf (n := c.nIn * c.hop) (by simp only; omega)
  simp only at hpk hrel
  have htk : ((x.drop (n * c.hop)).flatten).take (c.nIn * c.block) = (block x c.block c.hop n).flatten := by
    rw [Nat.mul_comm, flatten_take _ _ hcd]; rfl
  have hdk : ((x.drop (n * c.hop)).flatten).drop (c.nIn * c.hop) = (x.drop ((n + 1) * c.hop)).flatten := by
    rw [Nat.mul_comm, flatten_drop _ _ hcd, List.drop_drop]
    congr 2
    ring
  rw [htk] at hpk
  rw [hdk] at hrel
  have hbl : (block x c.block c.hop n).length = c.block := by unfold block; simp; omega
  have hcol : columns c.nIn c.block (block x c.block c.hop n).flatten = block x c.block c.hop n := by
    have := columns_flatten (block x c.block c.hop n)
      (fun k hk => hcd k (List.mem_of_mem_take hk))
    rwa [hbl] at this
  have hfl : (f s.cb (block x c.block c.hop n)).2.length = c.block := hf _ _ hbl
  obtain ⟨o', v', hm, ol, vl, ov, vv⟩ := moveProcessed_spec (f s.cb (block x c.block c.hop n)).2 out
    s.overflow s.pos (by rw [h.olen]; exact hp) (by rw [hfl, h.vlen]; omega)
  have hproc : processed f s0 x c.block c.hop (n + 1) =
      ((f s.cb (block x c.block c.hop n)).1, (processed f s0 x c.block c.hop n).2 ++
        [(f s.cb (block x c.block c.hop n)).2]) := by
    rw [processed, ← h.cb]
  have hb'c : b'.avail = ((x.drop ((n + 1) * c.hop)).flatten).length := hrel.count
  refine ⟨⟨b', v', s.pos + c.hop, (f s.cb (block x c.block c.hop n)).1⟩, o', ?_, rfl, ?_, ?_⟩
  · refine ⟨h.cols, hxl, h.cle, h.dT, h.dc, hrel, by rw [hproc], ?_, ?_, by rw [ol, h.olen],
      by rw [← h.vlen, ← vl], ?_, ?_⟩
    · show s.pos + c.hop + T = (n + 1) * c.hop
      rw [Nat.add_mul]; omega
    · right
      simp only [Nat.add_sub_cancel]
      omega
    · intro i hi
      rw [ov i (by rw [h.olen]; exact hi), h.oval i hi, hproc]
      simp only
      rw [overlapAdd_snoc, processed_length]
      congr 1
      by_cases h1 : s.pos ≤ i
      · rw [if_pos h1, if_pos (by omega)]
        congr 1
        omega
      · rw [if_neg h1, if_neg (by omega)]
    · intro i
      show v'.getD i 0 = _
      rw [vv, h.olen, hfl]
      by_cases h1 : s.pos + c.block ≤ chunk + i
      · rw [if_pos h1, overlapAdd_zero f s0 x c.block c.hop hf]
        · intro m hm
          have : m * c.hop ≤ n * c.hop := Nat.mul_le_mul_right _ (by omega)
          omega
        · intro m hm
          have : m * c.hop ≤ n * c.hop := Nat.mul_le_mul_right _ (by omega)
          omega
      · rw [if_neg h1, h.vval, hproc]
        simp only
        rw [overlapAdd_snoc, processed_length, if_pos (by omega)]
        congr 2
        omega
  · show b'.avail + _ = _
    rw [hb'c, flatten_len _ (fun k hk => h.cols k (List.mem_of_mem_drop hk)), hrl, List.length_drop,
      List.length_drop, ← Nat.mul_add]
    congr 1
    rw [Nat.add_mul]
    have := hg.le
    omega
  · rw [loop, if_pos hread, hpk]
    simp only [hadv, hcol, hm]
    rw [ol, h.olen]

theorem Mid.loop {c : Config} {D : ℕ} (hg : Good c D) {f : σ → List (List α) → σ × List M} {s0 : σ}
    (hf : ∀ s b, b.length = c.block → (f s b).2.length = c.block)
    {x : List (List α)} {T chunk : ℕ} : ∀ (fuel n : ℕ) (s : State α M σ) (out : List M),
    Mid c D f s0 x T chunk n s out → CircularBuffer.numReadable s.buf < fuel →
    ∃ n' s' out', SpectralProcessor.loop c f fuel s out = some (s', out') ∧
      Mid c D f s0 x T chunk n' s' out' ∧ chunk ≤ s'.pos
  | 0, n, s, out, h, hfuel => by omega
  | fuel + 1, n, s, out, h, hfuel => by
    by_cases hp : s.pos < chunk
    · obtain ⟨s', out', h1, h2, h3, h4⟩ := h.step hg hf hp fuel
      rw [h4]
      by_cases hq : s'.pos ≥ chunk
      · rw [if_pos hq]
        exact ⟨n + 1, s', out', rfl, h1, hq⟩
      · rw [if_neg hq]
        have : 0 < c.nIn * c.hop := Nat.mul_pos hg.nIn hg.hop
        exact Mid.loop hg hf fuel (n + 1) s' out' h1 (by omega)
    · have hpos := h.pos
      have hxl := h.xlen
      have hdel := hg.delay
      have hgp := hg.pos
      have hrl : CircularBuffer.numReadable s.buf = c.nIn * (x.drop (n * c.hop)).length := by
        have := h.buf.count
        unfold CircularBuffer.numReadable
        rw [this, flatten_len _ (fun k hk => h.cols k (List.mem_of_mem_drop hk))]
      have : ¬ CircularBuffer.numReadable s.buf ≥ c.nIn * c.block := by
        rw [hrl, List.length_drop, not_le]
        exact Nat.mul_lt_mul_of_pos_left (by omega) hg.nIn
      rw [SpectralProcessor.loop, if_neg this]
      exact ⟨n, s, out, rfl, h, by omega⟩

/-- State between two chunks. -/
structure Between (c : Config) (f : σ → List (List α) → σ × List M) (s0 : σ)
    (x : List (List α)) (T n : ℕ) (s : State α M σ) : Prop where
  cols : ∀ k ∈ x, k.length = c.nIn
  xlen : x.length = c.delay + T
  buf : Rel s.buf ⟨c.nIn * (c.maxChunk + c.block), (x.drop (n * c.hop)).flatten⟩
  cb : s.cb = (processed f s0 x c.block c.hop n).1
  pos : s.pos + T = n * c.hop
  small : n = 0 ∨ (n - 1) * c.hop < T
  vlen : s.overflow.length = c.maxChunk + c.block
  vval : ∀ i, s.overflow.getD i 0 =
    overlapAdd (processed f s0 x c.block c.hop n).2 c.hop (T + i)

theorem Between.fits {c : Config} {D : ℕ} (hg : Good c D) {f : σ → List (List α) → σ × List M} {s0 : σ}
    {x : List (List α)} {T n : ℕ} {s : State α M σ} (h : Between c f s0 x T n s) (hT : D ∣ T) :
    n = 0 ∨ (n - 1) * c.hop + c.block ≤ x.length := by
  rcases h.small with h0 | h0
  · exact Or.inl h0
  · right
    have hxl := h.xlen
    have hdel := hg.delay
    have h1 : D ∣ (n - 1) * c.hop := Dvd.dvd.mul_left hg.dvd _
    obtain ⟨a, ha⟩ := h1
    obtain ⟨b, hb⟩ := hT
    have : a < b := by
      by_contra hc
      have := Nat.mul_le_mul_left D (Nat.le_of_not_lt hc)
      omega
    have := Nat.mul_le_mul_left D (show a + 1 ≤ b by omega)
    rw [Nat.mul_add] at this
    omega

theorem Between.chunk {c : Config} {D : ℕ} (hg : Good c D) {f : σ → List (List α) → σ × List M} {s0 : σ}
    (hf : ∀ s b, b.length = c.block → (f s b).2.length = c.block)
    {x : List (List α)} {T n : ℕ} {s : State α M σ} (h : Between c f s0 x T n s) (hT : D ∣ T)
    (input : List (List α)) (hi : ∀ k ∈ input, k.length = c.nIn) (h0 : 0 < input.length)
    (hm : input.length ≤ c.maxChunk) (hd : D ∣ input.length) :
    ∃ n' out s', processChunk c f s input = some (out, s') ∧
      Between c f s0 (x ++ input) (T + input.length) n' s' ∧ out.length = input.length ∧
      ∀ i, i < input.length → out.getD i 0 =
        overlapAdd (processed f s0 (x ++ input) c.block c.hop n').2 c.hop (T + i) := by
  have hfit := h.fits hg hT
  have hxl := h.xlen
  have hdel := hg.delay
  have hgp := hg.pos
  have hpos := h.pos
  have hpa := processed_append f s0 x input c.block c.hop hg.hop n hfit
  have hz : ∀ i, c.block ≤ i → s.overflow.getD i 0 = 0 := by
    intro i hi
    rw [h.vval, overlapAdd_zero f s0 x c.block c.hop hf]
    · intro m hm
      have : m * c.hop ≤ (n - 1) * c.hop := Nat.mul_le_mul_right _ (by omega)
      omega
    · intro m hm
      have : m * c.hop ≤ (n - 1) * c.hop := Nat.mul_le_mul_right _ (by omega)
      omega
  obtain ⟨m1, m2, m3, m4⟩ := moveOverflow_spec s.overflow input.length c.block h0 (by rw [h.vlen]; omega) hz
  have hnx : n * c.hop ≤ x.length := by
    rcases hfit with hs | hs
    · subst hs; simp
    · rcases Nat.eq_zero_or_pos n with h2 | h2
      · subst h2; simp
      · obtain ⟨k, rfl⟩ : ∃ k, n = k + 1 := ⟨n - 1, by omega⟩
        simp only [Nat.add_sub_cancel] at hs
        have := hg.le
        rw [Nat.add_mul]; omega
  have hcd : ∀ k ∈ x.drop (n * c.hop), k.length = c.nIn := fun k hk => h.cols k (List.mem_of_mem_drop hk)
  obtain ⟨b', hw, hrel, -⟩ := CircularBuffer.write_rel h.buf (xs := input.flatten) (by
    simp only
    rw [flatten_len _ hcd, flatten_len _ hi, ← Nat.mul_add, List.length_drop]
    exact Nat.mul_le_mul_left _ (by omega))
  simp only at hrel
  have happ : (x.drop (n * c.hop)).flatten ++ input.flatten = ((x ++ input).drop (n * c.hop)).flatten := by
    rw [List.drop_append_of_le_length hnx, List.flatten_append]
  rw [happ] at hrel
  have hmid : Mid c D f s0 (x ++ input) T input.length n
      { s with buf := b', overflow := (moveOverflow s.overflow input.length).2 }
      (moveOverflow s.overflow input.length).1 := by
    refine ⟨?_, by rw [List.length_append]; omega, hm, hT, hd, hrel, by rw [hpa]; exact h.cb, hpos, ?_,
      m1, by rw [← h.vlen, ← m2], ?_, ?_⟩
    · intro k hk
      rcases List.mem_append.1 hk with hk | hk
      · exact h.cols k hk
      · exact hi k hk
    · rcases h.small with h1 | h1
      · exact Or.inl h1
      · right; omega
    · intro i hi'
      rw [m3 i hi', h.vval, hpa]
    · intro i
      show (moveOverflow s.overflow input.length).2.getD i 0 = _
      rw [m4, h.vval, hpa]
      congr 1
      omega
  obtain ⟨n', s', out', l1, l2, l3⟩ := Mid.loop hg hf (CircularBuffer.numReadable b' + 1) n _ _ hmid
    (by show CircularBuffer.numReadable b' < _; omega)
  refine ⟨n', out', { s' with pos := s'.pos - input.length }, ?_, ?_, l2.olen, l2.oval⟩
  · unfold processChunk
    simp only [hw, l1]
    rw [if_pos l3]
  · refine ⟨l2.cols, by rw [l2.xlen]; omega, l2.buf, l2.cb, ?_, l2.small, l2.vlen, l2.vval⟩
    have := l2.pos
    show s'.pos - input.length + (T + input.length) = _
    omega

/-- Later blocks do not change earlier samples. -/
theorem overlapAdd_more (f : σ → List (List α) → σ × List M) (s0 : σ) (x : List (List α)) (B H n t : ℕ)
    (ht : t < n * H) : ∀ k, overlapAdd (processed f s0 x B H (n + k)).2 H t =
      overlapAdd (processed f s0 x B H n).2 H t
  | 0 => rfl
  | k + 1 => by
    rw [← Nat.add_assoc, processed]
    simp only
    have : n * H ≤ (n + k) * H := Nat.mul_le_mul_right _ (by omega)
    rw [overlapAdd_snoc, processed_length, if_neg (by omega), add_zero, overlapAdd_more f s0 x B H n t ht k]

theorem Between.all {c : Config} {D : ℕ} (hg : Good c D) {f : σ → List (List α) → σ × List M} {s0 : σ}
    (hf : ∀ s b, b.length = c.block → (f s b).2.length = c.block) :
    ∀ (chunks : List (List (List α))) {x : List (List α)} {T n : ℕ} {s : State α M σ},
    Between c f s0 x T n s → D ∣ T →
    (∀ i ∈ chunks, (∀ k ∈ i, k.length = c.nIn) ∧ 0 < i.length ∧ i.length ≤ c.maxChunk ∧ D ∣ i.length) →
    ∃ n' outs s', processAll c f s chunks = some (outs, s') ∧
      Between c f s0 (x ++ chunks.flatten) (T + chunks.flatten.length) n' s' ∧ n ≤ n' ∧
      D ∣ T + chunks.flatten.length ∧ outs.map List.length = chunks.map List.length ∧
      ∀ i, i < chunks.flatten.length → outs.flatten.getD i 0 =
        overlapAdd (processed f s0 (x ++ chunks.flatten) c.block c.hop n').2 c.hop (T + i)
  | [], x, T, n, s, h, hT, _ => ⟨n, [], s, rfl, by simpa using h, le_rfl, by simpa using hT, by simp, by simp⟩
  | a :: chunks, x, T, n, s, h, hT, hc => by
    obtain ⟨a1, a2, a3, a4⟩ := hc a (by simp)
    obtain ⟨n1, out, s1, h1, h2, h3, h4⟩ := h.chunk hg hf hT a a1 a2 a3 a4
    obtain ⟨n2, outs, s2, g1, g2, g3, gd, g4, g5⟩ := Between.all hg hf chunks h2 (Nat.dvd_add hT a4)
      (fun i hi => hc i (by simp [hi]))
    have hfl : (a :: chunks).flatten = a ++ chunks.flatten := by simp
    have e1 : x ++ a ++ chunks.flatten = x ++ (a :: chunks).flatten := by rw [hfl, List.append_assoc]
    have e2 : T + a.length + chunks.flatten.length = T + (a :: chunks).flatten.length := by
      rw [hfl, List.length_append]; omega
    rw [e1, e2] at g2
    rw [e1] at g5
    have hn1 : T + a.length ≤ n1 * c.hop := by have := h2.pos; omega
    refine ⟨n2, out :: outs, s2, ?_, g2, ?_, e2 ▸ gd, ?_, ?_⟩
    · unfold processAll
      simp only [h1, g1, Option.bind_eq_bind, Option.bind_some]
      rfl
    · rcases h.small with h0 | h0
      · omega
      · have h5 : T ≤ n2 * c.hop := by have := g2.pos; omega
        have : n - 1 < n2 := by
          by_contra hcon
          have := Nat.mul_le_mul_right c.hop (Nat.le_of_not_lt hcon)
          omega
        omega
    · simp [h3, g4]
    · intro i hi
      rw [hfl, List.length_append] at hi
      rw [List.flatten_cons, getD_app, h3]
      by_cases hia : i < a.length
      · rw [if_pos hia, h4 i hia, ← e1]
        obtain ⟨k, rfl⟩ : ∃ k, n2 = n1 + k := ⟨n2 - n1, by omega⟩
        rw [overlapAdd_more f s0 _ c.block c.hop n1 (T + i) (by omega),
          processed_append f s0 (x ++ a) chunks.flatten c.block c.hop hg.hop n1
            (h2.fits hg (Nat.dvd_add hT a4))]
      · rw [if_neg hia, g5 (i - a.length) (by omega)]
        congr 1
        omega

/-- The state after construction or `Reset`. -/
theorem reset_between {c : Config} {D : ℕ} (hg : Good c D) (hm : 0 < c.maxChunk)
    (f : σ → List (List α) → σ × List M) (s : State α M σ) :
    ∃ s', reset c s = some s' ∧ s'.cb = s.cb ∧
      Between c f s.cb (List.replicate c.delay (List.replicate c.nIn 0)) 0 0 s' := by
  have hn := hg.nIn
  have hd := hg.delay
  have hpos : 0 < c.nIn * (c.maxChunk + c.block) := Nat.mul_pos hn (by omega)
  obtain ⟨b, h1, h2, -⟩ := CircularBuffer.init_rel (0 : α) s.buf hpos
  obtain ⟨b', h3, h4, -⟩ := CircularBuffer.write_rel h2 (xs := List.replicate (c.nIn * c.delay) 0) (by
    simp only [List.length_nil, List.length_replicate, zero_add]
    exact Nat.mul_le_mul_left _ (by omega))
  refine ⟨⟨b', List.replicate (c.maxChunk + c.block) 0, 0, s.cb⟩, ?_, rfl, ?_⟩
  · unfold reset
    simp only [h1, h3]
  · refine ⟨?_, by simp, ?_, rfl, by simp, Or.inl rfl, by simp, ?_⟩
    · intro k hk
      rw [List.eq_of_mem_replicate hk]; simp
    · simp only [List.nil_append] at h4
      have : (List.replicate c.delay (List.replicate c.nIn (0 : α))).flatten
          = List.replicate (c.nIn * c.delay) 0 := by
        rw [List.flatten_replicate_replicate, Nat.mul_comm]
      simpa [this] using h4
    · intro i
      simp only [processed, overlapAdd]
      rw [getD_rep]; simp

end main

end Verif.SpectralProcessor
