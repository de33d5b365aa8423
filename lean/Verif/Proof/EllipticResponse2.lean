import Verif.Proof.EllipticResponse

/-! # The elliptic prototype with exact elliptic functions: poles, zeros and response, continued -/

namespace Verif.EllipticDesign
open Verif.Elliptic Verif.Elliptic.Spec Verif.PoleZero Spec
open Verif.IirDesign (ps nrm ps_append ps_cons ps_nil)
open Verif.PoleZero.Spec (zeros poles analogSystem)

variable {k : ℝ} {N : ℕ}

local notation "conj" => starRingEnd ℂ

theorem ofReal_vert (x : ℝ) : (x : ℂ) = vert x 0 := rfl

theorem exact_sn (u : ℂ) (m : ℝ) : jacobiSN exact u m = Sn u m := (casin_sin _).1

theorem exact_sn_real {m : ℝ} (h : Par m) (x : ℝ) : (jacobiSN exact x m).re = sn x m := by
  rw [exact_sn, ofReal_vert, Sn_vert_zero h, Complex.ofReal_re]

theorem exact_cd {m : ℝ} (h : Par m) {u V : ℝ} (h0 : 0 < u) (h1 : u < K m) (hV : |V| < K (1 - m)) :
    jacobiCD exact (vert u (-V)) m = Sn (vert (K m - u) V) m := by
  have hV' : |-V| < K (1 - m) := by rwa [abs_neg]
  have hu : |u| < K m := by rwa [abs_of_pos h0]
  have e : exact.am (vert u (-V)) m = casin (Sn (vert u (-V)) m) := rfl
  rw [jacobiCD, e, (casin_sin _).1, (casin_sin _).2, csqrt_unique (Cn_sq h hV') (Cn_re_pos h hu hV'),
    csqrt_unique (Dn_sq h hV') (Dn_re_pos h hV'), Cd_eq h h0 h1 hV]

theorem exact_cd_real {m : ℝ} (h : Par m) {u : ℝ} (h0 : 0 < u) (h1 : u < K m) :
    (jacobiCD exact u m).re = sn (K m - u) m := by
  have := exact_cd h h0 h1 (V := 0) (by rw [abs_zero]; exact K_pos h.compl)
  rw [neg_zero, Sn_vert_zero h, ← ofReal_vert] at this
  rw [this, Complex.ofReal_re]

theorem foldl_prod (f : ℕ → ℝ) (n : ℕ) : (List.range n).foldl (fun a i => a * f i) 1 = ∏ i ∈ Finset.range n, f i := by
  induction n with
  | zero => simp
  | succ n ih => rw [List.range_succ, List.foldl_append, ih, Finset.prod_range_succ]; rfl

theorem degreeKp_eq {k1 : ℝ} (h : Mod k1) (hN : 1 ≤ N) : degreeKp exact N k1 (K (k1 ^ 2)) = modulus k1 N := by
  rw [degreeKp, foldl_prod, modulus, amp_fold h hN]
  have : ∀ i ∈ Finset.range (N / 2), (jacobiSN exact ((node (K (k1 ^ 2)) N i : ℝ) : ℂ) (k1 ^ 2)).re =
      sn ((2 * i + 1) * K (k1 ^ 2) / N) (k1 ^ 2) := fun i _ => exact_sn_real h.par _
  rw [Finset.prod_congr rfl this]
  ring

theorem node_bounds (h : Mod k) {i : ℕ} (hi : i < N / 2) :
    0 < node (K (k ^ 2)) N i ∧ node (K (k ^ 2)) N i < K (k ^ 2) ∧
      K (k ^ 2) - node (K (k ^ 2)) N i = zarg k N (N - 1 - i) := by
  have hK := K_pos h.par
  have hN : (0 : ℝ) < N := by
    have : 0 < N := by omega
    exact_mod_cast this
  have h2 : (2 * i + 1 : ℝ) < N := by
    have : 2 * i + 1 < N := by omega
    exact_mod_cast this
  refine ⟨by unfold node; positivity, ?_, ?_⟩
  · rw [node, div_lt_iff₀ hN]
    nlinarith
  · have : ((N - 1 - i : ℕ) : ℝ) = N - 1 - i := by
      rw [Nat.cast_sub (by omega), Nat.cast_sub (by omega)]; simp
    rw [node, zarg, this]
    field_simp
    ring

/-- What `assemble` computes from the correct `v0`. -/
theorem assemble_shape (h : Mod k) (hN : 1 ≤ N) {ε v0 : ℝ} (h0 : 0 < v0 * K (k ^ 2))
    (hV : v0 * K (k ^ 2) < K (1 - k ^ 2)) :
    (assemble exact N ε k (K (k ^ 2)) v0).loneZeros = [] ∧
    (assemble exact N ε k (K (k ^ 2)) v0).pairedZeros =
      (List.range (N / 2)).map (fun i => ⟨0, 1 / (k * zero k N (N - 1 - i))⟩) ∧
    (assemble exact N ε k (K (k ^ 2)) v0).pairedPoles =
      (List.range (N / 2)).map (fun i => Complex.I * rootW k N (v0 * K (k ^ 2)) (N - 1 - i)) ∧
    (assemble exact N ε k (K (k ^ 2)) v0).lonePoles =
      (if N % 2 = 1 then [(Complex.I * rootW k N (v0 * K (k ^ 2)) (N / 2)).re] else []) ∧
    ∃ g : ℝ, 0 ≤ g ∧ (assemble exact N ε k (K (k ^ 2)) v0).gain = (if N % 2 = 0 then g / √(1 + ε ^ 2) else g) ∧
      g ^ 2 = nrm (poles (assemble exact N ε k (K (k ^ 2)) v0)) 0 / nrm (zeros (assemble exact N ε k (K (k ^ 2)) v0)) 0 := by
  have hVa : |v0 * K (k ^ 2)| < K (1 - k ^ 2) := by rwa [abs_of_pos h0]
  have z1 : (List.range (N / 2)).map (fun i : ℕ => (⟨0, 1 / (k * (jacobiCD exact (node (K (k ^ 2)) N i) (k ^ 2)).re)⟩ : ℂ)) =
      (List.range (N / 2)).map (fun i => ⟨0, 1 / (k * zero k N (N - 1 - i))⟩) := by
    apply List.map_congr_left
    intro i hi
    obtain ⟨a, b, c⟩ := node_bounds h (List.mem_range.1 hi)
    rw [exact_cd_real h.par a b, c]
    rfl
  have z2 : (List.range (N / 2)).map (fun i : ℕ => Complex.I * jacobiCD exact ⟨node (K (k ^ 2)) N i, -v0 * K (k ^ 2)⟩ (k ^ 2)) =
      (List.range (N / 2)).map (fun i => Complex.I * rootW k N (v0 * K (k ^ 2)) (N - 1 - i)) := by
    apply List.map_congr_left
    intro i hi
    obtain ⟨a, b, c⟩ := node_bounds h (List.mem_range.1 hi)
    have e : (⟨node (K (k ^ 2)) N i, -v0 * K (k ^ 2)⟩ : ℂ) = vert (node (K (k ^ 2)) N i) (-(v0 * K (k ^ 2))) := by
      rw [neg_mul]; rfl
    rw [e, exact_cd h.par a b hVa, c, rootW]
  have z3 : N % 2 = 1 → jacobiSN exact ⟨0, v0 * K (k ^ 2)⟩ (k ^ 2) = rootW k N (v0 * K (k ^ 2)) (N / 2) := by
    intro ho
    have : zarg k N (N / 2) = 0 := by
      have : ((N / 2 : ℕ) : ℝ) = (N - 1) / 2 := by
        have : N = 2 * (N / 2) + 1 := by omega
        have := congrArg (fun n : ℕ => (n : ℝ)) this
        push_cast at this
        linarith
      rw [zarg, this]
      ring
    rw [exact_sn, rootW, this]
    rfl
  obtain ⟨f, hf⟩ : ∃ f : PZ, f = { PZ.empty with
      pairedZeros := (List.range (N / 2)).map fun i : ℕ => ⟨0, 1 / (k * (jacobiCD exact (node (K (k ^ 2)) N i) (k ^ 2)).re)⟩
      pairedPoles := (List.range (N / 2)).map fun i : ℕ =>
        Complex.I * jacobiCD exact ⟨node (K (k ^ 2)) N i, -v0 * K (k ^ 2)⟩ (k ^ 2)
      lonePoles := if N % 2 = 1 then [(Complex.I * jacobiSN exact ⟨0, v0 * K (k ^ 2)⟩ (k ^ 2)).re] else [] } := ⟨_, rfl⟩
  have he : assemble exact N ε k (K (k ^ 2)) v0 =
      if N % 2 = 0 then { f.normalizeGain with gain := f.normalizeGain.gain / √(1 + ε ^ 2) } else f.normalizeGain := by
    rw [hf]; rfl
  have hg := normalize_gain_sq (f := f) (by rw [hf]; rfl)
  have a1 : (assemble exact N ε k (K (k ^ 2)) v0).loneZeros = f.loneZeros := by rw [he]; split_ifs <;> rfl
  have a2 : (assemble exact N ε k (K (k ^ 2)) v0).pairedZeros = f.pairedZeros := by rw [he]; split_ifs <;> rfl
  have a3 : (assemble exact N ε k (K (k ^ 2)) v0).pairedPoles = f.pairedPoles := by rw [he]; split_ifs <;> rfl
  have a4 : (assemble exact N ε k (K (k ^ 2)) v0).lonePoles = f.lonePoles := by rw [he]; split_ifs <;> rfl
  have a5 : poles (assemble exact N ε k (K (k ^ 2)) v0) = poles f := by unfold poles; rw [a3, a4]
  have a6 : zeros (assemble exact N ε k (K (k ^ 2)) v0) = zeros f := by unfold zeros; rw [a1, a2]
  refine ⟨?_, ?_, ?_, ?_, f.normalizeGain.gain, ?_, ?_, ?_⟩
  · rw [a1, hf]; rfl
  · rw [a2, ← z1, hf]
  · rw [a3, ← z2, hf]
  · rw [a4, hf]
    show (if N % 2 = 1 then _ else _) = _
    split_ifs with ho
    · rw [z3 ho]
    · rfl
  · show 0 ≤ 1 / ‖f.eval 0‖
    positivity
  · rw [he]; split_ifs <;> rfl
  · rw [a5, a6, hg]

theorem rootW_reflect (h : Mod k) (hN : 1 ≤ N) (V : ℝ) {j : ℕ} (hj : j < N) :
    conj (Complex.I * rootW k N V (N - 1 - j)) = Complex.I * rootW k N V j := by
  have : rootW k N V (N - 1 - j) = -conj (rootW k N V j) := by
    rw [rootW, zarg_reflect hN hj, Sn_neg_conj h.par, rootW]
  rw [this]
  simp

/-- The product over the poles. -/
theorem ps_poles (h : Mod k) (hN : 1 ≤ N) {V : ℝ} {f : PZ}
    (h1 : f.pairedPoles = (List.range (N / 2)).map (fun i => Complex.I * rootW k N V (N - 1 - i)))
    (h2 : f.lonePoles = if N % 2 = 1 then [(Complex.I * rootW k N V (N / 2)).re] else []) (s : ℂ) :
    ps (poles f) s = ∏ j ∈ Finset.range N, (s - Complex.I * rootW k N V j) := by
  unfold poles
  rw [ps_append, h1, h2, ps_pairs, prod_fold (fun j => s - Complex.I * rootW k N V j)]
  congr 1
  · split_ifs with ho
    · have hr := rootW_reflect h hN V (show N / 2 < N by omega)
      rw [show N - 1 - N / 2 = N / 2 by omega] at hr
      have : (((Complex.I * rootW k N V (N / 2)).re : ℝ) : ℂ) = Complex.I * rootW k N V (N / 2) := Complex.conj_eq_iff_re.1 hr
      simp only [List.map_cons, List.map_nil, ps_cons, ps_nil, mul_one, this]
    · rfl
  · apply Finset.prod_congr rfl
    intro i hi
    have hi := Finset.mem_range.1 hi
    rw [rootW_reflect h hN V (show i < N by omega)]

theorem nrm_poles (h : Mod k) (hN : 1 ≤ N) {V : ℝ} {f : PZ}
    (h1 : f.pairedPoles = (List.range (N / 2)).map (fun i => Complex.I * rootW k N V (N - 1 - i)))
    (h2 : f.lonePoles = if N % 2 = 1 then [(Complex.I * rootW k N V (N / 2)).re] else []) (w : ℝ) :
    nrm (poles f) w = ∏ j ∈ Finset.range N, ‖(w : ℂ) - rootW k N V j‖ ^ 2 := by
  unfold nrm
  rw [ps_poles h hN h1 h2, norm_prod, ← Finset.prod_pow]
  apply Finset.prod_congr rfl
  intro j _
  rw [mul_comm Complex.I, ← sub_mul, norm_mul, Complex.norm_I, mul_one]

theorem zero_upper (h : Mod k) (hN : 1 ≤ N) {i : ℕ} (hi : i < N / 2) :
    0 < zero k N (N - 1 - i) := by
  obtain ⟨a, b, c⟩ := node_bounds h hi
  rw [zero, ← c]
  apply sn_pos h.par (by linarith)
  linarith

theorem zero_mid (h : Mod k) (ho : N % 2 = 1) : zero k N (N / 2) = 0 := by
  have : zarg k N (N / 2) = 0 := by
    have : ((N / 2 : ℕ) : ℝ) = (N - 1) / 2 := by
      have : N = 2 * (N / 2) + 1 := by omega
      have := congrArg (fun n : ℕ => (n : ℝ)) this
      push_cast at this
      linarith
    rw [zarg, this]
    ring
  rw [zero, this, sn_zero h.par]

theorem nrm_zeros (h : Mod k) (hN : 1 ≤ N) : ∃ Z : ℝ, 0 < Z ∧
    Z = ∏ i ∈ Finset.range (N / 2), (k * zero k N (N - 1 - i)) ^ 4 ∧ ∀ f : PZ, f.loneZeros = [] →
    f.pairedZeros = (List.range (N / 2)).map (fun i => ⟨0, 1 / (k * zero k N (N - 1 - i))⟩) →
    ∀ w : ℝ, nrm (zeros f) w * Z = (denQ k N).eval w ^ 2 := by
  have hk := h.1
  refine ⟨∏ i ∈ Finset.range (N / 2), (k * zero k N (N - 1 - i)) ^ 4, ?_, rfl, ?_⟩
  · apply Finset.prod_pos
    intro i hi
    have := zero_upper h hN (Finset.mem_range.1 hi)
    positivity
  · intro f h1 h2 w
    unfold nrm zeros
    rw [h1, h2, List.map_nil, List.nil_append, ps_pairs, norm_prod, ← Finset.prod_pow, ← Finset.prod_mul_distrib,
      denQ_eval, prod_fold (fun j => 1 - k * zero k N j * w)]
    have e0 : (if N % 2 = 1 then 1 - k * zero k N (N / 2) * w else 1) = 1 := by
      split_ifs with ho
      · rw [zero_mid h ho]; ring
      · rfl
    rw [e0, one_mul, ← Finset.prod_pow]
    apply Finset.prod_congr rfl
    intro i hi
    have hi := Finset.mem_range.1 hi
    have hz := zero_upper h hN hi
    have hr := zero_reflect h hN (show i < N by omega)
    have hr' : zero k N i = -zero k N (N - 1 - i) := by rw [hr, neg_neg]
    rw [hr']
    generalize zero k N (N - 1 - i) = z at *
    have e1 : (w * Complex.I - conj (⟨0, 1 / (k * z)⟩ : ℂ)) * (w * Complex.I - (⟨0, 1 / (k * z)⟩ : ℂ)) =
        ((1 / (k * z) ^ 2 - w ^ 2 : ℝ) : ℂ) := by
      have e : (1 / (k * z) ^ 2 - w ^ 2 : ℝ) = (1 / (k * z)) * (1 / (k * z)) - w * w := by
        rw [one_div_mul_one_div, pow_two, pow_two]
      rw [e]
      generalize 1 / (k * z) = a
      apply Complex.ext
      · simp
        ring
      · simp
    rw [e1, Complex.norm_real, Real.norm_eq_abs, sq_abs]
    field_simp
    ring

theorem numP_at_zero (h : Mod k) (hN : 1 ≤ N) :
    (numP k N).eval 0 ^ 2 = if N % 2 = 0 then amp k N ^ 2 else 0 := by
  split_ifs with he
  · have e := passG_ext h hN (N / 2)
    have e2 : ext k N (N / 2) = 0 := by
      have : ((N / 2 : ℕ) : ℝ) = N / 2 := by
        have : N = 2 * (N / 2) := by omega
        have := congrArg (fun n : ℕ => (n : ℝ)) this
        push_cast at this
        linarith
      rw [ext, earg, this, show ((N : ℝ) - 2 * (N / 2)) * K (k ^ 2) / N = 0 by ring, sn_zero h.par]
    rw [e2, passG] at e
    have e3 : (denQ k N).eval 0 = 1 := by rw [denQ_eval]; simp
    simp only [Polynomial.eval_sub, Polynomial.eval_mul, Polynomial.eval_C, Polynomial.eval_pow, e3] at e
    linarith
  · have := numP_zero (k := k) (show N / 2 < N by omega)
    rw [zero_mid h (by omega)] at this
    rw [this]
    norm_num

theorem elliptic_eq (h : Mod k) (hN : 1 ≤ N) (ε w : ℝ) :
    elliptic N k ε w = amp k N ^ 2 * (denQ k N).eval w ^ 2 / (respG k N ε).eval w := by
  have hn : num N k w = (numP k N).eval w / (numP k N).eval 1 := by
    rw [num, Finset.prod_div_distrib, numP_eval, numP_eval]
    rfl
  have hd : Spec.den N k w = (denQ k N).eval w / (denQ k N).eval 1 := by
    rw [Spec.den, Finset.prod_div_distrib, denQ_eval, denQ_eval]
    simp only [mul_one]
    rfl
  have hA := amp_pos h hN
  have hQ : 0 < (denQ k N).eval 1 := denQ_pos h hN (by norm_num)
  have hP : (numP k N).eval 1 ^ 2 = amp k N ^ 2 * (denQ k N).eval 1 ^ 2 := by
    have := passG_ext h hN 0
    rw [ext_zero h hN, passG] at this
    simp only [Polynomial.eval_sub, Polynomial.eval_mul, Polynomial.eval_C, Polynomial.eval_pow] at this
    linarith
  have hG : (respG k N ε).eval w = amp k N ^ 2 * (denQ k N).eval w ^ 2 + ε ^ 2 * (numP k N).eval w ^ 2 := by
    rw [respG]
    simp only [Polynomial.eval_add, Polynomial.eval_mul, Polynomial.eval_C, Polynomial.eval_pow]
  rw [elliptic, hn, hd, hG, div_pow, div_pow, hP]
  have e : (denQ k N).eval w ^ 2 / (denQ k N).eval 1 ^ 2 + ε ^ 2 * ((numP k N).eval w ^ 2 / (amp k N ^ 2 * (denQ k N).eval 1 ^ 2)) =
      (amp k N ^ 2 * (denQ k N).eval w ^ 2 + ε ^ 2 * (numP k N).eval w ^ 2) / (amp k N ^ 2 * (denQ k N).eval 1 ^ 2) := by
    field_simp
  rw [e, div_div_div_eq]
  field_simp

/-- The response of the assembled prototype. -/
theorem assemble_power (h : Mod k) (hN : 1 ≤ N) {ε v0 : ℝ} (he0 : 0 < ε) (h0 : 0 < v0 * K (k ^ 2))
    (hV : v0 * K (k ^ 2) < K (1 - k ^ 2))
    (hv1 : mult k N h hN * (v0 * K (k ^ 2)) < K (1 - modulus k N ^ 2))
    (he : ε * sn (mult k N h hN * (v0 * K (k ^ 2))) (1 - modulus k N ^ 2) =
      cn (mult k N h hN * (v0 * K (k ^ 2))) (1 - modulus k N ^ 2)) (w : ℝ) :
    ‖analogSystem (assemble exact N ε k (K (k ^ 2)) v0) (w * Complex.I)‖ ^ 2 = elliptic N k ε w := by
  obtain ⟨s1, s2, s3, s4, g, g0, g1, g2⟩ := assemble_shape (ε := ε) h hN h0 hV
  obtain ⟨c, hc, -, hG⟩ := respG_factor h hN he0 h0 hV hv1 he
  obtain ⟨Z, hZ, -, hz⟩ := nrm_zeros h hN
  have hp := nrm_poles h hN s3 s4
  have hz := hz _ s1 s2
  have hG' : ∀ x : ℝ, (respG k N ε).eval x = c * nrm (poles (assemble exact N ε k (K (k ^ 2)) v0)) x := by
    intro x; rw [hG, hp]
  have hQ0 : (denQ k N).eval 0 = 1 := by rw [denQ_eval]; simp
  have hA := amp_pos h hN
  have hR0 : (respG k N ε).eval 0 = amp k N ^ 2 * (if N % 2 = 0 then 1 + ε ^ 2 else 1) := by
    rw [respG]
    simp only [Polynomial.eval_add, Polynomial.eval_mul, Polynomial.eval_C, Polynomial.eval_pow, hQ0, numP_at_zero h hN]
    split_ifs <;> ring
  have hgain : (assemble exact N ε k (K (k ^ 2)) v0).gain ^ 2 =
      g ^ 2 / (if N % 2 = 0 then 1 + ε ^ 2 else 1) := by
    rw [g1]
    split_ifs
    · rw [div_pow, Real.sq_sqrt (by positivity)]
    · rw [div_one]
  have hE : 0 < (if N % 2 = 0 then 1 + ε ^ 2 else 1 : ℝ) := by split_ifs <;> positivity
  rw [power_eq, hgain, g2, elliptic_eq h hN, hG' w, ← hz w]
  rw [hG' 0] at hR0
  have hz0 := hz 0
  rw [hQ0] at hz0
  generalize nrm (poles (assemble exact N ε k (K (k ^ 2)) v0)) 0 = p0 at *
  generalize nrm (zeros (assemble exact N ε k (K (k ^ 2)) v0)) 0 = q0 at *
  generalize nrm (poles (assemble exact N ε k (K (k ^ 2)) v0)) w = p at *
  generalize nrm (zeros (assemble exact N ε k (K (k ^ 2)) v0)) w = q at *
  generalize (if N % 2 = 0 then 1 + ε ^ 2 else 1 : ℝ) = E at *
  have hq0 : q0 = 1 / Z := by field_simp; linarith
  have hp0 : p0 = amp k N ^ 2 * E / c := by field_simp; linarith
  rw [hq0, hp0]
  by_cases hp : p = 0
  · rw [hp]; simp
  · field_simp

end Verif.EllipticDesign
