/-
The vector of the smallness proof: where it comes from in a round, and how long it can be; for C91.
-/
import Verif.Lemmas.RoundRecord
import Verif.Props.Bounds
import Mathlib.Algebra.Order.Chebyshev

namespace Verif.Props
open Spec Regev
open scoped BigOperators

section
variable {q : ℕ} [Fact q.Prime] {G : Type} [AddCommGroup G] [Module (ZMod q) G]

/-- What the round leaves behind before the smallness proof. -/
theorem record_blocks {E : Env (ZMod q) G} (hE : LengthOk E) {P : Params q} (hP : ParamsOk P)
    {tests : ℕ → Tests} (hT : ∀ k, NoFalsePrimes (tests k).probPrime) {fresh : Blocks (ZMod q)}
    {inp : RoundInput q} (hI : Honest P inp)
    {vd vd' : VerifierData (ZMod q) G E.St} {pd pd' : ProverData (ZMod q)} (S : Start E P inp.sk1 vd pd)
    (h : recordRound E P fresh tests inp vd pd = .ok (vd', pd')) :
    Setup P vd' pd' ∧ ∀ k < 10, BlockRecorded P tests vd' pd' (coef pd'.linWitness) k := by
  have S0 := S.setup
  have hL := lay_of S0.layout
  unfold recordRound at h
  obtain ⟨⟨vd1, pd1⟩, h1, h⟩ := Res.bind_eq_ok.1 h
  obtain ⟨⟨vd2, pd2⟩, h2, h⟩ := Res.bind_eq_ok.1 h
  obtain ⟨⟨vd3, pd3⟩, h3, h4⟩ := Res.bind_eq_ok.1 h
  simp only at h2 h3 h4
  obtain ⟨L1, W1, s1, l1, w1, v1, k1, o1, c1, r1⟩ :=
    dec_core hE hP hT S0 hI.ctMat hI.ctVec hI.pt1 hI.sk1 hI.decNoise hI.decrypts h1
  have S1 := s1.setup S0
  have e6 : vd1.linConstr[6]? = vd.linConstr[6]? := s1.linRest 6 (by simp)
  have e7 : vd1.linConstr[7]? = vd.linConstr[7]? := s1.linRest 7 (by simp)
  have h6 : ∀ j : Fin 2, vd1.linConstr.getD (6 + j.val) ⟨[], 0⟩ = ⟨[], 0⟩ := by
    intro j
    have e : vd1.linConstr.getD (6 + j.val) ⟨[], 0⟩ = vd.linConstr.getD (6 + j.val) ⟨[], 0⟩ := by
      rw [List.getD_eq_getElem?_getD, List.getD_eq_getElem?_getD]
      have : j.val = 0 ∨ j.val = 1 := by omega
      rcases this with e | e <;> rw [e]
      · rw [Nat.add_zero, e6]
      · rw [e7]
    rw [e, slot_empty S.linEmpty]
  have h6a : SlotOk vd1.linConstr 6 vd1.ix.w := by
    intro i
    rw [h6]
    exact ⟨List.Pairwise.nil, fun j hj => absurd hj List.not_mem_nil⟩
  have h6b : ∀ x, slotLhs vd1.linConstr 6 x = 0 := by
    intro x
    unfold slotLhs
    apply Elt.ext
    funext i
    simp only [h6]
    simp [linLhs]
  obtain ⟨L2, W2, s2, l2, w2, v2, k2, k4, k6, o2, c2, r2⟩ :=
    enc_core hE hP hT S1 h6a h6b hI.ct1 hI.ct2 hI.pt2 hI.encRnd hI.encNoise1 hI.encNoise2 hI.encrypts1
      hI.encrypts2 h2
  have S2 := s2.setup S1
  obtain ⟨L3, W3, s3, l3, w3, v3, k8, k10, o3, c3, r3⟩ :=
    key_core hE hP hT S2 hI.sk2 hI.keyNoise hI.keyFor h3
  have S3 := s3.setup S2
  have i1 := s1.ix
  have i2 := s2.ix.trans i1
  have s12 := s1.trans s2 (by rw [l1, l2]; decide)
  have s123 := s12.trans s3 (by rw [List.map_append, l1, l2, l3]; decide)
  have hblk : ∀ k < 10, ∃ p ∈ L1 ++ L2 ++ L3, p.1 = k := by
    intro k hk
    have : k ∈ (L1 ++ L2 ++ L3).map Prod.fst := by
      rw [List.map_append, List.map_append, l1, l2, l3]
      simp only [List.cons_append, List.nil_append, List.mem_cons, List.not_mem_nil, or_false]
      omega
    obtain ⟨p, hp, e⟩ := List.mem_map.1 this
    exact ⟨p, hp, e⟩
  have hre : inp.pt1.length = P.gk.tee ∧ inp.lagrange.length = P.gk.tee ∧ inp.pt2.length = P.gk.enn ∧
      (∀ row ∈ P.H, row.length = 1 + P.gk.enn) ∧ 14 + P.H.length ≤ vd3.linConstr.length := by
    by_contra hc
    rw [reshare_run.2 hc] at h4
    cases h4
  obtain ⟨lin, q1, q2, q3, q4⟩ := (reshare_run (pd := pd3)).1 hre
  rw [q1] at h4
  obtain ⟨e4, e5⟩ := Prod.mk.inj (Res.ok.inj h4)
  have S4 : Setup P vd' pd' := by
    rw [← e4, ← e5]
    exact ⟨S3.layout, S3.small, S3.gs, S3.hs, by rw [q2]; exact S3.lin, S3.normLength, S3.norm,
      S3.compressed, S3.linWitness, S3.quadWitness⟩
  have hwit : pd3.linWitness = putAll pd.linWitness (W1 ++ (W2 ++ W3)) := by
    rw [← List.append_assoc, s123.linWitness]
  have hm := S0.linWitness
  have hd : ∀ j, Covers W1 j → ¬ Covers (W2 ++ W3) j := by
    intro j
    rw [covers_append, v1, v2, v3]
    simp only [i1, i2, List.mem_cons, List.not_mem_nil, or_false]
    rw [hL.pt1, hL.r, hL.pt2]
    rcases hL.sk with ⟨a, b⟩ | ⟨a, b⟩ <;> rw [a, b] <;> omega
  have hd2 : ∀ j, Covers W2 j → ¬ Covers W3 j := by
    intro j
    rw [v2, v3]
    simp only [i1, i2, List.mem_cons, List.not_mem_nil, or_false]
    rw [hL.r, hL.pt2]
    rcases hL.sk with ⟨a, b⟩ | ⟨a, b⟩ <;> omega
  have hd3 : ∀ j, Covers W3 j → ¬ Covers ([] : List (ℕ × List (ZMod q))) j := by
    intro j _ hc
    simp only [covers_nil] at hc
  have hm1 := (putAll_spec W1 _ hm).1
  have hm2 := (putAll_spec W2 _ hm1).1
  have rd1 : ∀ p ∈ W1, Reads (coef pd3.linWitness) p.1 p.2 := by
    rw [hwit]; exact putAll_left hm w1 hd
  have rd2 : ∀ p ∈ W2, Reads (coef pd3.linWitness) p.1 p.2 := by
    rw [hwit, putAll_append]; exact putAll_left hm1 w2 hd2
  have rd3 : ∀ p ∈ W3, Reads (coef pd3.linWitness) p.1 p.2 := by
    have := putAll_left (B := []) hm2 w3 hd3
    rw [List.append_nil] at this
    rw [hwit, putAll_append, putAll_append]; exact this
  have rd123 : ∀ p ∈ W1 ++ W2 ++ W3, Reads (coef pd3.linWitness) p.1 p.2 := by
    intro p hp
    rcases List.mem_append.1 hp with hp | hp
    · rcases List.mem_append.1 hp with hp | hp
      · exact rd1 p hp
      · exact rd2 p hp
    · exact rd3 p hp
  refine ⟨S4, fun k hk => ?_⟩
  obtain ⟨p, hp, rfl⟩ := hblk k hk
  obtain ⟨b1, b2, b3, b4, b5⟩ := s123.blocks S0 hP rd123 hp
  rw [← e4, ← e5]
  exact ⟨b1, b2, b3, b4, b5⟩

/-! ### The length of the vector -/

theorem list_sq_sum (l : List ℤ) : (l.map fun a => |a|).sum ^ 2 ≤ l.length * (l.map fun a => a ^ 2).sum := by
  have h := sq_sum_le_card_mul_sum_sq (s := (Finset.univ : Finset (Fin l.length))) (f := fun i => |l[i]|)
  have e1 : ∑ i : Fin l.length, |l[i]| = (l.map fun a => |a|).sum := by
    rw [← List.sum_ofFn]
    congr 1
    apply List.ext_getElem <;> simp
  have e2 : ∑ i : Fin l.length, |l[i]| ^ 2 = (l.map fun a => a ^ 2).sum := by
    rw [← List.sum_ofFn]
    congr 1
    apply List.ext_getElem <;> simp
  rw [e1, e2, Finset.card_univ, Fintype.card_fin] at h
  exact h

/-- One block. -/
theorem block_l1 {P : Params q} {x : ℕ → ZMod q} {k : ℕ}
    (h : normSq ((List.range' (260 * k) 260).map x) ≤ normBound P k ^ 2 + 4) (h0 : 6 ≤ normBound P k) :
    (((List.range' (260 * k) 260).map x).map fun s => |s.valMinAbs|).sum ≤ 17 * normBound P k := by
  have := list_sq_sum (((List.range' (260 * k) 260).map x).map fun s => s.valMinAbs)
  unfold normSq at h
  simp only [List.length_map, List.length_range', List.map_map, Function.comp_def] at this h ⊢
  refine abs_le_of_sq_le_sq' ?_ (by linarith) |>.2
  push_cast at this
  nlinarith

theorem coeffs_range (x : ℕ → ZMod q) (n off : ℕ) :
    coeffs ((List.range n).map (eltAt x off)) = (List.range' off (2 * n)).map x := by
  induction n with
  | zero => rfl
  | succ n ih =>
    rw [List.range_succ, List.map_append, show 2 * (n + 1) = 2 * n + 2 by ring, ← List.range'_append_1,
      List.map_append, ← ih]
    unfold coeffs
    rw [List.flatMap_append]
    congr 1

/-- The vector as a whole. -/
theorem compressed_l1 {P : Params q} {w : EVec q 2} (hw : w.length = 1300) {x : ℕ → ZMod q}
    (hc : ∀ k < 10, ∀ j < 130, w[130 * k + j]? = some (eltAt x (260 * k) j))
    (hn : ∀ k < 10, normSq ((List.range' (260 * k) 260).map x) ≤ normBound P k ^ 2 + 4 ∧ 6 ≤ normBound P k) :
    l1 w ≤ 17 * ∑ k ∈ Finset.range 10, normBound P k := by
  have e : w = (List.range 1300).map (eltAt x 0) := by
    apply List.ext_getElem?
    intro i
    by_cases hi : i < 1300
    · have := hc (i / 130) (by omega) (i % 130) (Nat.mod_lt _ (by norm_num))
      rw [Nat.div_add_mod] at this
      rw [this, List.getElem?_map, List.getElem?_range hi]
      simp only [Option.map_some]
      congr 1
      unfold eltAt
      congr 1
      funext j
      congr 1
      omega
    · rw [List.getElem?_eq_none (by omega), List.getElem?_eq_none (by simp; omega)]
  unfold l1
  rw [e, coeffs_range]
  have step : ∀ m ≤ 10, (((List.range' 0 (260 * m)).map x).map fun s => |s.valMinAbs|).sum ≤
      17 * ∑ k ∈ Finset.range m, normBound P k := by
    intro m
    induction m with
    | zero => intro _; simp
    | succ m ih =>
      intro hm
      have hb := block_l1 (hn m (by omega)).1 (hn m (by omega)).2
      have := ih (by omega)
      rw [show 260 * (m + 1) = 260 * m + 260 by ring, ← List.range'_append_1, List.map_append, List.map_append,
        List.sum_append, Finset.sum_range_succ, zero_add, mul_add]
      exact add_le_add this hb
  exact step 10 le_rfl

end

/-! ### The bound of the smallness proof is larger -/

theorem ceilSqrt_small {n : ℕ} (h : n < 2 ^ 32) : (ceilSqrt n : ℤ) ≤ 65536 := by
  have : Nat.sqrt n < 65536 := Nat.sqrt_lt.2 (by omega)
  unfold ceilSqrt
  split_ifs <;> omega

theorem sum_arith {D R B K X1 X2 X3 X4 : ℤ} (hR : 2 ^ 23 ≤ R) (hK : R ^ 2 ≤ K) (hD : 70 * K ≤ D)
    (hB : 59000 * D ≤ B * R) (h1 : X1 * R ≤ D) (h2 : X2 * R ≤ D) (h3 : X3 * R ≤ D) (h4 : X4 * R ≤ D) :
    17 * (X1 + X2 + X3 + X4 + 262144 + 64 * R + 7200) * 128 ≤ B := by
  have hR0 : 0 < R := by omega
  refine le_of_mul_le_mul_right ?_ hR0
  have hr : 2 ^ 23 * R ≤ R ^ 2 := by nlinarith
  have e : 17 * (X1 + X2 + X3 + X4 + 262144 + 64 * R + 7200) * 128 * R =
    2176 * (X1 * R) + 2176 * (X2 * R) + 2176 * (X3 * R) + 2176 * (X4 * R) + 139264 * R ^ 2 + 586092544 * R := by ring
  rw [e]
  linarith

theorem dNoise_lo {P : Params Regev.P} {b m : ℤ} {n : ℕ} (hg : Standard P.gk n) (h5 : 5 ≤ n) (hn : n < 2 ^ 30)
    (h : BoundsClose P b m) : 70 * P.B_kNoise ≤ P.B_dNoise := by
  obtain ⟨Q, hs, hQ⟩ := hg.sizes h5 hn
  have f := bounds_facts h hs hQ
  have hd := h.dNoise
  unfold Close at hd
  have hk := hs.kk_lo
  have hnn := hs.nn_lo
  have hS := hs.S_lo
  have hw : 3900 ≤ √(377 * ((P.gk.kay : ℝ) * 2) * ((P.gk.enn : ℝ) * 2)) := by
    apply Real.le_sqrt_of_sq_le
    nlinarith
  have h1 : 0 ≤ 1.7 * √337 * ((P.gk.enn : ℝ) * 2) * 2 ^ P.gk.sigmaEnc2 := by positivity
  have hkh := f.k_hi
  have := (abs_le.1 hd).1
  generalize √(377 * ((P.gk.kay : ℝ) * 2) * ((P.gk.enn : ℝ) * 2)) = w at *
  generalize 1.7 * √337 * ((P.gk.enn : ℝ) * 2) * 2 ^ P.gk.sigmaEnc2 = a at *
  generalize (2 : ℝ) ^ P.gk.sigmaEnc1 = S at *
  have hS1 : 1 ≤ S := le_trans (by norm_num) hS
  have hwS : 3900 * S ≤ w * S := by nlinarith
  have : 70 * (P.B_kNoise : ℝ) ≤ P.B_dNoise := by
    have e : 24 * w * S = 24 * (w * S) := by ring
    rw [e] at this
    linarith
  exact_mod_cast this

/-- The sum of the coefficients of a vector whose ten blocks have the norms of the bounds passes the check of the
smallness proof. -/
theorem sum_bounds {P : Params Regev.P} {b m : ℤ} {n : ℕ} (hg : Standard P.gk n) (h5 : 5 ≤ n) (hn : n < 2 ^ 30)
    (h : BoundsClose P b m) : 17 * ∑ k ∈ Finset.range 10, normBound P k ≤ P.B_smallness.fdiv 128 := by
  obtain ⟨a1, a2, a3, a4, a5, a6, a7, a8, a9, a10, a11, a12, a13⟩ := standard_facts hg h5 hn h
  obtain ⟨c1, c2, c3⟩ := smallness_lo hg h5 hn h
  have hd := dNoise_lo hg h5 hn h
  have hr := h.r
  have he := h.eNoise1
  have henn := hg.enn
  have hR0 : 0 < P.radix := by omega
  rw [Int.fdiv_eq_ediv_of_nonneg _ (by norm_num), Int.le_ediv_iff_mul_le (by norm_num)]
  have q1 := ceilSqrt_small (n := P.gk.kay * 2) (by omega)
  have q2 := ceilSqrt_small (n := P.gk.enn * 2) (by omega)
  have dv : ∀ B : ℤ, B ≤ P.B_dNoise → B.fdiv P.radix * P.radix ≤ P.B_dNoise := by
    intro B hB
    rw [Int.fdiv_eq_ediv_of_nonneg _ hR0.le]
    exact (Int.ediv_mul_le _ hR0.ne').trans hB
  refine le_trans ?_ (sum_arith a7 c3 hd c1 (dv P.B_dNoise le_rfl) (dv P.B_eNoise1 (by omega))
    (dv P.B_eNoise2 (by omega)) (dv P.B_kNoise (by omega)))
  have hs : ∑ k ∈ Finset.range 10, normBound P k = P.B_dNoise.fdiv P.radix + ceilSqrt (P.gk.kay * 2) +
      P.radix * 16 + P.B_r + (P.B_eNoise1.fdiv P.radix + ceilSqrt (P.gk.kay * 2)) + P.radix * 16 +
      (P.B_eNoise2.fdiv P.radix + ceilSqrt (P.gk.enn * 2)) + P.radix * 16 + P.B_sk +
      (P.B_kNoise.fdiv P.radix + ceilSqrt (P.gk.kay * 2)) + P.radix * 16 := by
    simp only [Finset.sum_range_succ, Finset.sum_range_zero, zero_add]
    rfl
  rw [hs]
  generalize P.B_dNoise.fdiv P.radix = X1
  generalize P.B_eNoise1.fdiv P.radix = X2
  generalize P.B_eNoise2.fdiv P.radix = X3
  generalize P.B_kNoise.fdiv P.radix = X4
  generalize (ceilSqrt (P.gk.kay * 2) : ℤ) = Y1 at *
  generalize (ceilSqrt (P.gk.enn * 2) : ℤ) = Y2 at *
  linarith

/-- The bounds of the blocks are not tiny. -/
theorem bound_six {P : Params Regev.P} {b m : ℤ} {n : ℕ} (hg : Standard P.gk n) (h5 : 5 ≤ n) (hn : n < 2 ^ 30)
    (h : BoundsClose P b m) (k : ℕ) (hk : k < 10) : 6 ≤ normBound P k := by
  obtain ⟨a1, a2, a3, a4, a5, a6, a7, a8, a9, a10, a11, a12, a13⟩ := standard_facts hg h5 hn h
  obtain ⟨c1, c2, c3⟩ := smallness_lo hg h5 hn h
  have hr := h.r
  have he := h.eNoise1
  have hR0 : 0 < P.radix := by omega
  have hlo : 6 ≤ loBound P := by
    unfold loBound SQRT_JL
    omega
  have hhi : ∀ (B : ℤ) (l : ℕ), P.B_kNoise ≤ B → 6 ≤ B.fdiv P.radix + ceilSqrt l := by
    intro B l hB
    have : P.radix ≤ B.fdiv P.radix := by
      rw [Int.fdiv_eq_ediv_of_nonneg _ hR0.le, Int.le_ediv_iff_mul_le hR0, ← sq]
      exact c3.trans hB
    omega
  have hk' : k = 0 ∨ k = 1 ∨ k = 2 ∨ k = 3 ∨ k = 4 ∨ k = 5 ∨ k = 6 ∨ k = 7 ∨ k = 8 ∨ k = 9 := by omega
  rcases hk' with rfl | rfl | rfl | rfl | rfl | rfl | rfl | rfl | rfl | rfl
  · exact hhi _ _ (by omega)
  · exact hlo
  · show 6 ≤ P.B_r
    omega
  · exact hhi _ _ (by omega)
  · exact hlo
  · exact hhi _ _ (by omega)
  · exact hlo
  · show 6 ≤ P.B_sk
    omega
  · exact hhi _ _ le_rfl
  · exact hlo

end Verif.Props
