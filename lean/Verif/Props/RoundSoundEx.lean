/-
The hypotheses of `C73_round` can be met: a run of the program with 256 parties, and values for which all the
constraints hold and the challenges are good.
-/
import Verif.Props.RoundSound
import Verif.Props.RunExists

namespace Verif.Props
open Regev Spec
open scoped BigOperators

section
variable {P : Params Regev.P} {b m : ℤ}

/-- The norm bounds are within the smallness bound. -/
theorem normBound_small {n : ℕ} (hg : Standard P.gk n) (h5 : 5 ≤ n) (hn : n < 2 ^ 30) (h : BoundsClose P b m)
    (k : ℕ) (hk : k < 10) : normBound P k ≤ P.B_smallness := by
  obtain ⟨a1, a2, a3, a4, a5, a6, a7, a8, a9, a10, -, -, a11⟩ := standard_facts hg h5 hn h
  obtain ⟨s1, s2, s3⟩ := smallness_lo hg h5 hn h
  have hen : P.gk.enn * 2 ≤ 2 ^ 31 := by rw [hg.enn]; omega
  have e1 : P.B_kNoise = P.B_eNoise1 := h.eNoise1.symm
  have e2 := h.r
  have hr0 : 0 < P.radix := by omega
  have hB : 59000 ≤ P.B_smallness := quot_lo hr0 s1 s2
  have hq : ∀ B : ℤ, B ≤ P.B_dNoise → 59000 * B.fdiv P.radix ≤ P.B_smallness := by
    intro B hBd
    rw [Int.fdiv_eq_ediv_of_nonneg _ hr0.le]
    have h1 : P.radix * (B / P.radix) ≤ B := Int.mul_ediv_self_le hr0.ne'
    nlinarith
  have hc : ∀ d : ℕ, d ≤ 2 ^ 31 → (ceilSqrt d : ℤ) ≤ 50000 := by
    intro d hd
    have : ceilSqrt d ≤ 50000 := by
      unfold ceilSqrt
      have := Nat.sqrt_le_sqrt hd
      have e : Nat.sqrt (2 ^ 31) ≤ 46341 := by
        exact Nat.lt_succ_iff.1 (Nat.sqrt_lt.2 (by norm_num))
      split <;> omega
    exact_mod_cast this
  have hhi : ∀ (B : ℤ) (d : ℕ), 0 ≤ B → B ≤ P.B_dNoise → d ≤ 2 ^ 31 → hiBound P B d ≤ P.B_smallness := by
    intro B d h0 h1 h2
    unfold hiBound
    have i1 := hq B h1
    have i2 := hc d h2
    have : 0 ≤ B.fdiv P.radix := by
      rw [Int.fdiv_eq_ediv_of_nonneg _ hr0.le]
      exact Int.ediv_nonneg h0 hr0.le
    omega
  have hlo : loBound P ≤ P.B_smallness := by
    unfold loBound SQRT_JL
    nlinarith
  unfold normBound
  have hk' : k = 0 ∨ k = 1 ∨ k = 2 ∨ k = 3 ∨ k = 4 ∨ k = 5 ∨ k = 6 ∨ k = 7 ∨ k = 8 ∨ k = 9 := by omega
  rcases hk' with rfl | rfl | rfl | rfl | rfl | rfl | rfl | rfl | rfl | rfl
  · exact hhi _ _ (by omega) (by omega) (by omega)
  · exact hlo
  · show P.B_r ≤ _
    omega
  · exact hhi _ _ (by omega) (by omega) (by omega)
  · exact hlo
  · exact hhi _ _ (by omega) (by omega) (by omega)
  · exact hlo
  · show P.B_sk ≤ _
    omega
  · exact hhi _ _ (by omega) (by omega) (by omega)
  · exact hlo


/-- Values for a round whose challenge matrices are zero: the compressed vectors are zero, the whole norm is in the
first element of each padding, the mask is the masked reply, the rest is as in the witness `w`. -/
def exVal (P : Params Regev.P) (ix : Indexes) (z : EVec Regev.P 2) (w : ℕ → ZMod Regev.P) (i : ℕ) : ZMod Regev.P :=
  if i < 2600 then (if i % 260 = 256 then ((normBound P (i / 260) : ℤ) : ZMod Regev.P) else 0)
  else if ix.y ≤ i then (coeffs z).getD (i - ix.y) 0 else w i

theorem exVal_elt (ix : Indexes) (z : EVec Regev.P 2) (w : ℕ → ZMod Regev.P) (k : ℕ) (hk : k < 10) (j : ℕ)
    (hj : j < 128) : eltAt (exVal P ix z w) (260 * k) j = 0 := by
  apply Elt.ext
  funext c
  unfold eltAt exVal
  have := c.2
  simp only
  rw [if_pos (by omega), if_neg (by omega)]
  rfl

theorem exVal_reads {ix : Indexes} {z : EVec Regev.P 2} {w : ℕ → ZMod Regev.P} {off : ℕ} {v : List (ZMod Regev.P)}
    (h : Reads w off v) (h1 : 2600 ≤ off) (h2 : off + v.length ≤ ix.y) : Reads (exVal P ix z w) off v := by
  intro i a hi
  have hl := (List.getElem?_eq_some_iff.1 hi).1
  unfold exVal
  rw [if_neg (by omega), if_neg (by omega)]
  exact h i a hi

theorem exVal_y {ix : Indexes} {z : EVec Regev.P 2} {w : ℕ → ZMod Regev.P} (h1 : 2600 ≤ ix.y) (j : ℕ)
    (hj : j < z.length) : eltAt (exVal P ix z w) ix.y j = z.getD j 0 := by
  apply Elt.ext
  funext c
  unfold eltAt exVal
  have := c.2
  simp only
  rw [if_neg (by omega), if_pos (by omega)]
  have hz : z[j]? = some (z.getD j 0) := by
    rw [List.getD_eq_getElem?_getD, List.getElem?_eq_getElem hj]
    rfl
  have := coeffs_get _ j c _ hz
  rw [show ix.y + 2 * j + c.val - ix.y = 2 * j + c.val by omega, List.getD_eq_getElem?_getD, this]
  rfl

theorem zero_matrix {G : Type} [AddCommGroup G] [Module (ZMod Regev.P) G] {E : Env (ZMod Regev.P) G}
    (hz : ∀ st l n, (E.challenge st l n).1 = List.replicate n 0) (st : E.St) (l : String) (n k i j : ℕ) :
    (matrixFrom E st l n k).1 i j = 0 := by
  unfold matrixFrom
  simp only
  rw [hz]
  apply Elt.ext
  funext c
  unfold ternaryOf ternEntry
  have e : ∀ d x : ℕ, ((List.replicate (challengeBytes n k) (0 : UInt8)).drop d).getD x 0 = 0 := by
    intro d x
    rw [List.drop_replicate, List.getD_eq_getElem?_getD, List.getElem?_replicate]
    split <;> rfl
  simp only [e]
  simp [ofBits]

theorem exVal_norm (ix : Indexes) (z : EVec Regev.P 2) (w : ℕ → ZMod Regev.P) (k : ℕ) (hk : k < 10) :
    QuadSat ⟨List.range' (260 * k) 260, ((normBound P k ^ 2 : ℤ) : ZMod Regev.P)⟩ (exVal P ix z w)
      (exVal P ix z w) := by
  unfold QuadSat
  simp only
  rw [show List.range' (260 * k) 260 = List.range' (260 * k) 256 ++ List.range' (260 * k + 256) 4 from by
    rw [List.range'_append_1], List.map_append, List.sum_append, List.sum_eq_zero, zero_add]
  · rw [show List.range' (260 * k + 256) 4 = [260 * k + 256, 260 * k + 257, 260 * k + 258, 260 * k + 259] from rfl]
    have e0 : exVal P ix z w (260 * k + 256) = ((normBound P k : ℤ) : ZMod Regev.P) := by
      unfold exVal
      rw [if_pos (by omega), if_pos (by omega), show (260 * k + 256) / 260 = k by omega]
    have e1 : ∀ i, 257 ≤ i → i < 260 → exVal P ix z w (260 * k + i) = 0 := by
      intro i h1 h2
      unfold exVal
      rw [if_pos (by omega), if_neg (by omega)]
    simp only [List.map_cons, List.map_nil, List.sum_cons, List.sum_nil, e0, e1 257 (by norm_num) (by norm_num),
      e1 258 (by norm_num) (by norm_num), e1 259 (by norm_num) (by norm_num)]
    push_cast
    ring
  · intro a ha
    obtain ⟨i, hi, rfl⟩ := List.mem_map.1 ha
    obtain ⟨j, hj, rfl⟩ := List.mem_range'.1 hi
    unfold exVal
    rw [if_pos (by omega), if_neg (by omega), zero_mul]

theorem l1_small {v : EVec Regev.P 2} {B : ℤ} (h : l1 v ≤ 1) (hB : 1 ≤ B) {s : ZMod Regev.P} (hs : s ∈ coeffs v)
    {κ : ℕ} (hκ : κ ≤ 3) : ((κ : ℤ) + 1) * s.valMinAbs ^ 2 ≤ 4 * B ^ 2 := by
  have h1 : |s.valMinAbs| ≤ l1 v := by
    unfold l1
    refine List.single_le_sum ?_ _ (List.mem_map.2 ⟨s, hs, rfl⟩)
    intro a ha
    obtain ⟨t, -, rfl⟩ := List.mem_map.1 ha
    exact abs_nonneg _
  have h2 : s.valMinAbs ^ 2 ≤ 1 := by
    rw [← sq_abs]
    have := abs_nonneg s.valMinAbs
    nlinarith
  have h3 : ((κ : ℤ) + 1) * s.valMinAbs ^ 2 ≤ 4 * s.valMinAbs ^ 2 :=
    mul_le_mul_of_nonneg_right (by omega) (sq_nonneg _)
  nlinarith

theorem notFooled_small {v : EVec Regev.P 2} {B : ℤ} {n : ℕ} (h : l1 v ≤ 1) (hB : 1 ≤ B) {f u : ℕ → Elt (ZMod Regev.P) 2}
    (hv : v.length = n) (hf : ∀ i < n, f i = v.getD i 0) {κ : ℕ} (hκ : κ ≤ 3) : NotFooled κ n B f u := by
  intro _ i hi c
  refine l1_small h hB ?_ hκ
  rw [hf i hi]
  have hz : v[i]? = some (v.getD i 0) := by
    rw [List.getD_eq_getElem?_getD, List.getElem?_eq_getElem (by omega)]
    rfl
  exact List.mem_of_getElem? (coeffs_get _ i c _ hz)

theorem not_bad {m : ℕ} {d : ℕ → Elt (ZMod Regev.P) 2} {ξ : Elt (ZMod Regev.P) 2} (h : ∀ j < m, d j = 0) :
    ξ ∉ BadBatch m d := by
  rintro ⟨⟨j, hj, hd⟩, -⟩
  exact hd (h j hj)

theorem digitsBound_pos {n : ℕ} (hg : Standard P.gk n) (h5 : 5 ≤ n) (hn : n < 2 ^ 30) (hb : BoundsClose P b m)
    {hi : ℕ} (hhi : hi < 10) {lo : ℕ} (hlo : normBound P lo = loBound P) : 1 ≤ digitsBound P hi lo := by
  obtain ⟨-, -, -, -, -, -, a7, -⟩ := standard_facts hg h5 hn hb
  have := (normBound_range hg h5 hn hb hi hhi).1
  unfold digitsBound
  rw [hlo]
  unfold loBound SQRT_JL
  nlinarith

/-- In a round of an honest party with short vectors whose challenge matrices are zero, the values above satisfy all
the constraints, and the challenges are good for them. -/
theorem zero_round_good {G : Type} [AddCommGroup G] [Module (ZMod Regev.P) G] {E : Env (ZMod Regev.P) G}
    (hz : ∀ st l n, (E.challenge st l n).1 = List.replicate n 0) {n : ℕ}
    (hg : Standard P.gk n) (h5 : 5 ≤ n) (hn : n < 2 ^ 28) (hb : BoundsClose P b m) (hP : ParamsOk P)
    {tests : ℕ → Tests} (hT : ∀ k, NoFalsePrimes (tests k).probPrime) {fresh : Blocks (ZMod Regev.P)}
    {small : ℕ → SmallRnd Regev.P} {inp : RoundInput Regev.P} (hI : Honest P inp)
    {vd vd' : VerifierData (ZMod Regev.P) G E.St} {pd pd' : ProverData (ZMod Regev.P)} (S : Start E P inp.sk1 vd pd)
    (h : proveRound E P fresh tests small inp vd pd = .ok (vd', pd'))
    (n0 : l1 inp.decNoise ≤ 1) (n1 : l1 inp.encRnd ≤ 1) (n2 : l1 inp.encNoise1 ≤ 1) (n3 : l1 inp.encNoise2 ≤ 1)
    (n4 : l1 inp.sk2 ≤ 1) (n5 : l1 inp.keyNoise ≤ 1) {κ : ℕ} (hκ : κ ≤ 3) :
    ∃ x : ℕ → ZMod Regev.P, (∀ c ∈ vd'.linConstr, LinSat c x) ∧
      (∀ k (hk : k < vd'.normConstr.length), QuadSat vd'.normConstr[k] x x) ∧
      GoodRound P inp vd.ix x (roundChallenges E vd.mer P.gk.kay P.gk.enn P.gk.tee vd'.com vd'.z) vd'.z κ := by
  have hE : LengthOk E := by
    intro st l m
    rw [hz, List.length_replicate]
  have hS : Sized P inp := ⟨hI.ctMat, hI.ctVec, hI.pt1, hI.decNoise, hI.ct1, hI.ct2, hI.pt2, hI.encRnd, hI.encNoise1,
    hI.encNoise2, hI.sk2, hI.keyNoise⟩
  obtain ⟨C, hC⟩ : ∃ C, roundChallenges E vd.mer P.gk.kay P.gk.enn P.gk.tee vd'.com vd'.z = C := ⟨_, rfl⟩
  rw [hC]
  obtain ⟨a1, a2, a3, a4, a5, a6, -, a8, a9⟩ := round_meaning hE hP hT hS S.setup S.linEmpty h C hC
  obtain ⟨-, ⟨r1, r2, r3, r4, r5⟩, -⟩ := round_core hE hP hT hI S h _ rfl
  have hL := lay_of S.setup.layout
  have hLsk := hL.sk
  have hLr := hL.r
  have hLp := hL.pt1
  have hLq := hL.pt2
  have hLy := hL.y
  obtain ⟨x, hx⟩ : ∃ x, x = exVal P vd.ix vd'.z (coef pd'.linWitness) := ⟨_, rfl⟩
  have q1 : Reads x vd.ix.sk1 (coeffs inp.sk1) := by
    rw [hx]; exact exVal_reads r1 (by omega) (by rw [coeffs_length, hI.sk1]; omega)
  have q2 : Reads x vd.ix.pt1 inp.pt1 := by
    rw [hx]; exact exVal_reads r2 (by omega) (by rw [hI.pt1]; omega)
  have q3 : Reads x vd.ix.r (coeffs inp.encRnd) := by
    rw [hx]; exact exVal_reads r3 (by omega) (by rw [coeffs_length, hI.encRnd]; omega)
  have q4 : Reads x vd.ix.pt2 inp.pt2 := by
    rw [hx]; exact exVal_reads r4 (by omega) (by rw [hI.pt2]; omega)
  have q5 : Reads x vd.ix.sk2 (coeffs inp.sk2) := by
    rw [hx]; exact exVal_reads r5 (by omega) (by rw [coeffs_length, hI.sk2]; omega)
  have z0 : ∀ k < 10, ∀ j < 128, eltAt x (260 * k) j = 0 := by
    intro k hk j hj
    rw [hx]; exact exVal_elt _ _ _ k hk j hj
  have zy : ∀ j < 64, eltAt x vd.ix.y j = vd'.z.getD j 0 := by
    intro j hj
    rw [hx]; exact exVal_y (by omega) j (by omega)
  have m0 : ∀ i j, C.decR i j = 0 := fun i j => by rw [← hC]; exact zero_matrix hz _ _ _ _ _ _
  have m1 : ∀ i j, C.enc.R1 i j = 0 := fun i j => by rw [← hC]; exact zero_matrix hz _ _ _ _ _ _
  have m2 : ∀ i j, C.enc.R2 i j = 0 := fun i j => by rw [← hC]; exact zero_matrix hz _ _ _ _ _ _
  have m3 : ∀ i j, C.enc.R3 i j = 0 := fun i j => by rw [← hC]; exact zero_matrix hz _ _ _ _ _ _
  have m4 : ∀ i j, C.key.R1 i j = 0 := fun i j => by rw [← hC]; exact zero_matrix hz _ _ _ _ _ _
  have m5 : ∀ i j, C.key.R2 i j = 0 := fun i j => by rw [← hC]; exact zero_matrix hz _ _ _ _ _ _
  have m6 : ∀ i j, C.smallR i j = 0 := fun i j => by rw [← hC]; exact zero_matrix hz _ _ _ _ _ _
  have dz : ∀ a b, a < 10 → b < 10 → ∀ j < 128, digits x (260 * a) (260 * b) P.radix j = 0 := by
    intro a b ha hb j hj
    unfold digits
    rw [z0 a ha j hj, z0 b hb j hj, smul_zero, add_zero]
  have k0 : ∀ j < 128, (roundEqs P inp vd.ix x C vd'.z).dec j = 0 := by
    intro j hj
    unfold roundEqs
    dsimp only
    rw [hL.dCompLo, hL.dCompHi, dz 1 0 (by norm_num) (by norm_num) j hj, zero_sub, neg_eq_zero]
    exact Finset.sum_eq_zero fun i _ => by rw [m0, mul_zero]
  have k1 : ∀ j < 128, (roundEqs P inp vd.ix x C vd'.z).enc1 j = 0 := by
    intro j hj
    unfold roundEqs
    dsimp only
    rw [hL.eComp1Lo, hL.eComp1Hi, dz 4 3 (by norm_num) (by norm_num) j hj, zero_sub, neg_eq_zero]
    exact Finset.sum_eq_zero fun i _ => by rw [m1, zero_mul]
  have k2 : ∀ j < 128, (roundEqs P inp vd.ix x C vd'.z).enc2 j = 0 := by
    intro j hj
    unfold roundEqs
    dsimp only
    rw [hL.eComp2Lo, hL.eComp2Hi, dz 6 5 (by norm_num) (by norm_num) j hj, zero_sub, neg_eq_zero]
    exact Finset.sum_eq_zero fun i _ => by rw [m2, zero_mul]
  have k3 : ∀ j < 128, (roundEqs P inp vd.ix x C vd'.z).enc3 j = 0 := by
    intro j hj
    unfold roundEqs
    dsimp only
    rw [hL.rComp, z0 2 (by norm_num) j hj, zero_sub, neg_eq_zero]
    exact Finset.sum_eq_zero fun i _ => by rw [m3, zero_mul]
  have k4 : ∀ j < 128, (roundEqs P inp vd.ix x C vd'.z).key1 j = 0 := by
    intro j hj
    unfold roundEqs
    dsimp only
    rw [hL.kCompLo, hL.kCompHi, dz 9 8 (by norm_num) (by norm_num) j hj, zero_sub, neg_eq_zero]
    exact Finset.sum_eq_zero fun i _ => by rw [m4, mul_zero]
  have k5 : ∀ j < 128, (roundEqs P inp vd.ix x C vd'.z).key2 j = 0 := by
    intro j hj
    unfold roundEqs
    dsimp only
    rw [hL.sk2Comp, z0 7 (by norm_num) j hj, zero_sub, neg_eq_zero]
    exact Finset.sum_eq_zero fun i _ => by rw [m5, mul_zero]
  have k6 : ∀ j < 64, (roundEqs P inp vd.ix x C vd'.z).small j = 0 := by
    intro j hj
    unfold roundEqs
    dsimp only
    rw [zy j hj, Finset.sum_eq_zero fun i _ => by rw [m6, mul_zero], add_zero, sub_self]
  have nb0 := fun {hi lo} hhi hlo => digitsBound_pos hg h5 (by omega) hb (hi := hi) (lo := lo) hhi hlo
  obtain ⟨-, -, -, f4, f5, -, -, -, f9, -⟩ := standard_facts hg h5 (by omega) hb
  have fr := hb.r
  have good : GoodRound P inp vd.ix x C vd'.z κ := by
    constructor
    · exact not_bad k0
    · exact not_bad k1
    · exact not_bad k2
    · exact not_bad k3
    · exact not_bad k4
    · exact not_bad k5
    · exact not_bad k6
    · intro _ i hi
      rw [hx]
      unfold exVal
      rw [if_pos hi]
      by_cases he : i % 260 = 256
      · rw [if_pos he]
        have h1 := normBound_small hg h5 (by omega) hb (i / 260) (by omega)
        have h2 := (normBound_range hg h5 (by omega) hb (i / 260) (by omega)).1
        have h3 := (hP.small (i / 260) (by omega)).1
        rw [valMinAbs_cast _ h3, abs_of_nonneg h2]
        omega
      · rw [if_neg he]
        simp
        exact f9
    · exact notFooled_small n0 (nb0 (by norm_num) rfl) hI.decNoise (fun i hi =>
        decNoise_eq hI.decrypts hI.sk1 hI.pt1 q1 q2 hi) hκ
    · exact notFooled_small n2 (nb0 (by norm_num) rfl) hI.encNoise1 (fun i hi =>
        encNoise1_eq hI.encrypts1 hI.encRnd q3 hi) hκ
    · exact notFooled_small n3 (nb0 (by norm_num) rfl) hI.encNoise2 (fun i hi =>
        encNoise2_eq hI.encrypts2 hI.encRnd hI.pt2 q3 q4 hi) hκ
    · exact notFooled_small n1 (by rw [show normBound P 2 = P.B_r from rfl]; omega) hI.encRnd (fun i hi =>
        q3.elt i (by rw [hI.encRnd]; exact hi)) hκ
    · exact notFooled_small n5 (nb0 (by norm_num) rfl) hI.keyNoise (fun i hi =>
        keyNoise_eq hI.keyFor hI.sk2 q5 hi) hκ
    · exact notFooled_small n4 (by rw [show normBound P 7 = P.B_sk from rfl]; omega) hI.sk2 (fun i hi =>
        q5.elt i (by rw [hI.sk2]; exact hi)) hκ
  refine ⟨x, (a1 x).2 ⟨(C69_good good.decX).2 k0, (C69_good good.encX1).2 k1, (C69_good good.encX2).2 k2,
    (C69_good good.encX3).2 k3, (C69_good good.keyX1).2 k4, (C69_good good.keyX2).2 k5, (C69_good good.smallX).2 k6, ?_⟩,
    ?_, good⟩
  · rw [resharing_eq a8 hI.pt1 hI.pt2 q2 q4]
    exact hI.reshares
  · intro k hk
    have e : vd'.normConstr[k] = ⟨List.range' (260 * k) 260, ((normBound P k ^ 2 : ℤ) : ZMod Regev.P)⟩ :=
      Option.some.inj ((List.getElem?_eq_getElem (by omega)).symm.trans (a2 k (by omega)))
    rw [e, hx]
    exact exVal_norm _ _ _ k (by omega)

/-- A run with 256 parties and values that meet all the hypotheses of `C73_round`. -/
example : ∃ (P : Params Regev.P) (b m : ℤ) (inp : RoundInput Regev.P) (vd vd' : VerifierData (ZMod Regev.P)
    (ZMod Regev.P) zeroEnv.St) (pd pd' : ProverData (ZMod Regev.P)) (fresh : Blocks (ZMod Regev.P)) (tests : ℕ → Tests)
    (small : ℕ → SmallRnd Regev.P) (x : ℕ → ZMod Regev.P),
    LengthOk zeroEnv ∧ Standard P.gk 256 ∧ BoundsClose P b m ∧ ParamsOk P ∧
    (∀ k, NoFalsePrimes (tests k).probPrime) ∧ Sized P inp ∧ Setup P vd pd ∧ (∀ c ∈ vd.linConstr, c = ⟨[], 0⟩) ∧
    proveRound zeroEnv P fresh tests small inp vd pd = .ok (vd', pd') ∧ (∀ c ∈ vd'.linConstr, LinSat c x) ∧
    (∀ k (hk : k < vd'.normConstr.length), QuadSat vd'.normConstr[k] x x) ∧
    GoodRound P inp vd.ix x (roundChallenges zeroEnv vd.mer P.gk.kay P.gk.enn P.gk.tee vd'.com vd'.z) vd'.z 0 := by
  obtain ⟨k, hk⟩ := kernel_exists (ZMod Regev.P)
  have hb : Precise (verifierBounds Regev.delta) 256 := by
    intro gk H hs
    obtain ⟨P, b, m, h1, h2, h3, h4, h5⟩ := C67_model Regev.delta gk H hs (by norm_num) (by norm_num)
    exact ⟨P, h1, h2, h3, h4, b, m, h5⟩
  have hz : ∀ st l n, (zeroEnv.challenge st l n).1 = List.replicate n 0 := fun _ _ _ => rfl
  have hT : ∀ k : ℕ, NoFalsePrimes ((fun _ => ⟨fun _ => false, fun _ => false⟩ : ℕ → Tests) k).probPrime :=
    fun _ p hp => by cases hp
  obtain ⟨gk0, sp, gk, inp, P, vd0, vd, pd, vd2, pd2, b, m, -, -, -, -, -, -, hr, hst, hbc, hP, hI, S, n0, n1, n2, n3, n4,
    n5⟩ := unit_round (E := zeroEnv) hz (fun i => (i : ZMod Regev.P))
    (fun i => (2 * i + 1 : ℕ)) k hk _ 256 (by norm_num) (by norm_num) hb
    ⟨by rw [C66_good_dimension.1]; norm_num, by norm_num⟩
    (fun i j => ⟨![(i : ZMod Regev.P), (j : ZMod Regev.P)]⟩) []
    ⟨1, 2, 3, 4, 5, 6, 7, 8, 9, 10, 11, 12, 13, 14, 15, 16, 17, 18, 19, 20, 21, 22, 23, 24, 25, 26, 27⟩
    ⟨1, 2, 3, 4, 5, 6, 7, 8, 9, 10, 11, 12, 13, 14, 15, 16, 17, 18, 19, 20, 21, 22, 23, 24, 25, 26, 27⟩ 7
    (tests := fun _ => ⟨fun _ => false, fun _ => false⟩) hT
  obtain ⟨x, g1, g2, g3⟩ := zero_round_good hz hst (by norm_num) (by norm_num) hbc hP hT hI S hr (by omega) n1 n2 n3 n4 n5 (κ := 0) (by norm_num)
  exact ⟨P, b, m, inp, vd, vd2, pd, pd2, _, _, _, x, fun st l n => by rw [hz, List.length_replicate], hst, hbc, hP, hT,
    ⟨hI.ctMat, hI.ctVec, hI.pt1, hI.decNoise, hI.ct1, hI.ct2, hI.pt2, hI.encRnd, hI.encNoise1,
    hI.encNoise2, hI.sk2, hI.keyNoise⟩, S.setup, S.linEmpty, hr, g1, g2, g3⟩

end
end Verif.Props
