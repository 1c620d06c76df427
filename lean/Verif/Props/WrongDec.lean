/-
C102: a party can prove a wrong decryption of an honest ciphertext.
-/
import Verif.Props.SmallGiveUp
import Verif.Props.Receiver
import Verif.Spec.WrongDec

namespace Verif.Props
open Spec Regev
open scoped BigOperators

/-! ### How many entries of one row of the challenge matrix are not zero -/

/-- The number of coefficients of row `i` of the challenge matrix that are not zero. -/
def rowWeight {n : ℕ} (buf : Fin (challengeBytes n 128) → Fin 256) (i : ℕ) : ℤ :=
  ∑ c : Fin 128, (pairTern (cellCode buf 0 i c) ^ 2 + pairTern (cellCode buf 1 i c) ^ 2)

def pairWeight (p : Fin 4 × Fin 4) : ℕ := (pairTern p.1 ^ 2 + pairTern p.2 ^ 2).toNat

theorem pairWeight_cast (p : Fin 4 × Fin 4) : (pairWeight p : ℤ) = pairTern p.1 ^ 2 + pairTern p.2 ^ 2 :=
  Int.toNat_of_nonneg (add_nonneg (sq_nonneg _) (sq_nonneg _))

theorem pairWeight_sum : ∑ p : Fin 4 × Fin 4, 4 ^ pairWeight p = 100 := by decide +kernel

/-- A bound with an exponential moment. -/
theorem row_moment (m T : ℕ) :
    Nat.card {x : Fin m → Fin 4 × Fin 4 // T ≤ ∑ c, pairWeight (x c)} * 4 ^ T ≤ 100 ^ m := by
  classical
  have e : ∑ x : Fin m → Fin 4 × Fin 4, ∏ c, 4 ^ pairWeight (x c) = 100 ^ m := by
    have := (Finset.prod_univ_sum (fun _ : Fin m => (Finset.univ : Finset (Fin 4 × Fin 4)))
      fun _ p => 4 ^ pairWeight p).symm
    rw [Fintype.piFinset_univ] at this
    rw [this, Finset.prod_congr rfl fun _ _ => pairWeight_sum, Finset.prod_const, Finset.card_univ, Fintype.card_fin]
  rw [← e, Nat.card_eq_fintype_card, Fintype.card_subtype, ← smul_eq_mul, ← Finset.sum_const]
  refine (Finset.sum_le_sum fun x hx => ?_).trans
    (Finset.sum_le_sum_of_subset_of_nonneg (Finset.subset_univ _) fun _ _ _ => Nat.zero_le _)
  rw [Finset.prod_pow_eq_pow_sum]
  exact Nat.pow_le_pow_right (by norm_num) (Finset.mem_filter.1 hx).2

theorem row_numbers : (100 ^ 128 * 2 ^ 121 : ℕ) ≤ 16 ^ 128 * 4 ^ 230 := by decide +kernel

theorem row_count {m T A B : ℕ} (h : 100 ^ m * A ≤ B * 4 ^ T) :
    Nat.card {x : Fin m → Fin 4 × Fin 4 // T ≤ ∑ c, pairWeight (x c)} * A ≤ B := by
  have h3 : 0 < 4 ^ T := by positivity
  refine Nat.le_of_mul_le_mul_right ?_ h3
  rw [mul_right_comm]
  exact (Nat.mul_le_mul_right _ (row_moment m T)).trans h

/-- Rows are independent. -/
theorem row_split {X : Type} [Finite X] {n i : ℕ} (hi : i < n) (p : X → Prop) {A B : ℕ}
    (h : Nat.card {x // p x} * A ≤ B) (hB : Nat.card X = B) :
    Nat.card {f : Fin n → X // p (f ⟨i, hi⟩)} * A ≤ Nat.card (Fin n → X) := by
  classical
  have e2 : Nat.card {f : Fin n → X // p (f ⟨i, hi⟩)} =
      Nat.card {x // p x} * Nat.card ({j : Fin n // j ≠ ⟨i, hi⟩} → X) := by
    rw [← Nat.card_prod]
    refine Nat.card_congr ?_
    refine (Equiv.subtypeEquiv (Equiv.funSplitAt (⟨i, hi⟩ : Fin n) X) (q := fun x => p x.1) fun f => Iff.rfl).trans ?_
    exact {
      toFun := fun x => (⟨x.1.1, x.2⟩, x.1.2)
      invFun := fun x => ⟨(x.1.1, x.2), x.1.2⟩
      left_inv := fun _ => rfl
      right_inv := fun _ => rfl }
  rw [e2, Nat.card_congr (Equiv.funSplitAt (⟨i, hi⟩ : Fin n) X), Nat.card_prod, hB, mul_right_comm]
  exact Nat.mul_le_mul_right _ h

theorem rowWeight_eq {n i : ℕ} (hi : i < n) (buf : Fin (challengeBytes n 128) → Fin 256) :
    rowWeight buf i = ((∑ c, pairWeight (cells buf ⟨i, hi⟩ c) : ℕ) : ℤ) := by
  push_cast
  unfold rowWeight
  refine Finset.sum_congr rfl fun c _ => ?_
  rw [pairWeight_cast]
  rfl

/-- For less than a fraction `2^-121` of the bytes of a challenge matrix, 230 or more of the 256 coefficients of a row are
not zero. -/
theorem row_rare {n i : ℕ} (hi : i < n) :
    Rare (2 ^ 121) 1 fun buf : Fin (challengeBytes n 128) → Fin 256 => 230 ≤ rowWeight buf i := by
  have gen : ∀ (T : ℕ) (A : ℕ), 100 ^ 128 * A ≤ (Nat.card (Fin 128 → Fin 4 × Fin 4)) * 4 ^ T →
      Rare A 1 fun buf : Fin (challengeBytes n 128) → Fin 256 => (T : ℤ) ≤ rowWeight buf i := by
    intro T A h
    unfold Rare
    have e : ∀ buf : Fin (challengeBytes n 128) → Fin 256, (T : ℤ) ≤ rowWeight buf i ↔
        T ≤ ∑ c, pairWeight (cells buf ⟨i, hi⟩ c) := by
      intro buf
      rw [rowWeight_eq hi]
      exact Int.ofNat_le
    rw [Nat.card_congr (Equiv.subtypeEquivRight e),
      card_cells (nr := n) (nc := 128) (by norm_num) fun f => T ≤ ∑ c, pairWeight (f ⟨i, hi⟩ c), one_mul,
      Nat.card_congr (Equiv.ofBijective _ (cells_bijective (nr := n) (nc := 128) (by norm_num)))]
    exact row_split hi (fun x : Fin 128 → Fin 4 × Fin 4 => T ≤ ∑ c, pairWeight (x c)) (row_count h) rfl
  refine gen 230 (2 ^ 121) ?_
  have : Nat.card (Fin 128 → Fin 4 × Fin 4) = 16 ^ 128 := by
    rw [Nat.card_fun, Nat.card_eq_fintype_card, Nat.card_eq_fintype_card, Fintype.card_fin, Fintype.card_prod, Fintype.card_fin]
  rw [this]
  exact row_numbers

/-! ### The norm of the compressed wrong noise -/

theorem sq_split (a y : ℤ) : 50 * (a + y) ^ 2 ≤ 51 * 50 * a ^ 2 + 51 * y ^ 2 := by nlinarith [sq_nonneg (50 * a - y)]

theorem delta_val : Regev.delta = 2 ^ 126 := by decide

theorem getD_set {α : Type} (l : List α) (i j : ℕ) (a d : α) (hi : i < l.length) :
    (l.set i a).getD j d = if j = i then a else l.getD j d := by
  rw [List.getD_eq_getElem?_getD, List.getElem?_set]
  by_cases h : j = i
  · rw [if_pos h, if_pos h.symm, if_pos hi]; rfl
  · rw [if_neg h, if_neg (Ne.symm h), ← List.getD_eq_getElem?_getD]

theorem wrong_entry {n i : ℕ} (hi : i < n) {noise : EVec Regev.P 2} (hno : noise.length = n) (ε : ℤ)
    (ρ : ℕ → Elt (ZMod Regev.P) 2) (delta : ℕ) :
    ∑ k ∈ Finset.range n, (wrongNoise delta noise i ε).getD k 0 * ρ k =
      (∑ k ∈ Finset.range n, noise.getD k 0 * ρ k) - (ε : ZMod Regev.P) • g Regev.P 2 delta * ρ i := by
  have e : ∀ k ∈ Finset.range n, (wrongNoise delta noise i ε).getD k 0 * ρ k = noise.getD k 0 * ρ k -
      (if k = i then (ε : ZMod Regev.P) • g Regev.P 2 delta * ρ i else 0) := by
    intro k _
    unfold wrongNoise
    rw [getD_set _ _ _ _ _ (by omega)]
    by_cases h : k = i
    · rw [if_pos h, if_pos h, h, sub_mul]
    · rw [if_neg h, if_neg h, sub_zero]
  rw [Finset.sum_congr rfl e, Finset.sum_sub_distrib, Finset.sum_ite_eq' _ _ _, if_pos (Finset.mem_range.2 hi)]

/-- One column. -/
theorem wrong_column {n i : ℕ} (hi : i < n) {noise : EVec Regev.P 2} (hno : noise.length = n) {ε : ℤ} (hε : ε ^ 2 = 1)
    (ρ : ℕ → Elt (ZMod Regev.P) 2) {t0 t1 : ℤ} (h0 : (ρ i).c 0 = t0) (h1 : (ρ i).c 1 = t1) :
    50 * ∑ s : Fin 2, ((∑ k ∈ Finset.range n, (wrongNoise Regev.delta noise i ε).getD k 0 * ρ k).c s).valMinAbs ^ 2 ≤
      51 * 50 * ∑ s : Fin 2, ((∑ k ∈ Finset.range n, noise.getD k 0 * ρ k).c s).valMinAbs ^ 2 +
        51 * ((t0 ^ 2 + t1 ^ 2) * (2 ^ 252 + 1)) := by
  rw [wrong_entry hi hno]
  obtain ⟨u, hu⟩ : ∃ u, u = ∑ k ∈ Finset.range n, noise.getD k 0 * ρ k := ⟨_, rfl⟩
  rw [← hu, Fin.sum_univ_two, Fin.sum_univ_two]
  have hd : (Regev.delta : ZMod Regev.P) = ((2 ^ 126 : ℤ) : ZMod Regev.P) := by rw [delta_val]; push_cast; rfl
  have a0 : |((u - (ε : ZMod Regev.P) • g Regev.P 2 Regev.delta * ρ i).c 0).valMinAbs| ≤
      |(u.c 0).valMinAbs + -(ε * (t0 - 2 ^ 126 * t1))| := by
    refine abs_le_of_cast ?_
    rw [Elt.sub_c, mul_c0, Elt.smul_c, Elt.smul_c, g_c0, g_c1, h0, h1, hd]
    push_cast
    ring
  have a1 : |((u - (ε : ZMod Regev.P) • g Regev.P 2 Regev.delta * ρ i).c 1).valMinAbs| ≤
      |(u.c 1).valMinAbs + -(ε * (t1 + 2 ^ 126 * t0))| := by
    refine abs_le_of_cast ?_
    rw [Elt.sub_c, mul_c1, Elt.smul_c, Elt.smul_c, g_c0, g_c1, h0, h1, hd]
    push_cast
    ring
  have b0 := (sq_le_sq.2 a0)
  have b1 := (sq_le_sq.2 a1)
  have c0 := sq_split (u.c 0).valMinAbs (-(ε * (t0 - 2 ^ 126 * t1)))
  have c1 := sq_split (u.c 1).valMinAbs (-(ε * (t1 + 2 ^ 126 * t0)))
  have e : (-(ε * (t0 - 2 ^ 126 * t1))) ^ 2 + (-(ε * (t1 + 2 ^ 126 * t0))) ^ 2 = (t0 ^ 2 + t1 ^ 2) * (2 ^ 252 + 1) := by
    have : (-(ε * (t0 - 2 ^ 126 * t1))) ^ 2 + (-(ε * (t1 + 2 ^ 126 * t0))) ^ 2 =
      ε ^ 2 * ((t0 ^ 2 + t1 ^ 2) * (2 ^ 252 + 1)) := by ring
    rw [this, hε, one_mul]
  rw [← e]
  linarith

/-- The compressed wrong noise is short if that of the honest noise is, and the row of the challenge matrix has enough
zeros. -/
theorem wrong_norm {n i : ℕ} (hi : i < n) {noise : EVec Regev.P 2} (hno : noise.length = n) {ε : ℤ} (hε : ε ^ 2 = 1)
    {buf : Fin (challengeBytes n 128) → Fin 256} (hg : ¬ BadLeft n noise buf) (hw : rowWeight buf i < 230) :
    50 * normSq (coeffs (compressLeft n 128 (wrongNoise Regev.delta noise i ε) (ternaryOf (bufBytes buf) n 128))) ≤
      51 * 50 * (336 * normSq (coeffs noise)) + 51 * (229 * (2 ^ 252 + 1)) := by
  have hc : ∀ v : EVec Regev.P 2, normSq (coeffs (compressLeft n 128 v (ternaryOf (bufBytes buf) n 128))) =
      ∑ j : Fin 128, ∑ s : Fin 2, ((∑ k ∈ Finset.range n, v.getD k 0 * ternaryOf (bufBytes buf) n 128 k j).c s).valMinAbs ^ 2 := by
    intro v
    rw [normSq_coeffs]
    have hl : (compressLeft n 128 v (ternaryOf (bufBytes buf) n 128)).length = 128 := by simp [compressLeft]
    rw [hl, Finset.sum_range]
    refine Finset.sum_congr rfl fun j _ => ?_
    unfold compressLeft
    rw [List.getD_eq_getElem?_getD, List.getElem?_map, List.getElem?_range j.2]
    rfl
  have h1 := not_lt.1 hg
  rw [hc] at h1 ⊢
  have h2 := Finset.sum_le_sum fun (j : Fin 128) (_ : j ∈ Finset.univ) =>
    wrong_column hi hno hε (fun k => ternaryOf (bufBytes buf) n 128 k j) (ternaryOf_code buf i j 0) (ternaryOf_code buf i j 1)
  rw [← Finset.mul_sum, Finset.sum_add_distrib, ← Finset.mul_sum, ← Finset.mul_sum, ← Finset.sum_mul] at h2
  refine h2.trans (add_le_add (mul_le_mul_of_nonneg_left h1 (by norm_num)) ?_)
  refine mul_le_mul_of_nonneg_left (mul_le_mul_of_nonneg_right ?_ (by norm_num)) (by norm_num)
  have : rowWeight buf i ≤ 229 := by omega
  exact this

/-! ### The decryption proof -/

/-- Two rare properties of the same thing. -/
theorem Rare.or_same {α : Type} [Finite α] {T c d : ℕ} {p r : α → Prop} (hp : Rare T c p) (hr : Rare T d r) :
    Rare T (c + d) fun x => p x ∨ r x := by
  classical
  unfold Rare at *
  have h : Nat.card {x // p x ∨ r x} ≤ Nat.card {x // p x} + Nat.card {x // r x} := by
    have := Fintype.ofFinite α
    rw [Nat.card_eq_fintype_card, Nat.card_eq_fintype_card, Nat.card_eq_fintype_card]
    exact Fintype.card_subtype_or p r
  nlinarith [Nat.mul_le_mul_right T h]

section
variable {G : Type} [AddCommGroup G] [Module (ZMod Regev.P) G]

/-- Decryption succeeds if the compressed noise is as small as the bound says. -/
theorem dec_fit {E : Env (ZMod Regev.P) G} (hE : LengthOk E) {P : Params Regev.P} (hP : ParamsOk P)
    {tests : ℕ → Tests} (hT : ∀ k, NoFalsePrimes (tests k).probPrime) {fresh : Blocks (ZMod Regev.P)}
    {vd : VerifierData (ZMod Regev.P) G E.St} {pd : ProverData (ZMod Regev.P)} (S : Setup P vd pd)
    {ctMat : EMat Regev.P 2} {ctVec : EVec Regev.P 2} {ptxt : List (ZMod Regev.P)} {skey noise : EVec Regev.P 2}
    (hM : HasShape ctMat P.gk.kay P.gk.tee) (hV : ctVec.length = P.gk.tee)
    (hpt : ptxt.length = P.gk.tee) (hno : noise.length = P.gk.tee)
    (hk : 64 < P.gk.kay * 2) (hB : 0 ≤ P.B_dNoise)
    {buf : Fin (challengeBytes P.gk.tee 128) → Fin 256} (hA : Answers E "RegevDecX" buf)
    (hn : normSq (coeffs (compressLeft P.gk.tee 128 noise (ternaryOf (bufBytes buf) P.gk.tee 128))) ≤ P.B_dNoise ^ 2) :
    ∃ r, proveDecryption E P fresh tests vd pd ctMat ctVec ptxt skey noise = .ok r := by
  obtain ⟨hi, lo, h1, h2, -⟩ := dec_total hE hP hT S hM hV hpt hno _ rfl (skey := skey) (fresh := fresh)
  have e : ∀ com, (decChallenges E vd.mer P.gk.tee com).1 = ternaryOf (bufBytes buf) P.gk.tee 128 := fun com =>
    congrArg (fun b => ternaryOf b P.gk.tee 128) (hA _)
  rw [e] at h1
  exact h2 (C67_digits_fit P P.B_dNoise (P.gk.kay * 2) hk hB hP.radix (radix_lt hP) _ hi lo
    (by simp [compressLeft]) h1 hn)

theorem wrong_decrypts {delta kay tee : ℕ} {ctMat : EMat Regev.P 2} {ctVec : EVec Regev.P 2} {ptxt : List (ZMod Regev.P)}
    {skey noise : EVec Regev.P 2} (hpt : ptxt.length = tee) (hno : noise.length = tee)
    (hD : Decrypts delta kay tee ctMat ctVec ptxt skey noise) {i : ℕ} (hi : i < tee) (ε : ℤ) :
    Decrypts delta kay tee ctMat ctVec (ptxt.set i (ptxt.getD i 0 + ε)) skey (wrongNoise delta noise i ε) := by
  intro j hj
  unfold wrongNoise
  rw [hD j hj, getD_set _ _ _ _ _ (by omega), getD_set _ _ _ _ _ (by omega)]
  by_cases h : j = i
  · rw [if_pos h, if_pos h, h, add_smul]
    abel
  · rw [if_neg h, if_neg h]

/-- One coefficient is not larger than the norm. -/
theorem coeff_lt {v : EVec Regev.P 2} {m : ℕ} (h : normSq (coeffs v) < (2 ^ m) ^ 2) (i : ℕ) (s : Fin 2) :
    |((v.getD i 0).c s).valMinAbs| < 2 ^ m := by
  by_cases hi : i < v.length
  · rw [normSq_coeffs] at h
    have h1 := Finset.single_le_sum (f := fun i => ∑ s : Fin 2, ((v.getD i ⟨fun _ => 0⟩).c s).valMinAbs ^ 2)
      (fun i _ => Finset.sum_nonneg fun s _ => sq_nonneg _) (Finset.mem_range.2 hi)
    have h2 := Finset.single_le_sum (f := fun s : Fin 2 => ((v.getD i ⟨fun _ => 0⟩).c s).valMinAbs ^ 2)
      (fun s _ => sq_nonneg _) (Finset.mem_univ s)
    have h3 := lt_of_le_of_lt (h2.trans h1) h
    exact abs_lt_of_sq_lt_sq h3 (by positivity)
  · rw [List.getD_eq_default _ _ (by omega)]
    have : ((0 : Elt (ZMod Regev.P) 2).c s).valMinAbs = 0 := by
      rw [show (0 : Elt (ZMod Regev.P) 2).c s = 0 from rfl, ZMod.valMinAbs_zero]
    rw [this, abs_zero]
    positivity

/-- Decoding a ciphertext with short noise. -/
theorem decode_short (x : ZMod Regev.P) (e : Elt (ZMod Regev.P) 2) (he : ∀ c, |(e.c c).valMinAbs| < 2 ^ 125) :
    (decodePtxt Regev.delta (-(x • g Regev.P 2 Regev.delta + e))).1 = x := by
  have hd := C33_library x (e.c 0).valMinAbs (e.c 1).valMinAbs (he 0) (he 1)
  have ez : (-(x • g Regev.P 2 Regev.delta + e) : Elt (ZMod Regev.P) 2) =
      ⟨![-(x + ((e.c 0).valMinAbs : ZMod Regev.P)),
        -(x * (Regev.delta : ZMod Regev.P) + ((e.c 1).valMinAbs : ZMod Regev.P))]⟩ := by
    rw [ZMod.coe_valMinAbs, ZMod.coe_valMinAbs]
    apply ext2
    · rw [Elt.neg_c, Elt.add_c, Elt.smul_c, g_c0, mul_one]
      rfl
    · rw [Elt.neg_c, Elt.add_c, Elt.smul_c, g_c1]
      rfl
  rw [ez, hd]

/-- The numbers that make the attack work. -/
def RoomForError (P : Params Regev.P) (noise : EVec Regev.P 2) : Prop :=
  normSq (coeffs noise) < (2 ^ 125) ^ 2 ∧
    51 * 50 * (336 * normSq (coeffs noise)) + 51 * (229 * (2 ^ 252 + 1)) ≤ 50 * P.B_dNoise ^ 2

/-- The wrong noise fits unless one of two rare things happens. -/
theorem wrong_fits {P : Params Regev.P} {noise : EVec Regev.P 2} (hR : RoomForError P noise) {tee i : ℕ} (hi : i < tee)
    (hno : noise.length = tee) {ε : ℤ} (hε : ε = 1 ∨ ε = -1) {buf : Fin (challengeBytes tee 128) → Fin 256}
    (hg : ¬ BadLeft tee noise buf) (hw : ¬ 230 ≤ rowWeight buf i) :
    normSq (coeffs (compressLeft tee 128 (wrongNoise Regev.delta noise i ε) (ternaryOf (bufBytes buf) tee 128))) ≤
      P.B_dNoise ^ 2 := by
  have h := wrong_norm hi hno (ε := ε) (by rcases hε with rfl | rfl <;> norm_num) hg (by omega)
  have h2 := hR.2
  generalize normSq (coeffs (compressLeft tee 128 (wrongNoise Regev.delta noise i ε) (ternaryOf (bufBytes buf) tee 128))) = a at *
  linarith

/-- **C102, decryption.** The ciphertexts of a party decrypt to `ptxt` with its key, with noise that leaves room below the
bound for the noise of decryptions.  It chooses a place `i` and wants to add one to plaintext `i`, or to subtract one.  For all
but a fraction `2·2^-121` of the bytes of the challenge matrix it can make a proof of decryption to the changed plaintext: the
function for proving succeeds when it is called with the wrong plaintext and with noise from which the difference has been
subtracted, and what it records is satisfied.  The library decrypts the same ciphertext to the plaintext that was not changed. -/
theorem C102_decryption {E : Env (ZMod Regev.P) G} (hE : LengthOk E) {P : Params Regev.P} (hP : ParamsOk P)
    (hdel : P.delta = Regev.delta) {tests : ℕ → Tests} (hT : ∀ k, NoFalsePrimes (tests k).probPrime)
    (fresh : Blocks (ZMod Regev.P)) {vd : VerifierData (ZMod Regev.P) G E.St} {pd : ProverData (ZMod Regev.P)}
    (S : Setup P vd pd)
    {ctMat : EMat Regev.P 2} {ctVec : EVec Regev.P 2} {ptxt : List (ZMod Regev.P)} {skey noise : EVec Regev.P 2}
    (hM : HasShape ctMat P.gk.kay P.gk.tee) (hV : ctVec.length = P.gk.tee)
    (hpt : ptxt.length = P.gk.tee) (hsk : skey.length = P.gk.kay) (hno : noise.length = P.gk.tee)
    (hD : Decrypts P.delta P.gk.kay P.gk.tee ctMat ctVec ptxt skey noise)
    (hk : 64 < P.gk.kay * 2) (hB : 0 ≤ P.B_dNoise) (hR : RoomForError P noise) {i : ℕ} (hi : i < P.gk.tee) {ε : ℤ}
    (hε : ε = 1 ∨ ε = -1) {ptxt' : List (ZMod Regev.P)} (hpt' : ptxt' = ptxt.set i (ptxt.getD i 0 + ε))
    {noise' : EVec Regev.P 2} (hno' : noise' = wrongNoise Regev.delta noise i ε) :
    Nat.card {buf : Fin (challengeBytes P.gk.tee 128) → Fin 256 // ¬ ∃ r, proveDecryption (answering E "RegevDecX" buf) P fresh
        tests vd pd ctMat ctVec ptxt' skey noise' = .ok r} * 2 ^ 121 ≤ 2 * 256 ^ challengeBytes P.gk.tee 128 ∧
    (∀ (buf : Fin (challengeBytes P.gk.tee 128) → Fin 256) vd' pd', proveDecryption (answering E "RegevDecX" buf) P fresh
        tests vd pd ctMat ctVec ptxt' skey noise' = .ok (vd', pd') → ∀ x, Agrees pd'.linWitness x →
      SlotSat vd'.linConstr 0 x ∧ BlockRecorded P tests vd' pd' x 0 ∧ BlockRecorded P tests vd' pd' x 1 ∧
      Reads x vd.ix.sk1 (coeffs skey) ∧ Reads x vd.ix.pt1 ptxt') ∧
    (decodePtxt Regev.delta ((∑ k ∈ Finset.range P.gk.kay, skey.getD k 0 * entry ctMat k i) - ctVec.getD i 0)).1 =
      ptxt.getD i 0 ∧
    ptxt'.getD i 0 ≠ ptxt.getD i 0 := by
  subst hpt' hno'
  have hD' := wrong_decrypts hpt hno hD hi ε
  rw [hdel] at hD'
  have l1 : (ptxt.set i (ptxt.getD i 0 + ε)).length = P.gk.tee := by rw [List.length_set, hpt]
  have l2 : (wrongNoise Regev.delta noise i ε).length = P.gk.tee := by unfold wrongNoise; rw [List.length_set, hno]
  refine ⟨?_, ?_, ?_, ?_⟩
  · have h := ((rare_left hno).or_same (row_rare hi)).imp
      fun buf (hb : ¬ ∃ r, proveDecryption (answering E "RegevDecX" buf) P fresh tests vd pd ctMat ctVec
        (ptxt.set i (ptxt.getD i 0 + ε)) skey (wrongNoise Regev.delta noise i ε) = .ok r) => by
      by_contra hc
      rw [not_or] at hc
      exact hb (dec_fit (E := answering E "RegevDecX" buf) (answering_length hE _ _) hP hT S hM hV l1 l2 hk hB
        (answers_same E _ buf) (wrong_fits hR hi hno hε hc.1 hc.2))
    have e : Nat.card (Fin (challengeBytes P.gk.tee 128) → Fin 256) = 256 ^ challengeBytes P.gk.tee 128 := by
      rw [Nat.card_fun, Nat.card_eq_fintype_card, Nat.card_eq_fintype_card, Fintype.card_fin, Fintype.card_fin]
    rw [← e]
    exact h
  · intro buf vd' pd' h x hx
    obtain ⟨a, b, c, d, e, -⟩ := C43_decryption (E := answering E "RegevDecX" buf) (answering_length hE _ _) hP hT S hM hV l1
      hsk l2 (by rw [hdel]; exact hD') h x hx
    exact ⟨a, b, c, d, e⟩
  · have h := decode_short (ptxt.getD i 0) (noise.getD i 0) fun c => coeff_lt hR.1 i c
    rw [hD i hi, hdel]
    rw [show (∑ k ∈ Finset.range P.gk.kay, skey.getD k 0 * entry ctMat k i) -
      ((∑ k ∈ Finset.range P.gk.kay, skey.getD k 0 * entry ctMat k i) + ptxt.getD i 0 • g Regev.P 2 Regev.delta +
        noise.getD i 0) = -(ptxt.getD i 0 • g Regev.P 2 Regev.delta + noise.getD i 0) by abel]
    exact h
  · rw [getD_set _ _ _ _ _ (by omega), if_pos rfl]
    rcases hε with rfl | rfl <;> simp

/-! ### The library's numbers -/

/-- **C102, the library's numbers.** With 256, 512 or 1024 parties there is room for the error, if the noise of the decryptions
is as C35 says. -/
theorem C102_numbers {P : Params Regev.P} {b m : ℤ} {n : ℕ} (hn : n = 256 ∨ n = 512 ∨ n = 1024) (hg : Standard P.gk n)
    (h : BoundsClose P b m) (ht : 2 * P.gk.tee ≤ P.gk.enn) {noise : EVec Regev.P 2}
    (hno : normSq (coeffs noise) ≤ P.gk.tee * 2 * (3 * (P.gk.kay * 2) * 2 ^ P.gk.sigmaEnc1 + 2 ^ P.gk.sigmaEnc2) ^ 2) :
    RoomForError P noise := by
  obtain ⟨h1, h2⟩ := sigma_values hn
  obtain ⟨s1, s2, e1, e2, hv⟩ := params_values hn
  have hs1 : P.gk.sigmaEnc1 = s1 := by have := hg.sigma1; omega
  have hs2 : P.gk.sigmaEnc2 ≤ s2 := by have := hg.sigma2; omega
  have hkay := hg.kay
  have henn := hg.enn
  have hσ : P.gk.sigmaEnc2 = (setParams 2 n).2.2.toNat := by have := hg.sigma2; omega
  rw [← hσ] at h2
  -- the noise
  have hN : normSq (coeffs noise) ≤ 2 ^ 240 + 2 ^ 237 := by
    refine hno.trans ?_
    rw [hs1]
    have p2 : (2 : ℤ) ^ P.gk.sigmaEnc2 ≤ 2 ^ s2 := pow_le_pow_right₀ (by norm_num) hs2
    have p0 : (0 : ℤ) < 2 ^ P.gk.sigmaEnc2 := by positivity
    have t1 : (P.gk.tee : ℤ) * 2 ≤ n := by omega
    have key : ∀ (k t D : ℤ), (P.gk.kay : ℤ) = k → (n : ℤ) = t → 3 * (k * 2) * 2 ^ s1 + 2 ^ s2 ≤ D →
        t * D ^ 2 ≤ 2 ^ 240 + 2 ^ 237 →
        (P.gk.tee : ℤ) * 2 * (3 * (P.gk.kay * 2) * 2 ^ s1 + 2 ^ P.gk.sigmaEnc2) ^ 2 ≤ 2 ^ 240 + 2 ^ 237 := by
      intro k t D hk hnt hD hf
      refine le_trans (mul_le_mul (by omega) (pow_le_pow_left₀ (by positivity) (le_trans ?_ hD) 2) (by positivity)
        (by omega)) hf
      rw [hk]
      linarith
    rcases hv with ⟨rfl, a, rfl, rfl⟩ | ⟨rfl, a, rfl, rfl⟩ | ⟨rfl, a, rfl, rfl⟩
    · exact key 2944 256 (3 * (2944 * 2) * 2 ^ 97 + 2 ^ 116) (by omega) rfl le_rfl (by norm_num)
    · exact key 2982 512 (3 * (2982 * 2) * 2 ^ 95 + 2 ^ 115) (by omega) rfl le_rfl (by norm_num)
    · exact key 3000 1024 (3 * (3000 * 2) * 2 ^ 94 + 2 ^ 114) (by omega) rfl le_rfl (by norm_num)
  -- the bound
  have hd := (abs_le.1 h.dNoise).1
  have r : (18.357 : ℝ) ≤ √337 := Real.le_sqrt_of_sq_le (by norm_num)
  have t0 : (0 : ℝ) ≤ 24 * √(377 * (P.gk.kay * 2) * (P.gk.enn * 2)) * 2 ^ P.gk.sigmaEnc1 := by positivity
  have t1 : (1.7 * 18.357 : ℝ) * 2 ^ 125 ≤ 1.7 * √337 * (P.gk.enn * 2) * 2 ^ P.gk.sigmaEnc2 := by
    rw [hg.enn]
    have e : 1.7 * √337 * ((n : ℝ) * 2) * 2 ^ P.gk.sigmaEnc2 = (1.7 * √337) * (n * 2 ^ (P.gk.sigmaEnc2 + 1)) := by
      rw [pow_succ]
      ring
    rw [e]
    exact mul_le_mul (by linarith) h2 (by positivity) (by positivity)
  have hBr : (((31 * 2 ^ 125 : ℕ) : ℤ) : ℝ) ≤ P.B_dNoise := by
    push_cast
    generalize 1.7 * √337 * ((P.gk.enn : ℝ) * 2) * 2 ^ P.gk.sigmaEnc2 = a at *
    generalize 24 * √(377 * ((P.gk.kay : ℝ) * 2) * (P.gk.enn * 2)) * 2 ^ P.gk.sigmaEnc1 = c at *
    norm_num at t1 ⊢
    linarith
  have hB : ((31 * 2 ^ 125 : ℕ) : ℤ) ≤ P.B_dNoise := by exact_mod_cast hBr
  have hB2 : ((31 * 2 ^ 125 : ℕ) : ℤ) ^ 2 ≤ P.B_dNoise ^ 2 := pow_le_pow_left₀ (by positivity) hB 2
  constructor
  · norm_num at hN ⊢
    linarith
  · push_cast at hB2
    norm_num at hN hB2 ⊢
    linarith

/-! ### The whole round -/

theorem sum_shift (row v : List (ZMod Regev.P)) (d : ZMod Regev.P) (h : row.length = v.length) :
    ((row.zip (v.map fun s => s + d)).map fun p => p.1 * p.2).sum = ((row.zip v).map fun p => p.1 * p.2).sum + d * row.sum := by
  induction row generalizing v with
  | nil => simp
  | cons a row ih =>
    cases v with
    | nil => simp at h
    | cons b v =>
      simp only [List.map_cons, List.zip_cons_cons, List.sum_cons]
      rw [ih v (by simpa using h)]
      ring

theorem sum_set {n i : ℕ} (hi : i < n) (c pt : List (ZMod Regev.P)) (hpt : pt.length = n) (d : ZMod Regev.P) :
    ∑ j ∈ Finset.range n, c.getD j 0 * (pt.set i (pt.getD i 0 + d)).getD j 0 =
      (∑ j ∈ Finset.range n, c.getD j 0 * pt.getD j 0) + d * c.getD i 0 := by
  have e : ∀ j ∈ Finset.range n, c.getD j 0 * (pt.set i (pt.getD i 0 + d)).getD j 0 =
      c.getD j 0 * pt.getD j 0 + (if j = i then d * c.getD i 0 else 0) := by
    intro j _
    rw [getD_set _ _ _ _ _ (by omega)]
    by_cases h : j = i
    · rw [if_pos h, if_pos h, h]; ring
    · rw [if_neg h, if_neg h, add_zero]
  rw [Finset.sum_congr rfl e, Finset.sum_add_distrib, Finset.sum_ite_eq' _ _ _, if_pos (Finset.mem_range.2 hi)]

theorem getD_map {α β : Type} (l : List α) (f : α → β) {j : ℕ} (hj : j < l.length) (a : α) (b : β) :
    (l.map f).getD j b = f (l.getD j a) := by
  rw [List.getD_eq_getElem _ _ (by simpa using hj), List.getD_eq_getElem _ _ hj, List.getElem_map]

/-- The wrong inputs meet all equations that honest inputs meet. -/
theorem wrong_honest {P : Params Regev.P} (hdel : P.delta = Regev.delta) {inp : RoundInput Regev.P} (hI : Honest P inp)
    (hH : ∀ row ∈ P.H, row.length = 1 + P.gk.enn) (h1 : ∀ row ∈ P.H, row.sum = 0) {i : ℕ} (hi : i < P.gk.tee) (ε : ℤ) :
    Honest P (wrongInput Regev.delta inp i ε) := by
  constructor
  all_goals unfold wrongInput
  all_goals dsimp only
  · exact hI.ctMat
  · exact hI.ctVec
  · rw [List.length_set, hI.pt1]
  · exact hI.sk1
  · unfold wrongNoise; rw [List.length_set, hI.decNoise]
  · have := wrong_decrypts hI.pt1 hI.decNoise hI.decrypts hi ε
    rw [hdel] at this ⊢
    exact this
  · exact hI.ct1
  · rw [List.length_map, hI.ct2]
  · rw [List.length_map, hI.pt2]
  · exact hI.encRnd
  · exact hI.encNoise1
  · exact hI.encNoise2
  · exact hI.encrypts1
  · intro j hj
    have := hI.encrypts2 j hj
    rw [hdel] at this ⊢
    rw [getD_map _ _ (by rw [hI.ct2]; exact hj) 0, getD_map _ _ (by rw [hI.pt2]; exact hj) 0, this, add_smul]
    abel
  · exact hI.sk2
  · exact hI.keyNoise
  · exact hI.keyFor
  · intro y hy
    obtain ⟨row, hrow, rfl⟩ := List.mem_map.1 hy
    rw [sum_set hi _ _ hI.pt1]
    have e := sum_shift row ((∑ j ∈ Finset.range P.gk.tee, inp.lagrange.getD j 0 * inp.pt1.getD j 0) :: inp.pt2)
      ((ε : ZMod Regev.P) * inp.lagrange.getD i 0) (by rw [hH row hrow, List.length_cons, hI.pt2]; omega)
    rw [List.map_cons] at e
    rw [e, h1 row hrow, mul_zero, add_zero]
    exact hI.reshares _ (List.mem_map.2 ⟨row, hrow, rfl⟩)

/-- **C102, round.** An honest round of a party, and the inputs in which one plaintext is wrong by one and everything that
depends on it has been changed accordingly.  For less than a fraction `7·2^-121` of the bytes of the six challenge matrices one
of the functions before the smallness proof fails for the wrong inputs (C89: `6·2^-121` for honest inputs). -/
theorem C102_round {E : Env (ZMod Regev.P) G} (hE : LengthOk E) {P : Params Regev.P} (hP : ParamsOk P)
    (hdel : P.delta = Regev.delta) {tests : ℕ → Tests} (hT : ∀ k, NoFalsePrimes (tests k).probPrime)
    (fresh : Blocks (ZMod Regev.P)) {inp : RoundInput Regev.P} (hI : Honest P inp)
    {vd : VerifierData (ZMod Regev.P) G E.St} {pd : ProverData (ZMod Regev.P)} (S : Start E P inp.sk1 vd pd)
    (h4 : 4 ∣ P.gk.kay ∧ 4 ∣ P.gk.enn) (hpk : inp.pkNum < P.gk.enn)
    (hla : inp.lagrange.length = P.gk.tee) (hH : ∀ row ∈ P.H, row.length = 1 + P.gk.enn)
    (h1 : ∀ row ∈ P.H, row.sum = 0)
    (hl : 14 + P.H.length ≤ vd.linConstr.length) (hnn : 64 < P.gk.enn * 2) (hS : SmallInput P inp)
    (hR : RoomForError P inp.decNoise) {i : ℕ} (hi : i < P.gk.tee) {ε : ℤ} (hε : ε = 1 ∨ ε = -1) :
    Nat.card {x : RoundBytes P.gk // ¬ ∃ r, recordRound (answeringRound E x) P fresh tests (wrongInput Regev.delta inp i ε)
        vd pd = .ok r} * 2 ^ 121 ≤ 7 * Nat.card (RoundBytes P.gk) := by
  have hI' := wrong_honest hdel hI hH h1 hi ε
  have h := (((rare_left hI.decNoise).or_same (row_rare hi)).or (((rare_right h4.1 hI.encNoise1).or
    ((rare_right h4.2 hI.encNoise2).or (rare_right h4.1 hI.encRnd))).or ((rare_left hI.keyNoise).or (rare_left hI.sk2)))).imp
    fun x (hb : ¬ ∃ r, recordRound (answeringRound E x) P fresh tests (wrongInput Regev.delta inp i ε) vd pd = .ok r) => by
    by_contra hc
    simp only [not_or] at hc
    obtain ⟨⟨c0, c0'⟩, ⟨c1, c2, c3⟩, c4, c5⟩ := hc
    have S' : Start (answeringRound E x) P (wrongInput Regev.delta inp i ε).sk1 vd pd :=
      ⟨S.setup, S.linEmpty, S.linKeys, S.quadKeys, S.keyLength, S.key⟩
    have hE' : LengthOk (answeringRound E x) :=
      answering_length (answering_length (answering_length (answering_length (answering_length
        (answering_length hE _ _) _ _) _ _) _ _) _ _) _ _
    refine hb (round_of_dec hE' hP hT fresh hI' S' h4 hpk hla hH hl hnn hS.dim hS.pos_e1 hS.pos_e2 hS.pos_k hS.encRnd
      hS.encNoise1 hS.encNoise2 hS.sk2 hS.keyNoise x ?_ ?_ ?_ ?_ ?_ c1 c2 c3 c4 c5 ?_)
    · exact ((((answers_same _ _ x.2.1.1).other (by decide) _).other (by decide) _).other (by decide) _).other
        (by decide) _
    · exact (((answers_same _ _ x.2.1.2.1).other (by decide) _).other (by decide) _).other (by decide) _
    · exact ((answers_same _ _ x.2.1.2.2).other (by decide) _).other (by decide) _
    · exact (answers_same _ _ x.2.2.1).other (by decide) _
    · exact answers_same _ _ x.2.2.2
    · exact dec_fit hE' hP hT S'.setup hI'.ctMat hI'.ctVec hI'.pt1 hI'.decNoise hS.dim hS.pos_d (buf := x.1)
        ((((((answers_same E _ x.1).other (by decide) _).other (by decide) _).other (by decide) _).other
          (by decide) _).other (by decide) _) (wrong_fits hR hi hI.decNoise hε c0 c0')
  exact h

/-- **C102, acceptance.** If the party gets through a round with the wrong inputs, its four-square searches succeeded and the
aggregation challenges are good, then both final proofs are accepted, exactly as for an honest party (C64). -/
theorem C102_accepted [DecidableEq G] {E : Env (ZMod Regev.P) G} (hE : LengthOk E) {P : Params Regev.P} (hP : ParamsOk P)
    (hdel : P.delta = Regev.delta) {tests : ℕ → Tests} (hT : ∀ k, NoFalsePrimes (tests k).probPrime)
    {fresh : Blocks (ZMod Regev.P)} {small : ℕ → SmallRnd Regev.P} {inp : RoundInput Regev.P} (hI : Honest P inp)
    {vd vd' : VerifierData (ZMod Regev.P) G E.St} {pd pd' : ProverData (ZMod Regev.P)} (S : Start E P inp.sk1 vd pd)
    (hH : ∀ row ∈ P.H, row.length = 1 + P.gk.enn) (hone : ∀ row ∈ P.H, row.sum = 0) {i : ℕ} (hi : i < P.gk.tee) {ε : ℤ}
    (h : proveRound E P fresh tests small (wrongInput Regev.delta inp i ε) vd pd = .ok (vd', pd'))
    (hpad : ∀ k < 10, ¬ PadFailed P tests (coef pd'.linWitness) k)
    (tie : List (CompIter (ZMod Regev.P)) → ℕ) (coinsL coinsQ : ℕ → ZMod Regev.P × ZMod Regev.P) (wRnd : ZMod Regev.P)
    (v : ReadyToProve (ZMod Regev.P) G) (r1 r2 : ZMod Regev.P) (st1 st2 : E.St)
    (h1 : E.newChallenge vd'.mer (str "aggregateLinear") = (r1, st1))
    (h2 : E.newChallenge st1 (str "aggregateNorms") = (r2, st2))
    (hC : GoodChallenges vd' (coef pd'.linWitness) r1 r2) :
    ∃ v' vd'' pd'', aggregateProver E tie wRnd v vd' pd' = .ok (v', vd'', pd'') ∧
      (∀ rtv merL merQ pfL pfQ,
        finalProve E coinsL coinsQ v' vd'' pd'' = .ok (rtv, merL, merQ, pfL, pfQ) →
        (finalVerifyLin E rtv merL pfL = .ok true ∨
          (finalVerifyLin E rtv merL pfL = .throw ∧ (deriveLin E pfL rtv.linGs.length merL).x = 0)) ∧
        finalVerifyQuad E rtv merQ pfQ = .ok true) ∧
      ((0 ∈ finalChallenges E coinsL coinsQ v' vd'' pd'' ∧
        finalProve E coinsL coinsQ v' vd'' pd'' = .throw) ∨
       (0 ∉ finalChallenges E coinsL coinsQ v' vd'' pd'' ∧
        ∃ out, finalProve E coinsL coinsQ v' vd'' pd'' = .ok out)) :=
  C64_complete hE hP hT (wrong_honest hdel hI hH hone hi ε) S h hpad tie coinsL coinsQ wRnd v r1 r2 st1 st2 h1 h2 hC

/-! ### The driver program -/

/-- The rows of the parity check matrix sum to zero, because a constant is a sharing. -/
theorem rows_sum {ntlKernel : List (List (ZMod Regev.P)) → List (List (ZMod Regev.P))}
    (hker : ∀ G nr nc, G.length = nr → (∀ r ∈ G, r.length = nc) → GeneratesLeftKernel (ntlKernel G) G nr nc)
    {pts : List ℤ} {t : ℕ} (ht : 1 ≤ t) {sp : SharingParams (ZMod Regev.P)}
    (hsp : SharingParams.make ntlKernel pts t = .ok sp) (hlen : ∀ row ∈ sp.H, row.length = 1 + pts.length) :
    ∀ row ∈ sp.H, row.sum = 0 := by
  obtain ⟨sp', hsp', -, -, h⟩ := C24_parity_check ntlKernel hker pts t ht
  rw [hsp] at hsp'
  obtain rfl := Res.ok.inj hsp'
  intro row hrow
  have hv : ValidSharing t pts (List.replicate (pts.length + 1) (1 : ZMod Regev.P)) := by
    refine ⟨1, ?_, ?_⟩
    · rw [Polynomial.degree_one]
      exact_mod_cast ht
    · rw [List.replicate_succ, Polynomial.eval_one]
      congr 1
      simp
  have h1 := (h _ (by simp)).2 hv _ (List.mem_map.2 ⟨row, hrow, rfl⟩)
  have h2 := sum_shift row (List.replicate (pts.length + 1) 0) 1 (by rw [hlen row hrow, List.length_replicate]; omega)
  rw [List.map_replicate, zero_add, h1] at h2
  have h3 : ((row.zip (List.replicate (pts.length + 1) (0 : ZMod Regev.P))).map fun p => p.1 * p.2).sum = 0 := by
    refine List.sum_eq_zero fun y hy => ?_
    obtain ⟨⟨a, b⟩, hp, rfl⟩ := List.mem_map.1 hy
    have := List.eq_of_mem_replicate (List.of_mem_zip hp).2
    dsimp only at this ⊢
    rw [this, mul_zero]
  rw [h3, zero_add, one_mul] at h2
  exact h2.symm

/-- Lagrange coefficients are not zero. -/
theorem lagrange_ne_zero {m : ℕ} (hm : m < Regev.P) (h31 : m < 2 ^ 31) {l : List (ZMod Regev.P)}
    (h : lagrangeCoeffs (interval 1 ((m : ℤ) + 1)) = .ok l) {i : ℕ} (hi : i < m) : l.getD i 0 ≠ 0 := by
  have good := interval_good (q := Regev.P) m hm h31
  unfold lagrangeCoeffs at h
  rw [lagrangeOuter_eq (F := ZMod Regev.P) _ _ good.range good.inj] at h
  obtain rfl := Res.ok.inj h
  have hl : (interval 1 ((m : ℤ) + 1)).length = m := by rw [interval_get]; simp
  rw [getD_map _ _ (by rw [hl]; exact hi) 0]
  have hx : (interval 1 ((m : ℤ) + 1)).getD i 0 ∈ interval 1 ((m : ℤ) + 1) := by
    rw [List.getD_eq_getElem _ _ (by rw [hl]; exact hi)]
    exact List.getElem_mem _
  refine div_ne_zero ?_ ?_
  · rw [Ne, List.prod_eq_zero_iff]
    intro hz
    obtain ⟨x, hx', e⟩ := List.mem_map.1 hz
    exact good.ne_zero x (List.mem_filter.1 hx').1 e
  · rw [Ne, List.prod_eq_zero_iff]
    intro hz
    obtain ⟨x, hx', e⟩ := List.mem_map.1 hz
    obtain ⟨hx1, hx2⟩ := List.mem_filter.1 hx'
    have hne : x ≠ (interval 1 ((m : ℤ) + 1)).getD i 0 := by simpa using hx2
    rw [Int.cast_sub, sub_eq_zero] at e
    exact good.inj _ hx1 _ hx hne e

/-- The Lagrange coefficients of the driver program. -/
theorem inputs_lagrange {delta : ℕ} {gk0 gk : GlobalKey Regev.P 2} {party : ℕ} {C : MainCoins Regev.P}
    {inp : RoundInput Regev.P} {wrong : Bool} (h : mainInputs delta gk0 party C = .ok (gk, inp, wrong)) :
    lagrangeCoeffs (interval 1 ((gk.tee : ℤ) + 1)) = .ok inp.lagrange := by
  unfold mainInputs at h
  obtain ⟨⟨gk', ks⟩, h1, h⟩ := Res.bind_eq_ok.1 h
  simp only at h
  obtain ⟨ptxt1, h2, h⟩ := Res.bind_eq_ok.1 h
  obtain ⟨ctxt1, h3, h⟩ := Res.bind_eq_ok.1 h
  obtain ⟨⟨sk, noise⟩, h4, h⟩ := Res.bind_eq_ok.1 h
  obtain ⟨dec, h5, h⟩ := Res.bind_eq_ok.1 h
  obtain ⟨wr, h6, h⟩ := Res.bind_eq_ok.1 h
  obtain ⟨ptxt3, h7, h⟩ := Res.bind_eq_ok.1 h
  obtain ⟨⟨ct2, r, e1, e2⟩, h8, h⟩ := Res.bind_eq_ok.1 h
  simp only at h
  obtain ⟨ctMat, h9, h⟩ := Res.bind_eq_ok.1 h
  obtain ⟨ctVec, h10, h⟩ := Res.bind_eq_ok.1 h
  obtain ⟨lagrange, h11, h⟩ := Res.bind_eq_ok.1 h
  obtain ⟨hgk, hrest⟩ := Prod.mk.inj (Res.ok.inj h)
  obtain ⟨rfl, -⟩ := Prod.mk.inj hrest
  subst hgk
  exact h11

/-- What else the driver program has established when the proofs begin. -/
theorem program_more [DecidableEq G] {E : Env (ZMod Regev.P) G} (getG getH : ℕ → G)
    (ntlKernel : List (List (ZMod Regev.P)) → List (List (ZMod Regev.P)))
    (hker : ∀ G nr nc, G.length = nr → (∀ r ∈ G, r.length = nc) → LeftKernelBasis (ntlKernel G) G nr nc)
    {n : ℕ} (hn : n = 256 ∨ n = 1024) {crs : ℕ → ℕ → Elt (ZMod Regev.P) 2} {party : ℕ} {C : MainCoins Regev.P}
    {gk0 gk : GlobalKey Regev.P 2} {sp : SharingParams (ZMod Regev.P)} {inp : RoundInput Regev.P} {P : Params Regev.P}
    {mer : E.St} {rnd0 : Blocks (ZMod Regev.P)} {r : ZMod Regev.P} {vd0 vd : VerifierData (ZMod Regev.P) G E.St}
    {pd : ProverData (ZMod Regev.P)}
    (hnew : GlobalKey.new (setParams 2 n).1 n (setParams 2 n).2.1 (setParams 2 n).2.2 crs = .ok gk0)
    (hsp : SharingParams.make ntlKernel (interval 1 ((gk0.enn : ℤ) + 1)) gk0.tee = .ok sp)
    (hin : mainInputs Regev.delta gk0 party C = .ok (gk, inp, false))
    (hb : verifierBounds Regev.delta gk sp.H = .ok P) (hv : newVerifierData getG getH P mer = .ok vd0)
    (hc : commitKey E inp.sk1 r vd0 (newProverData rnd0) = .ok (vd, pd)) {i : ℕ} (hi : i < P.gk.tee) :
    P.delta = Regev.delta ∧ (4 ∣ P.gk.kay ∧ 4 ∣ P.gk.enn) ∧ inp.pkNum < P.gk.enn ∧ inp.lagrange.length = P.gk.tee ∧
    (∀ row ∈ P.H, row.length = 1 + P.gk.enn) ∧ (∀ row ∈ P.H, row.sum = 0) ∧ 14 + P.H.length ≤ vd.linConstr.length ∧
    64 < P.gk.enn * 2 ∧ SmallInput P inp ∧ RoomForError P inp.decNoise ∧ inp.lagrange.getD i 0 ≠ 0 := by
  have h5 : 5 ≤ n := by omega
  have hn30 : n < 2 ^ 30 := by omega
  obtain ⟨hst, hP, hI, S⟩ := program_facts getG getH ntlKernel hker h5 hn30 hnew hsp hin hb hv hc
  have hst0 := new_standard hnew
  have hker' : ∀ G nr nc, G.length = nr → (∀ r ∈ G, r.length = nc) → GeneratesLeftKernel (ntlKernel G) G nr nc :=
    fun G nr nc a b => (hker G nr nc a b).1
  obtain ⟨hs0, hn0, hk, hen, -, -, -⟩ := new_shaped _ _ _ _ _ _ hnew
  obtain ⟨ht, hte, hk0, he0⟩ := new_tee hnew
  have henn := hst0.enn
  have hnP : ((n : ℕ) : ℤ) < Regev.P := by
    have : (2 : ℤ) ^ 30 < (Regev.P : ℕ) := by unfold Regev.P; norm_num
    omega
  obtain ⟨g1, g2, g3, g4, g5⟩ := mainInputs_gk hs0 hn0 hin
  obtain ⟨P', b, m, b0, b1, b2, b3, hbc⟩ := C67_model Regev.delta gk sp.H hst h5 hn30
  rw [hb] at b0
  obtain rfl := Res.ok.inj b0
  obtain ⟨-, -, epk, hpk, hla, ek, ee, et, hsh⟩ := C66_inputs Regev.delta (by unfold Regev.delta; norm_num) _ _ _ _ crs
    gk0 hnew hnP (by omega) ntlKernel hker' sp hsp party _ gk inp hin P b1 b2 b3
  have hstP : Standard P.gk n := by rw [b1]; exact hst
  have hennP := hstP.enn
  obtain ⟨-, -, -, -, -, -, -, -, -, -, -, -, hkk⟩ := standard_facts hstP h5 hn30 hbc
  have htn : 2 * P.gk.tee ≤ P.gk.enn := by
    rw [b1, et, ee]
    exact new_tee_half hnew
  have hgood := interval_good (q := Regev.P) gk0.enn (by omega) (by omega)
  have hpts : (interval 1 ((gk0.enn : ℤ) + 1)).length = gk0.enn := by
    rw [interval_get]; simp
  have ht1 : 1 ≤ gk0.tee := by
    rw [b1, et] at hi
    omega
  have hrows := C24_rows ntlKernel hker _ hgood gk0.tee ht1 (by rw [hpts]; omega) sp hsp
  rw [hpts] at hrows
  have hrow : ∀ row ∈ P.H, row.length = 1 + P.gk.enn := by
    rw [b2]
    intro row hrow
    unfold SharingParams.make genMatrix at hsp
    rw [if_neg (by omega)] at hsp
    obtain rfl := Res.ok.inj hsp
    have := (hker' _ (gk0.enn + 1) gk0.tee (by simp [hpts]) (by
      intro r hr
      rcases List.mem_cons.1 hr with rfl | hr
      · simp; omega
      · obtain ⟨ep, -, rfl⟩ := List.mem_map.1 hr
        exact genRow_length _ _ _)).1 row hrow
    rw [this, b1, ee, add_comm]
  have hone : ∀ row ∈ P.H, row.sum = 0 := by
    rw [b2]
    refine rows_sum hker' ht1 hsp fun row hr => ?_
    rw [hpts, hrow row (by rw [b2]; exact hr), b1, ee]
  obtain ⟨v1, v2, p2, h1, h2, -, hlen⟩ := C64_start E P getG getH mer rnd0 inp.sk1 r hI.sk1 (by omega) (by
    obtain ⟨ix, hix⟩ := (C39_defined P.gk.kay 2 P.gk.enn P.gk.tee).2 (by omega)
    unfold setIndexes at hix
    simp only at hix
    split at hix
    · assumption
    · cases hix)
  rw [hv] at h1
  obtain rfl := Res.ok.inj h1
  rw [hc] at h2
  obtain ⟨rfl, rfl⟩ := Prod.mk.inj (Res.ok.inj h2)
  have hdiv : 4 ∣ P.gk.kay ∧ 4 ∣ P.gk.enn := by
    have := hstP.kay
    rw [hennP]
    rcases hn with rfl | rfl
    · rw [C66_good_dimension.1] at this
      exact ⟨by omega, by norm_num⟩
    · rw [C66_good_dimension.2] at this
      exact ⟨by omega, by norm_num⟩
  have hR : RoomForError P inp.decNoise := by
    obtain ⟨-, -, -, -, -, i6⟩ := inputs_small (C35_setParams n (by omega) hn30).2.2.2 hnew hin
    rw [← b1] at i6
    exact C102_numbers (by omega) hstP hbc htn i6
  have hlag : inp.lagrange.getD i 0 ≠ 0 := by
    refine lagrange_ne_zero ?_ ?_ (inputs_lagrange hin) (by rw [← b1]; exact hi)
    · rw [← b1]; omega
    · rw [← b1]; omega
  exact ⟨b3, hdiv, by rw [epk, b1]; exact hpk, by rw [hla, b1], hrow, hone,
    by rw [hlen, b2, hrows, b1, ee, et]; omega, by omega, C89_inputs h5 hn30 hnew hin b1 hbc, hR, hlag⟩

/-- **C102, program.** The driver program with 256 or 1024 parties, up to the proofs of one party, all of whose values are
honest.  The party can take any place `i` and add one to plaintext `i`, or subtract one.  The library decrypts all ciphertexts to
the plaintexts that were not changed; the secret that the party shares is wrong by a nonzero amount; the wrong inputs meet all
equations (so `C102_accepted` applies); and for all but a fraction `7·2^-121` of the bytes of the challenge matrices, and then all
but a fraction `2^-66` of the randomness of the smallness proof, all proof functions succeed. -/
theorem C102_program [DecidableEq G] {E : Env (ZMod Regev.P) G} (hE : LengthOk E)
    (hB : Function.Bijective (fun s : ZMod Regev.P => s • E.base)) (getG getH : ℕ → G)
    (ntlKernel : List (List (ZMod Regev.P)) → List (List (ZMod Regev.P)))
    (hker : ∀ G nr nc, G.length = nr → (∀ r ∈ G, r.length = nc) → LeftKernelBasis (ntlKernel G) G nr nc)
    {n : ℕ} (hn : n = 256 ∨ n = 1024) {crs : ℕ → ℕ → Elt (ZMod Regev.P) 2} {party : ℕ} {C : MainCoins Regev.P}
    {gk0 gk : GlobalKey Regev.P 2} {sp : SharingParams (ZMod Regev.P)} {inp : RoundInput Regev.P} {P : Params Regev.P}
    {mer : E.St} {rnd0 : Blocks (ZMod Regev.P)} {r : ZMod Regev.P} {vd0 vd : VerifierData (ZMod Regev.P) G E.St}
    {pd : ProverData (ZMod Regev.P)} (fresh : Blocks (ZMod Regev.P))
    {tests : ℕ → Tests} (hT : ∀ k, NoFalsePrimes (tests k).probPrime)
    (hnew : GlobalKey.new (setParams 2 n).1 n (setParams 2 n).2.1 (setParams 2 n).2.2 crs = .ok gk0)
    (hsp : SharingParams.make ntlKernel (interval 1 ((gk0.enn : ℤ) + 1)) gk0.tee = .ok sp)
    (hin : mainInputs Regev.delta gk0 party C = .ok (gk, inp, false))
    (hb : verifierBounds Regev.delta gk sp.H = .ok P) (hv : newVerifierData getG getH P mer = .ok vd0)
    (hc : commitKey E inp.sk1 r vd0 (newProverData rnd0) = .ok (vd, pd))
    {i : ℕ} (hi : i < P.gk.tee) {ε : ℤ} (hε : ε = 1 ∨ ε = -1) {bad : RoundInput Regev.P}
    (hbad : bad = wrongInput Regev.delta inp i ε) :
    (∀ j < P.gk.tee, (decodePtxt Regev.delta ((∑ k ∈ Finset.range P.gk.kay, inp.sk1.getD k 0 * entry inp.ctMat k j) -
      inp.ctVec.getD j 0)).1 = inp.pt1.getD j 0) ∧
    bad.pt1.getD i 0 ≠ inp.pt1.getD i 0 ∧
    (∑ j ∈ Finset.range P.gk.tee, bad.lagrange.getD j 0 * bad.pt1.getD j 0) ≠
      ∑ j ∈ Finset.range P.gk.tee, inp.lagrange.getD j 0 * inp.pt1.getD j 0 ∧
    (∀ row ∈ P.H, row.length = 1 + P.gk.enn ∧ row.sum = 0) ∧
    P.delta = Regev.delta ∧ ParamsOk P ∧ Honest P inp ∧ Honest P bad ∧ Start E P bad.sk1 vd pd ∧
    Nat.card {y : RoundBytes P.gk // ¬ ∃ r', recordRound (answeringRound E y) P fresh tests bad vd pd = .ok r' ∧
      Nat.card {z : SmallCoins P.smlnsBits Regev.P //
          ¬ ∃ out, proveRound (answeringRound E y) P fresh tests z.streams bad vd pd = .ok out} * 2 ^ 66 ≤
        Nat.card (SmallCoins P.smlnsBits Regev.P)} * 2 ^ 121 ≤
      7 * Nat.card (RoundBytes P.gk) := by
  have h5 : 5 ≤ n := by omega
  have hn30 : n < 2 ^ 30 := by omega
  obtain ⟨hst, hP, hI, S⟩ := program_facts getG getH ntlKernel hker h5 hn30 hnew hsp hin hb hv hc
  obtain ⟨b3, hdiv, hpk, hla, hrow, hone, hl, hnn, hS, hR, hlag⟩ := program_more getG getH ntlKernel hker hn hnew hsp hin hb hv hc hi
  have hI' := wrong_honest b3 hI hrow hone hi ε
  subst hbad
  have key := C102_round hE hP b3 hT fresh hI S hdiv hpk hla hrow hone hl hnn hS hR hi hε
  have hε0 : (ε : ZMod Regev.P) ≠ 0 := by
    rcases hε with rfl | rfl <;> simp
  refine ⟨fun j hj => ?_, ?_, ?_, fun row hr => ⟨hrow row hr, hone row hr⟩, b3, hP, hI, hI', S, ?_⟩
  · have h := decode_short (inp.pt1.getD j 0) (inp.decNoise.getD j 0) fun c => coeff_lt hR.1 j c
    rw [hI.decrypts j hj, b3]
    rw [show (∑ k ∈ Finset.range P.gk.kay, inp.sk1.getD k 0 * entry inp.ctMat k j) -
      ((∑ k ∈ Finset.range P.gk.kay, inp.sk1.getD k 0 * entry inp.ctMat k j) +
        inp.pt1.getD j 0 • g Regev.P 2 Regev.delta + inp.decNoise.getD j 0) =
          -(inp.pt1.getD j 0 • g Regev.P 2 Regev.delta + inp.decNoise.getD j 0) by abel]
    exact h
  · unfold wrongInput
    dsimp only
    rw [getD_set _ _ _ _ _ (by rw [hI.pt1]; exact hi), if_pos rfl]
    simpa using hε0
  · unfold wrongInput
    dsimp only
    rw [sum_set hi _ _ hI.pt1]
    simpa using ⟨hε0, hlag⟩
  · refine count_imp key fun y hy hc' => hy ?_
    obtain ⟨⟨vd', pd'⟩, hr⟩ := hc'
    exact ⟨(vd', pd'), hr, round_answered hE hB hst h5 hn30 hb hP hT hI' S y hr⟩

end

/-- Such runs exist: 256 parties, and coins that make short but nonzero keys and noises. -/
example : ∃ (ntlKernel : List (List (ZMod Regev.P)) → List (List (ZMod Regev.P))) (crs : ℕ → ℕ → Elt (ZMod Regev.P) 2)
    (party : ℕ) (C : MainCoins Regev.P) (gk0 gk : GlobalKey Regev.P 2) (sp : SharingParams (ZMod Regev.P))
    (inp : RoundInput Regev.P) (P : Params Regev.P) (getG getH : ℕ → ZMod Regev.P) (mer : zeroEnv.St)
    (rnd0 : Blocks (ZMod Regev.P)) (r : ZMod Regev.P)
    (vd0 vd : VerifierData (ZMod Regev.P) (ZMod Regev.P) zeroEnv.St) (pd : ProverData (ZMod Regev.P)),
    (∀ G nr nc, G.length = nr → (∀ r ∈ G, r.length = nc) → LeftKernelBasis (ntlKernel G) G nr nc) ∧
    LengthOk zeroEnv ∧ Function.Bijective (fun s : ZMod Regev.P => s • zeroEnv.base) ∧
    GlobalKey.new (setParams 2 256).1 (256 : ℕ) (setParams 2 256).2.1 (setParams 2 256).2.2 crs = .ok gk0 ∧
    SharingParams.make ntlKernel (interval 1 ((gk0.enn : ℤ) + 1)) gk0.tee = .ok sp ∧
    mainInputs Regev.delta gk0 party C = .ok (gk, inp, false) ∧
    verifierBounds Regev.delta gk sp.H = .ok P ∧ newVerifierData getG getH P mer = .ok vd0 ∧
    commitKey zeroEnv inp.sk1 r vd0 (newProverData rnd0) = .ok (vd, pd) ∧ 0 < P.gk.tee := by
  obtain ⟨k, hk⟩ := kernel_exists (ZMod Regev.P)
  have hT : ∀ k : ℕ, NoFalsePrimes ((fun _ => ⟨fun _ => false, fun _ => false⟩ : ℕ → Tests) k).probPrime :=
    fun _ p hp => by cases hp
  obtain ⟨gk0, sp, gk, inp, P, vd0, vd, pd, vd2, pd2, b, m, hnew, hsp, hin, b0, hv, hc, hr, hst, hbc, hP, hI, S, -⟩ :=
    unit_round (E := zeroEnv) (fun _ _ _ => rfl) (fun i => (i : ZMod Regev.P)) (fun i => (2 * i + 1 : ℕ)) k hk _ 256
      (by norm_num) (by norm_num) (precise_bounds 256 (by norm_num) (by norm_num))
      ⟨by rw [C66_good_dimension.1]; norm_num, by norm_num⟩
      (fun i j => ⟨![(i : ZMod Regev.P), (j : ZMod Regev.P)]⟩) []
      ⟨1, 2, 3, 4, 5, 6, 7, 8, 9, 10, 11, 12, 13, 14, 15, 16, 17, 18, 19, 20, 21, 22, 23, 24, 25, 26, 27⟩
      ⟨1, 2, 3, 4, 5, 6, 7, 8, 9, 10, 11, 12, 13, 14, 15, 16, 17, 18, 19, 20, 21, 22, 23, 24, 25, 26, 27⟩ 7 hT
  refine ⟨k, _, _, _, gk0, gk, sp, inp, P, _, _, _, _, _, vd0, vd, pd, hk, fun st l n => List.length_replicate,
    ⟨fun a b h => by simpa [zeroEnv] using h, fun a => ⟨a, by simp [zeroEnv]⟩⟩, hnew, hsp, hin, b0, hv, hc, ?_⟩
  obtain ⟨gk1, hnew1, -, -, ht1⟩ := standard_exists 256 (by norm_num) (by norm_num) _
  rw [hnew] at hnew1
  obtain rfl := Res.ok.inj hnew1
  obtain ⟨hs0, hn0, -⟩ := new_shaped _ _ _ _ _ _ hnew
  obtain ⟨g1, g2, g3, g4, g5⟩ := mainInputs_gk hs0 hn0 hin
  have hg : P.gk = gk := by
    unfold verifierBounds at b0
    simp only at b0
    split at b0
    · cases b0
    · obtain rfl := Res.ok.inj b0
      rfl
  rw [hg, g3]
  exact ht1

end Verif.Props
