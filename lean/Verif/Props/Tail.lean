/-
C89: an honest prover rarely exceeds the norm bounds.
-/
import Verif.Spec.Tail
import Verif.Lemmas.TailBytes
import Verif.Props.Compress
import Verif.Props.RegevProofs

namespace Verif.Props
open Spec Regev
open scoped BigOperators

section
variable {q : ℕ} [Fact q.Prime]

theorem normSq_vec (n : ℕ) (v : EVec q 2) (hv : v.length = n) :
    ((normSq (coeffs v) : ℤ) : ℝ) = ∑ i : Fin n, ((((v.getD i 0).c 0).valMinAbs : ℝ) ^ 2 +
      (((v.getD i 0).c 1).valMinAbs : ℝ) ^ 2) := by
  subst hv
  rw [normSq_coeffs, Finset.sum_range]
  push_cast
  refine Finset.sum_congr rfl fun i _ => ?_
  rw [Fin.sum_univ_two]
  rfl

/-- Both orders of the factors: `col` gives the 128 random columns (or rows). -/
theorem count_tail {nr nc n : ℕ} (h4 : 4 ∣ nc) (v : EVec q 2) (hv : v.length = n)
    (col : (Fin nr → Fin nc → Fin 4 × Fin 4) ≃ (Fin 128 → Fin n → Fin 4 × Fin 4))
    (ρ : (Fin (challengeBytes nr nc) → Fin 256) → ℕ → ℕ → Elt (ZMod q) 2)
    (hρ : ∀ buf (j : Fin 128) (i : Fin n), (ρ buf j i).c 0 = ((pairTern (col (cells buf) j i).1 : ℤ) : ZMod q) ∧
      (ρ buf j i).c 1 = ((pairTern (col (cells buf) j i).2 : ℤ) : ZMod q)) :
    Nat.card {buf : Fin (challengeBytes nr nc) → Fin 256 // 336 * normSq (coeffs v) <
      normSq (coeffs ((List.range 128).map fun j => ∑ i ∈ Finset.range n, v.getD i 0 * ρ buf j i))} * 2 ^ 121 ≤
      256 ^ challengeBytes nr nc := by
  obtain ⟨c, hc⟩ : ∃ c : Fin n → ℝ, c = fun i : Fin n => (((v.getD i 0).c 0).valMinAbs : ℝ) := ⟨_, rfl⟩
  obtain ⟨d, hd⟩ : ∃ d : Fin n → ℝ, d = fun i : Fin n => (((v.getD i 0).c 1).valMinAbs : ℝ) := ⟨_, rfl⟩
  have ht := tail_336 c d
  rw [Fintype.card_fin] at ht
  have hN := normSq_vec n v hv
  have e : (256 : ℕ) ^ challengeBytes nr nc = (16 ^ n) ^ 128 := by
    have h := Fintype.card_congr col
    simp only [Fintype.card_pi, Fintype.card_fin, Fintype.card_prod, Finset.prod_const, Finset.card_univ] at h
    rw [card_bytes h4]
    exact h
  rw [e]
  refine le_trans (Nat.mul_le_mul_right _ ?_) ht
  have h1 := card_cells (nr := nr) (nc := nc) h4 fun e =>
    336 * (∑ i, (c i ^ 2 + d i ^ 2)) < ∑ j, (prodRe c d (col e j) ^ 2 + prodIm c d (col e j) ^ 2)
  have h2 : Nat.card {e : Fin nr → Fin nc → Fin 4 × Fin 4 //
      336 * (∑ i, (c i ^ 2 + d i ^ 2)) < ∑ j, (prodRe c d (col e j) ^ 2 + prodIm c d (col e j) ^ 2)} =
      Nat.card {e : Fin 128 → Fin n → Fin 4 × Fin 4 //
        336 * (∑ i, (c i ^ 2 + d i ^ 2)) < ∑ j, (prodRe c d (e j) ^ 2 + prodIm c d (e j) ^ 2)} :=
    Nat.card_congr (Equiv.subtypeEquiv col fun _ => Iff.rfl)
  rw [← h2, ← h1]
  refine card_imp fun buf hb => ?_
  have hb' := (Int.cast_lt (R := ℝ)).2 hb
  rw [Int.cast_mul, hN, normSq_compress, Finset.sum_range] at hb'
  have key : ∀ j : Fin 128, ((∑ s : Fin 2,
      ((∑ i ∈ Finset.range n, v.getD i 0 * ρ buf j i).c s).valMinAbs ^ 2 : ℤ) : ℝ) ≤
      prodRe c d (col (cells buf) j) ^ 2 + prodIm c d (col (cells buf) j) ^ 2 := by
    intro j
    have h := dot_le (n := n) (fun i => v.getD i 0) (fun i => ρ buf j i) (col (cells buf) j) (hρ buf j)
    rw [hc, hd]
    exact h
  have h3 := Finset.sum_le_sum fun (j : Fin 128) (_ : j ∈ Finset.univ) => key j
  rw [Int.cast_sum] at hb'
  rw [hc, hd] at h3 ⊢
  refine lt_of_lt_of_le ?_ h3
  refine lt_of_eq_of_lt ?_ hb'
  norm_num

/-- **C89, rows.** A vector is multiplied with a challenge matrix with 128 columns: for less than a fraction `2^-121` of
the byte strings that are drawn, the squared norm of the product is more than 336 times that of the vector. -/
theorem C89_left (n : ℕ) (v : EVec q 2) (hv : v.length = n) :
    Nat.card {buf : Fin (challengeBytes n 128) → Fin 256 //
      336 * normSq (coeffs v) < normSq (coeffs (compressLeft n 128 v (ternaryOf (bufBytes buf) n 128)))} * 2 ^ 121 ≤
      256 ^ challengeBytes n 128 :=
  count_tail (by norm_num) v hv (Equiv.piComm fun _ _ => Fin 4 × Fin 4)
    (fun buf j i => ternaryOf (bufBytes buf) n 128 i j)
    fun buf j i => ⟨ternaryOf_code buf i j 0, ternaryOf_code buf i j 1⟩

/-- **C89, columns.** The same for the product of a challenge matrix with 128 rows and a vector. -/
theorem C89_right (n : ℕ) (h4 : 4 ∣ n) (v : EVec q 2) (hv : v.length = n) :
    Nat.card {buf : Fin (challengeBytes 128 n) → Fin 256 //
      336 * normSq (coeffs v) < normSq (coeffs (compressRight 128 n (ternaryOf (bufBytes buf) 128 n) v))} * 2 ^ 121 ≤
      256 ^ challengeBytes 128 n := by
  have h := count_tail h4 v hv (Equiv.refl _) (fun buf j i => ternaryOf (bufBytes buf) 128 n j i)
    fun buf j i => ⟨ternaryOf_code buf j i 0, ternaryOf_code buf j i 1⟩
  refine le_trans (Nat.mul_le_mul_right _ (card_imp fun buf hb => ?_)) h
  refine lt_of_lt_of_eq hb ?_
  unfold compressRight
  exact congrArg (fun l => normSq (coeffs l)) (List.map_congr_left fun j _ =>
    Finset.sum_congr rfl fun i _ => mul_comm _ _)

/-- One of two independent choices is bad. -/
theorem card_or {α β : Type} [Finite α] [Finite β] (p : α → Prop) (r : β → Prop) :
    Nat.card {x : α × β // p x.1 ∨ r x.2} ≤ Nat.card {a // p a} * Nat.card β + Nat.card α * Nat.card {b // r b} := by
  classical
  rw [← Nat.card_prod, ← Nat.card_prod, ← Nat.card_sum]
  refine Nat.card_le_card_of_injective (fun x => if h : p x.1.1 then Sum.inl (⟨x.1.1, h⟩, x.1.2) else
    Sum.inr (x.1.1, ⟨x.1.2, x.2.resolve_left h⟩)) ?_
  rintro ⟨⟨a, b⟩, hx⟩ ⟨⟨a', b'⟩, hy⟩ h
  simp only at h
  by_cases h1 : p a <;> by_cases h2 : p a'
  · rw [dif_pos h1, dif_pos h2] at h
    simpa using h
  · rw [dif_pos h1, dif_neg h2] at h
    cases h
  · rw [dif_neg h1, dif_pos h2] at h
    cases h
  · rw [dif_neg h1, dif_neg h2] at h
    simpa using h

/-- A fraction of at most `c/T` of the elements of a finite type has a property. -/
def Rare {α : Type} (T c : ℕ) (p : α → Prop) : Prop := Nat.card {a // p a} * T ≤ c * Nat.card α

theorem Rare.or {α β : Type} [Finite α] [Finite β] {T c d : ℕ} {p : α → Prop} {r : β → Prop} (hp : Rare T c p)
    (hr : Rare T d r) : Rare T (c + d) fun x : α × β => p x.1 ∨ r x.2 := by
  unfold Rare at *
  rw [Nat.card_prod]
  nlinarith [Nat.mul_le_mul_right T (card_or p r), Nat.mul_le_mul_right (Nat.card β) hp,
    Nat.mul_le_mul_left (Nat.card α) hr]

theorem Rare.imp {α : Type} [Finite α] {T c : ℕ} {p r : α → Prop} (hr : Rare T c r) (h : ∀ a, p a → r a) :
    Rare T c p :=
  le_trans (Nat.mul_le_mul_right _ (card_imp h)) hr

/-- The squared norm of the compressed vector is too large. -/
def BadLeft (n : ℕ) (v : EVec q 2) (buf : Fin (challengeBytes n 128) → Fin 256) : Prop :=
  336 * normSq (coeffs v) < normSq (coeffs (compressLeft n 128 v (ternaryOf (bufBytes buf) n 128)))

def BadRight (n : ℕ) (v : EVec q 2) (buf : Fin (challengeBytes 128 n) → Fin 256) : Prop :=
  336 * normSq (coeffs v) < normSq (coeffs (compressRight 128 n (ternaryOf (bufBytes buf) 128 n) v))

theorem rare_left {n : ℕ} {v : EVec q 2} (hv : v.length = n) : Rare (2 ^ 121) 1 (BadLeft n v) := by
  have := C89_left n v hv
  unfold Rare BadLeft
  simpa using this

theorem rare_right {n : ℕ} (h4 : 4 ∣ n) {v : EVec q 2} (hv : v.length = n) : Rare (2 ^ 121) 1 (BadRight n v) := by
  have := C89_right n h4 v hv
  unfold Rare BadRight
  simpa using this

/-! ### The proof functions -/

theorem radix_lt {P : Params q} (hP : ParamsOk P) : P.radix < q := by
  have hs := (hP.small 1 (by norm_num)).1
  have hr := hP.radix
  have hb1 : normBound P 1 = P.radix * 16 := rfl
  rw [hb1, abs_of_nonneg (by omega)] at hs
  omega

section
variable {G : Type} [AddCommGroup G] [Module (ZMod q) G]

theorem answering_length {E : Env (ZMod q) G} (hE : LengthOk E) (label : String) {N : ℕ} (buf : Fin N → Fin 256) :
    LengthOk (answering E label buf) := by
  intro st l n
  by_cases h : l = str label ∧ n = N
  · have e : (answering E label buf).challenge st l n = (bufBytes buf, (E.challenge st l n).2) := if_pos h
    rw [e, h.2]
    simp [bufBytes]
  · have e : (answering E label buf).challenge st l n = E.challenge st l n := if_neg h
    rw [e]
    exact hE st l n

theorem answering_same (E : Env (ZMod q) G) (label : String) {N : ℕ} (buf : Fin N → Fin 256) (st : E.St) :
    ((answering E label buf).challenge st (str label) N).1 = bufBytes buf :=
  congrArg Prod.fst (if_pos ⟨rfl, rfl⟩)

theorem answering_other (E : Env (ZMod q) G) {label label' : String} (h : str label' ≠ str label) {N : ℕ}
    (buf : Fin N → Fin 256) (st : E.St) (n : ℕ) {b : Bytes} (hb : (E.challenge st (str label') n).1 = b) :
    ((answering E label buf).challenge st (str label') n).1 = b :=
  (congrArg Prod.fst (if_neg fun h' => h h'.1)).trans hb

/-- The challenges with the given label and length are answered with `buf`. -/
def Answers (E : Env (ZMod q) G) (label : String) {N : ℕ} (buf : Fin N → Fin 256) : Prop :=
  ∀ st, (E.challenge st (str label) N).1 = bufBytes buf

theorem answers_same (E : Env (ZMod q) G) (label : String) {N : ℕ} (buf : Fin N → Fin 256) :
    Answers (answering E label buf) label buf := fun st => answering_same E label buf st

theorem Answers.other {E : Env (ZMod q) G} {label label' : String} {N M : ℕ} {buf : Fin N → Fin 256}
    (h : Answers E label buf) (hne : str label ≠ str label') (buf' : Fin M → Fin 256) :
    Answers (answering E label' buf') label buf := fun st => answering_other E hne buf' st N (h st)

/-- Decryption succeeds unless its challenge is bad. -/
theorem dec_good {E : Env (ZMod q) G} (hE : LengthOk E) {P : Params q} (hP : ParamsOk P)
    {tests : ℕ → Tests} (hT : ∀ k, NoFalsePrimes (tests k).probPrime) {fresh : Blocks (ZMod q)}
    {vd : VerifierData (ZMod q) G E.St} {pd : ProverData (ZMod q)} (S : Setup P vd pd)
    {ctMat : EMat q 2} {ctVec : EVec q 2} {ptxt : List (ZMod q)} {skey noise : EVec q 2}
    (hM : HasShape ctMat P.gk.kay P.gk.tee) (hV : ctVec.length = P.gk.tee)
    (hpt : ptxt.length = P.gk.tee) (hno : noise.length = P.gk.tee)
    (hk : 64 < P.gk.kay * 2) (hB : 0 ≤ P.B_dNoise) (hn : 336 * normSq (coeffs noise) ≤ P.B_dNoise ^ 2)
    {buf : Fin (challengeBytes P.gk.tee 128) → Fin 256} (hA : Answers E "RegevDecX" buf)
    (hc : ¬ BadLeft P.gk.tee noise buf) :
    ∃ r, proveDecryption E P fresh tests vd pd ctMat ctVec ptxt skey noise = .ok r := by
  obtain ⟨hi, lo, h1, h2, -⟩ := dec_total hE hP hT S hM hV hpt hno _ rfl (skey := skey) (fresh := fresh)
  have e : ∀ com, (decChallenges E vd.mer P.gk.tee com).1 = ternaryOf (bufBytes buf) P.gk.tee 128 := fun com =>
    congrArg (fun b => ternaryOf b P.gk.tee 128) (hA _)
  rw [e] at h1
  exact h2 (C67_digits_fit P P.B_dNoise (P.gk.kay * 2) hk hB hP.radix (radix_lt hP) _ hi lo
    (by simp [compressLeft]) h1 ((not_lt.1 hc).trans hn))

/-- Encryption succeeds unless one of its challenges is bad. -/
theorem enc_good {E : Env (ZMod q) G} (hE : LengthOk E) {P : Params q} (hP : ParamsOk P)
    {tests : ℕ → Tests} (hT : ∀ k, NoFalsePrimes (tests k).probPrime) {fresh : Blocks (ZMod q)}
    {vd : VerifierData (ZMod q) G E.St} {pd : ProverData (ZMod q)} (S : Setup P vd pd)
    (h6 : SlotOk vd.linConstr 6 vd.ix.w)
    {ct1 ct2 : EVec q 2} {ptxt : List (ZMod q)} {rnd noise1 noise2 : EVec q 2}
    (hc1 : ct1.length = P.gk.kay) (hc2 : ct2.length = P.gk.enn)
    (hpt : ptxt.length = P.gk.enn) (hr : rnd.length = P.gk.kay)
    (hn1 : noise1.length = P.gk.kay) (hn2 : noise2.length = P.gk.enn)
    (h4 : 4 ∣ P.gk.kay ∧ 4 ∣ P.gk.enn) (hk : 64 < P.gk.kay * 2) (hnn : 64 < P.gk.enn * 2)
    (hB1 : 0 ≤ P.B_eNoise1) (hB2 : 0 ≤ P.B_eNoise2)
    (hs0 : 336 * normSq (coeffs rnd) ≤ P.B_r ^ 2) (hs1 : 336 * normSq (coeffs noise1) ≤ P.B_eNoise1 ^ 2)
    (hs2 : 336 * normSq (coeffs noise2) ≤ P.B_eNoise2 ^ 2)
    {u1 : Fin (challengeBytes 128 P.gk.kay) → Fin 256} {u2 : Fin (challengeBytes 128 P.gk.enn) → Fin 256}
    {u3 : Fin (challengeBytes 128 P.gk.kay) → Fin 256} (a1 : Answers E "RegevEncR1" u1) (a2 : Answers E "RegevEncR2" u2)
    (a3 : Answers E "RegevEncR3" u3) (c1 : ¬ BadRight P.gk.kay noise1 u1) (c2 : ¬ BadRight P.gk.enn noise2 u2)
    (c3 : ¬ BadRight P.gk.kay rnd u3) :
    ∃ r, proveEncryption E P fresh tests vd pd ct1 ct2 ptxt rnd noise1 noise2 = .ok r := by
  obtain ⟨hi1, lo1, hi2, lo2, d1, d2, d3, -⟩ := (enc_total hE hP hT S h6 hc1 hc2 hpt hr hn1 hn2 _ _ rfl rfl _ rfl
    (fresh := fresh)).2 h4
  have e1 : ∀ com, (encChallenges E vd.mer P.gk.kay P.gk.enn com).R1 = ternaryOf (bufBytes u1) 128 P.gk.kay :=
    fun com => congrArg (fun b => ternaryOf b 128 P.gk.kay) (a1 _)
  have e2 : ∀ com, (encChallenges E vd.mer P.gk.kay P.gk.enn com).R2 = ternaryOf (bufBytes u2) 128 P.gk.enn :=
    fun com => congrArg (fun b => ternaryOf b 128 P.gk.enn) (a2 _)
  have e3 : ∀ com, (encChallenges E vd.mer P.gk.kay P.gk.enn com).R3 = ternaryOf (bufBytes u3) 128 P.gk.kay :=
    fun com => congrArg (fun b => ternaryOf b 128 P.gk.kay) (a3 _)
  rw [e1] at d1
  rw [e2] at d2
  rw [e3] at d3
  exact d3 ⟨(not_lt.1 c3).trans hs0,
    C67_digits_fit P P.B_eNoise1 (P.gk.kay * 2) hk hB1 hP.radix (radix_lt hP) _ hi1 lo1 (by simp [compressRight]) d1
      ((not_lt.1 c1).trans hs1),
    C67_digits_fit P P.B_eNoise2 (P.gk.enn * 2) hnn hB2 hP.radix (radix_lt hP) _ hi2 lo2 (by simp [compressRight]) d2
      ((not_lt.1 c2).trans hs2)⟩

/-- Key generation succeeds unless one of its challenges is bad. -/
theorem key_good {E : Env (ZMod q) G} (hE : LengthOk E) {P : Params q} (hP : ParamsOk P)
    {tests : ℕ → Tests} (hT : ∀ k, NoFalsePrimes (tests k).probPrime) {fresh : Blocks (ZMod q)}
    {vd : VerifierData (ZMod q) G E.St} {pd : ProverData (ZMod q)} (S : Setup P vd pd)
    {pkNum : ℕ} {skey noise : EVec q 2} (hs : skey.length = P.gk.kay) (hno : noise.length = P.gk.kay)
    (hpk : pkNum < P.gk.enn) (hk : 64 < P.gk.kay * 2) (hB : 0 ≤ P.B_kNoise)
    (hs0 : 336 * normSq (coeffs skey) ≤ P.B_sk ^ 2) (hs1 : 336 * normSq (coeffs noise) ≤ P.B_kNoise ^ 2)
    {u1 u2 : Fin (challengeBytes P.gk.kay 128) → Fin 256} (a1 : Answers E "RegevKeyGenR1" u1)
    (a2 : Answers E "RegevKeyGenR2" u2) (c1 : ¬ BadLeft P.gk.kay noise u1) (c2 : ¬ BadLeft P.gk.kay skey u2) :
    ∃ r, proveKeyGen E P fresh tests vd pd pkNum skey noise = .ok r := by
  obtain ⟨hi, lo, d1, -, d2⟩ := key_total hE hP hT S hs hno _ rfl _ rfl (fresh := fresh) (pkNum := pkNum)
  have e1 : ∀ com, (keyChallenges E vd.mer P.gk.kay com).R1 = ternaryOf (bufBytes u1) P.gk.kay 128 :=
    fun com => congrArg (fun b => ternaryOf b P.gk.kay 128) (a1 _)
  have e2 : ∀ com, (keyChallenges E vd.mer P.gk.kay com).R2 = ternaryOf (bufBytes u2) P.gk.kay 128 :=
    fun com => congrArg (fun b => ternaryOf b P.gk.kay 128) (a2 _)
  rw [e1] at d1
  rw [e2] at d2
  exact (d2 ⟨(not_lt.1 c2).trans hs0, C67_digits_fit P P.B_kNoise (P.gk.kay * 2) hk hB hP.radix (radix_lt hP) _ hi lo
    (by simp [compressLeft]) d1 ((not_lt.1 c1).trans hs1)⟩).1 hpk

/-- **C89, decryption.** The bytes of the challenge matrix of a decryption proof are random.  If the squared norm of the
noise is at most `B²/336`, with `B` the bound computed by the constructor, then for less than a fraction `2^-121` of
them `proveDecryption` fails. -/
theorem C89_decryption {E : Env (ZMod q) G} (hE : LengthOk E) {P : Params q} (hP : ParamsOk P)
    {tests : ℕ → Tests} (hT : ∀ k, NoFalsePrimes (tests k).probPrime) {fresh : Blocks (ZMod q)}
    {vd : VerifierData (ZMod q) G E.St} {pd : ProverData (ZMod q)} (S : Setup P vd pd)
    {ctMat : EMat q 2} {ctVec : EVec q 2} {ptxt : List (ZMod q)} {skey noise : EVec q 2}
    (hM : HasShape ctMat P.gk.kay P.gk.tee) (hV : ctVec.length = P.gk.tee)
    (hpt : ptxt.length = P.gk.tee) (hno : noise.length = P.gk.tee)
    (hk : 64 < P.gk.kay * 2) (hB : 0 ≤ P.B_dNoise) (hn : 336 * normSq (coeffs noise) ≤ P.B_dNoise ^ 2) :
    Nat.card {buf : Fin (challengeBytes P.gk.tee 128) → Fin 256 //
      ¬ ∃ r, proveDecryption (answering E "RegevDecX" buf) P fresh tests vd pd ctMat ctVec ptxt skey noise = .ok r} *
      2 ^ 121 ≤ 256 ^ challengeBytes P.gk.tee 128 := by
  have h := (rare_left hno).imp fun buf (hb : ¬ ∃ r, proveDecryption (answering E "RegevDecX" buf) P fresh tests vd pd
      ctMat ctVec ptxt skey noise = .ok r) => by
    by_contra hc
    exact hb (dec_good (answering_length hE "RegevDecX" buf) hP hT S hM hV hpt hno hk hB hn (answers_same E _ buf) hc)
  unfold Rare at h
  simpa using h

/-- **C89, encryption.** The bytes of the three challenge matrices of an encryption proof are random.  If the squared
norms of the two noises and of the randomness are at most `B²/336`, with `B` their bounds, then for less than a fraction
`3·2^-121` of the choices `proveEncryption` fails. -/
theorem C89_encryption {E : Env (ZMod q) G} (hE : LengthOk E) {P : Params q} (hP : ParamsOk P)
    {tests : ℕ → Tests} (hT : ∀ k, NoFalsePrimes (tests k).probPrime) {fresh : Blocks (ZMod q)}
    {vd : VerifierData (ZMod q) G E.St} {pd : ProverData (ZMod q)} (S : Setup P vd pd)
    (h6 : SlotOk vd.linConstr 6 vd.ix.w)
    {ct1 ct2 : EVec q 2} {ptxt : List (ZMod q)} {rnd noise1 noise2 : EVec q 2}
    (hc1 : ct1.length = P.gk.kay) (hc2 : ct2.length = P.gk.enn)
    (hpt : ptxt.length = P.gk.enn) (hr : rnd.length = P.gk.kay)
    (hn1 : noise1.length = P.gk.kay) (hn2 : noise2.length = P.gk.enn)
    (h4 : 4 ∣ P.gk.kay ∧ 4 ∣ P.gk.enn) (hk : 64 < P.gk.kay * 2) (hnn : 64 < P.gk.enn * 2)
    (hB1 : 0 ≤ P.B_eNoise1) (hB2 : 0 ≤ P.B_eNoise2)
    (hs0 : 336 * normSq (coeffs rnd) ≤ P.B_r ^ 2) (hs1 : 336 * normSq (coeffs noise1) ≤ P.B_eNoise1 ^ 2)
    (hs2 : 336 * normSq (coeffs noise2) ≤ P.B_eNoise2 ^ 2) :
    Nat.card {x : (Fin (challengeBytes 128 P.gk.kay) → Fin 256) × (Fin (challengeBytes 128 P.gk.enn) → Fin 256) ×
        (Fin (challengeBytes 128 P.gk.kay) → Fin 256) //
      ¬ ∃ r, proveEncryption (answering (answering (answering E "RegevEncR1" x.1) "RegevEncR2" x.2.1) "RegevEncR3" x.2.2)
        P fresh tests vd pd ct1 ct2 ptxt rnd noise1 noise2 = .ok r} * 2 ^ 121 ≤
      3 * (256 ^ challengeBytes 128 P.gk.kay * (256 ^ challengeBytes 128 P.gk.enn * 256 ^ challengeBytes 128 P.gk.kay)) := by
  have h := ((rare_right h4.1 hn1).or ((rare_right h4.2 hn2).or (rare_right h4.1 hr))).imp
    fun x (hb : ¬ ∃ r, proveEncryption (answering (answering (answering E "RegevEncR1" x.1) "RegevEncR2" x.2.1)
      "RegevEncR3" x.2.2) P fresh tests vd pd ct1 ct2 ptxt rnd noise1 noise2 = .ok r) => by
    by_contra hc
    rw [not_or, not_or] at hc
    exact hb (enc_good (answering_length (answering_length (answering_length hE "RegevEncR1" x.1) "RegevEncR2" x.2.1)
      "RegevEncR3" x.2.2) hP hT S h6 hc1 hc2 hpt hr hn1 hn2 h4 hk hnn hB1 hB2 hs0 hs1 hs2
      (((answers_same E _ x.1).other (by decide) x.2.1).other (by decide) x.2.2)
      ((answers_same _ _ x.2.1).other (by decide) x.2.2) (answers_same _ _ x.2.2) hc.1 hc.2.1 hc.2.2)
  unfold Rare at h
  simpa using h

/-- **C89, key generation.** The same for the two challenge matrices of a key-generation proof. -/
theorem C89_keygen {E : Env (ZMod q) G} (hE : LengthOk E) {P : Params q} (hP : ParamsOk P)
    {tests : ℕ → Tests} (hT : ∀ k, NoFalsePrimes (tests k).probPrime) {fresh : Blocks (ZMod q)}
    {vd : VerifierData (ZMod q) G E.St} {pd : ProverData (ZMod q)} (S : Setup P vd pd)
    {pkNum : ℕ} {skey noise : EVec q 2} (hs : skey.length = P.gk.kay) (hno : noise.length = P.gk.kay)
    (hpk : pkNum < P.gk.enn) (hk : 64 < P.gk.kay * 2) (hB : 0 ≤ P.B_kNoise)
    (hs0 : 336 * normSq (coeffs skey) ≤ P.B_sk ^ 2) (hs1 : 336 * normSq (coeffs noise) ≤ P.B_kNoise ^ 2) :
    Nat.card {x : (Fin (challengeBytes P.gk.kay 128) → Fin 256) × (Fin (challengeBytes P.gk.kay 128) → Fin 256) //
      ¬ ∃ r, proveKeyGen (answering (answering E "RegevKeyGenR1" x.1) "RegevKeyGenR2" x.2) P fresh tests vd pd pkNum
        skey noise = .ok r} * 2 ^ 121 ≤
      2 * (256 ^ challengeBytes P.gk.kay 128 * 256 ^ challengeBytes P.gk.kay 128) := by
  have h := ((rare_left hno).or (rare_left hs)).imp
    fun x (hb : ¬ ∃ r, proveKeyGen (answering (answering E "RegevKeyGenR1" x.1) "RegevKeyGenR2" x.2) P fresh tests vd pd
      pkNum skey noise = .ok r) => by
    by_contra hc
    rw [not_or] at hc
    exact hb (key_good (answering_length (answering_length hE "RegevKeyGenR1" x.1) "RegevKeyGenR2" x.2) hP hT S hs hno
      hpk hk hB hs0 hs1 ((answers_same E _ x.1).other (by decide) x.2) (answers_same _ _ x.2) hc.1 hc.2)
  unfold Rare at h
  simpa using h

end

end
end Verif.Props
