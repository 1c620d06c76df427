/-
C72: what the proofs say about the ciphertext and the public key they are about.
-/
import Verif.Lemmas.Unbound
import Verif.Props.RunExists

namespace Verif.Props
open Spec Regev
open scoped BigOperators

section
variable {q : ℕ} [Fact q.Prime] {G : Type} [AddCommGroup G] [Module (ZMod q) G]

/-! ### The same proof for many statements -/

/-- **C72, first part of the ciphertext.** If `proveEncryption` succeeds on the ciphertext part `ct1`, then it gives the
same result, the same commitments, constraints, transcript and witnesses, for at least `q^(2·(kay-1))` of the
`q^(2·kay)` vectors in place of `ct1`. -/
theorem C72_encryption1 (E : Env (ZMod q) G) (P : Params q) (fresh : Blocks (ZMod q)) (tests : ℕ → Tests)
    (vd : VerifierData (ZMod q) G E.St) (pd : ProverData (ZMod q)) (ct1 ct2 : EVec q 2) (ptxt : List (ZMod q))
    (rnd noise1 noise2 : EVec q 2) (hct : ct1.length = P.gk.kay)
    (res : VerifierData (ZMod q) G E.St × ProverData (ZMod q))
    (h : proveEncryption E P fresh tests vd pd ct1 ct2 ptxt rnd noise1 noise2 = .ok res) :
    q ^ (2 * (P.gk.kay - 1)) ≤ Nat.card {c : Fin P.gk.kay → Elt (ZMod q) 2 //
      proveEncryption E P fresh tests vd pd (List.ofFn c) ct2 ptxt rnd noise1 noise2 = .ok res} :=
  (proveEncryption_ct1 E P fresh tests vd pd ct2 ptxt rnd noise1 noise2).count hct h

/-- **C72, second part of the ciphertext.** Likewise for `ct2`. -/
theorem C72_encryption2 (E : Env (ZMod q) G) (P : Params q) (fresh : Blocks (ZMod q)) (tests : ℕ → Tests)
    (vd : VerifierData (ZMod q) G E.St) (pd : ProverData (ZMod q)) (ct1 ct2 : EVec q 2) (ptxt : List (ZMod q))
    (rnd noise1 noise2 : EVec q 2) (hct : ct2.length = P.gk.enn)
    (res : VerifierData (ZMod q) G E.St × ProverData (ZMod q))
    (h : proveEncryption E P fresh tests vd pd ct1 ct2 ptxt rnd noise1 noise2 = .ok res) :
    q ^ (2 * (P.gk.enn - 1)) ≤ Nat.card {c : Fin P.gk.enn → Elt (ZMod q) 2 //
      proveEncryption E P fresh tests vd pd ct1 (List.ofFn c) ptxt rnd noise1 noise2 = .ok res} :=
  (proveEncryption_ct2 E P fresh tests vd pd ct1 ptxt rnd noise1 noise2).count hct h

/-- **C72, decryption.** Likewise for the ciphertexts `ctVec` that `proveDecryption` is about. -/
theorem C72_decryption (E : Env (ZMod q) G) (P : Params q) (fresh : Blocks (ZMod q)) (tests : ℕ → Tests)
    (vd : VerifierData (ZMod q) G E.St) (pd : ProverData (ZMod q)) (ctMat : EMat q 2) (ctVec : EVec q 2)
    (ptxt : List (ZMod q)) (skey noise : EVec q 2) (hct : ctVec.length = P.gk.tee)
    (res : VerifierData (ZMod q) G E.St × ProverData (ZMod q))
    (h : proveDecryption E P fresh tests vd pd ctMat ctVec ptxt skey noise = .ok res) :
    q ^ (2 * (P.gk.tee - 1)) ≤ Nat.card {c : Fin P.gk.tee → Elt (ZMod q) 2 //
      proveDecryption E P fresh tests vd pd ctMat (List.ofFn c) ptxt skey noise = .ok res} :=
  (proveDecryption_ctVec E P fresh tests vd pd ctMat ptxt skey noise).count hct h

/-- **C72, key generation.** Likewise for the public key, row `j` of the matrix `B` in the global key, that
`proveKeyGen` is about. -/
theorem C72_key (E : Env (ZMod q) G) (P : Params q) (fresh : Blocks (ZMod q)) (tests : ℕ → Tests)
    (vd : VerifierData (ZMod q) G E.St) (pd : ProverData (ZMod q)) (j : ℕ) (skey noise pk : EVec q 2)
    (hj : P.gk.B[j]? = some pk) (hpk : pk.length = P.gk.kay)
    (res : VerifierData (ZMod q) G E.St × ProverData (ZMod q))
    (h : proveKeyGen E P fresh tests vd pd j skey noise = .ok res) :
    q ^ (2 * (P.gk.kay - 1)) ≤ Nat.card {c : Fin P.gk.kay → Elt (ZMod q) 2 //
      proveKeyGen E { P with gk := { P.gk with B := P.gk.B.set j (List.ofFn c) } } fresh tests vd pd j skey noise =
        .ok res} := by
  have e : withKey P j pk = P := by
    unfold withKey
    obtain ⟨hl, hj⟩ := List.getElem?_eq_some_iff.1 hj
    rw [← hj, List.set_getElem_self]
  refine (proveKeyGen_pk E P fresh tests vd pd j skey noise).count (c := pk) hpk ?_
  rw [e]
  exact h

/-- **C72, a whole round.** Likewise for the new ciphertext in a round of the five proof functions: since the result is
the same, so is everything that is computed from it, the aggregation and both final proofs. -/
theorem C72_round (E : Env (ZMod q) G) (P : Params q) (fresh : Blocks (ZMod q)) (tests : ℕ → Tests)
    (small : ℕ → SmallRnd q) (inp : RoundInput q) (vd : VerifierData (ZMod q) G E.St) (pd : ProverData (ZMod q))
    (res : VerifierData (ZMod q) G E.St × ProverData (ZMod q))
    (h : proveRound E P fresh tests small inp vd pd = .ok res) :
    (inp.ct1.length = P.gk.kay → q ^ (2 * (P.gk.kay - 1)) ≤ Nat.card {c : Fin P.gk.kay → Elt (ZMod q) 2 //
      proveRound E P fresh tests small { inp with ct1 := List.ofFn c } vd pd = .ok res}) ∧
    (inp.ct2.length = P.gk.enn → q ^ (2 * (P.gk.enn - 1)) ≤ Nat.card {c : Fin P.gk.enn → Elt (ZMod q) 2 //
      proveRound E P fresh tests small { inp with ct2 := List.ofFn c } vd pd = .ok res}) :=
  ⟨fun hl => (proveRound_ct1 E P fresh tests small inp vd pd).count (c := inp.ct1) hl h,
    fun hl => (proveRound_ct2 E P fresh tests small inp vd pd).count (c := inp.ct2) hl h⟩

/-! ### Most of these statements are false -/

theorem exists_of_card {α : Type} [Finite α] (p v : α → Prop) (h : Nat.card {a // v a} < Nat.card {a // p a}) :
    ∃ a, p a ∧ ¬ v a := by
  by_contra hc
  push Not at hc
  have := Nat.card_le_card_of_injective (fun a : {a // p a} => (⟨a.1, hc a.1 a.2⟩ : {a // v a}))
    (fun a b hab => Subtype.ext (congrArg (fun z => z.1) hab))
  omega

/-- **C72, false statements about ciphertexts.** If there are fewer pairs of a vector `r` with coefficients up to `R` and
a vector `e` with coefficients up to `S` than `q^(2·(kay-1))`, then a proof for an honest ciphertext is also a proof for
some vector `ct1` that is not `A·r + e` for any such `r` and `e`, so not a ciphertext at all. -/
theorem C72_invalid (E : Env (ZMod q) G) (P : Params q) (fresh : Blocks (ZMod q)) (tests : ℕ → Tests)
    (small : ℕ → SmallRnd q) (inp : RoundInput q) (vd : VerifierData (ZMod q) G E.St) (pd : ProverData (ZMod q))
    (res : VerifierData (ZMod q) G E.St × ProverData (ZMod q))
    (h : proveRound E P fresh tests small inp vd pd = .ok res) (hl : inp.ct1.length = P.gk.kay) (R S : ℕ)
    (hRS : (2 * R + 1) ^ (2 * P.gk.kay) * (2 * S + 1) ^ (2 * P.gk.kay) < q ^ (2 * (P.gk.kay - 1))) :
    ∃ ct1 : EVec q 2, ct1.length = P.gk.kay ∧
      proveRound E P fresh tests small { inp with ct1 := ct1 } vd pd = .ok res ∧
      ∀ r e : EVec q 2, (∀ i < P.gk.kay, ∀ c, |((r.getD i 0).c c).valMinAbs| ≤ R) →
        (∀ i < P.gk.kay, ∀ c, |((e.getD i 0).c c).valMinAbs| ≤ S) → ¬ Encrypts1 P.gk.kay P.gk.A ct1 r e := by
  have h1 := (C72_round E P fresh tests small inp vd pd res h).1 hl
  have h2 := card_determined P.gk.kay R S (fun c r e => Encrypts1 P.gk.kay P.gk.A c r e) (by
    intro r e r' e' c c' h1 h2 h3 h4 i hi
    rw [h1 i hi, h2 i hi, h4 i hi]
    congr 1
    exact Finset.sum_congr rfl fun k hk => by rw [h3 k (Finset.mem_range.1 hk)])
  obtain ⟨c, hc, hn⟩ := exists_of_card _ _ (lt_of_le_of_lt h2 (lt_of_lt_of_le hRS h1))
  exact ⟨List.ofFn c, List.length_ofFn, hc, fun r e hr he hE => hn ⟨r, e, hr, he, hE⟩⟩

/-- **C72, false statements about keys.** Likewise a proof for an honest public key is also a proof for some vector that
is not `s·A + e` for any small `s` and `e`. -/
theorem C72_invalid_key (E : Env (ZMod q) G) (P : Params q) (fresh : Blocks (ZMod q)) (tests : ℕ → Tests)
    (vd : VerifierData (ZMod q) G E.St) (pd : ProverData (ZMod q)) (j : ℕ) (skey noise pk : EVec q 2)
    (hj : P.gk.B[j]? = some pk) (hpk : pk.length = P.gk.kay)
    (res : VerifierData (ZMod q) G E.St × ProverData (ZMod q))
    (h : proveKeyGen E P fresh tests vd pd j skey noise = .ok res) (R S : ℕ)
    (hRS : (2 * R + 1) ^ (2 * P.gk.kay) * (2 * S + 1) ^ (2 * P.gk.kay) < q ^ (2 * (P.gk.kay - 1))) :
    ∃ pk' : EVec q 2, pk'.length = P.gk.kay ∧
      proveKeyGen E { P with gk := { P.gk with B := P.gk.B.set j pk' } } fresh tests vd pd j skey noise = .ok res ∧
      ∀ s e : EVec q 2, (∀ i < P.gk.kay, ∀ c, |((s.getD i 0).c c).valMinAbs| ≤ R) →
        (∀ i < P.gk.kay, ∀ c, |((e.getD i 0).c c).valMinAbs| ≤ S) → ¬ KeyFor P.gk.kay P.gk.A pk' s e := by
  have h1 := C72_key E P fresh tests vd pd j skey noise pk hj hpk res h
  have h2 := card_determined P.gk.kay R S (fun c r e => KeyFor P.gk.kay P.gk.A c r e) (by
    intro r e r' e' c c' h1 h2 h3 h4 i hi
    rw [h1 i hi, h2 i hi, h4 i hi]
    congr 1
    exact Finset.sum_congr rfl fun k hk => by rw [h3 k (Finset.mem_range.1 hk)])
  obtain ⟨c, hc, hn⟩ := exists_of_card _ _ (lt_of_le_of_lt h2 (lt_of_lt_of_le hRS h1))
  exact ⟨List.ofFn c, List.length_ofFn, hc, fun r e hr he hE => hn ⟨r, e, hr, he, hE⟩⟩

end

/-! ### The numbers of the library -/

theorem library_count {k : ℕ} (hk : 41 ≤ k) :
    (2 * 2 ^ 20 + 1) ^ (2 * k) * (2 * 2 ^ 200 + 1) ^ (2 * k) < Regev.P ^ (2 * (k - 1)) := by
  have hP : 2 ^ 252 ≤ Regev.P := by unfold Regev.P; norm_num
  calc (2 * 2 ^ 20 + 1) ^ (2 * k) * (2 * 2 ^ 200 + 1) ^ (2 * k)
      = ((2 * 2 ^ 20 + 1) * (2 * 2 ^ 200 + 1)) ^ (2 * k) := (mul_pow _ _ _).symm
    _ ≤ (2 ^ 223) ^ (2 * k) := Nat.pow_le_pow_left (by norm_num) _
    _ = 2 ^ (223 * (2 * k)) := (pow_mul _ _ _).symm
    _ < 2 ^ (252 * (2 * (k - 1))) := Nat.pow_lt_pow_right (by norm_num) (by omega)
    _ = (2 ^ 252) ^ (2 * (k - 1)) := pow_mul _ _ _
    _ ≤ _ := Nat.pow_le_pow_left hP _

section
variable {G : Type} [AddCommGroup G] [Module (ZMod Regev.P) G]

/-- **C72, the driver program.** For every number of parties from 5 on, and all coins: if the program gets to the end of
its five proof functions, then its inputs were honest, and it gets to the same state, with the same commitments,
constraints, transcript and witnesses, when the new ciphertext is replaced by one whose first part is not `A·r + e` for
any `r` with coefficients up to `2^20` and any `e` with coefficients up to `2^200`. -/
theorem C72_program {E : Env (ZMod Regev.P) G} (getG getH : ℕ → G)
    (ntlKernel : List (List (ZMod Regev.P)) → List (List (ZMod Regev.P)))
    (hker : ∀ G nr nc, G.length = nr → (∀ r ∈ G, r.length = nc) → GeneratesLeftKernel (ntlKernel G) G nr nc)
    (bounds : GlobalKey Regev.P 2 → List (List (ZMod Regev.P)) → Res (Params Regev.P))
    (n : ℕ) (h5 : 5 ≤ n) (hn : n < 2 ^ 30) (hb : Precise bounds n)
    (crs : ℕ → ℕ → Elt (ZMod Regev.P) 2) (party : ℕ) (C : MainCoins Regev.P) (mer : E.St)
    (rnd0 fresh : Blocks (ZMod Regev.P)) (r : ZMod Regev.P) (tests : ℕ → Tests) (small : ℕ → SmallRnd Regev.P)
    (wrong : Bool) (P : Params Regev.P) (vd : VerifierData (ZMod Regev.P) G E.St) (pd : ProverData (ZMod Regev.P))
    (h : mainProve E getG getH ntlKernel bounds Regev.delta (setParams 2 n).1 n (setParams 2 n).2.1
      (setParams 2 n).2.2 crs party C mer rnd0 fresh r tests small = .ok (wrong, P, vd, pd)) :
    ∃ (inp : RoundInput Regev.P) (vd0 vd1 : VerifierData (ZMod Regev.P) G E.St) (pd1 : ProverData (ZMod Regev.P)),
      Honest P inp ∧ newVerifierData getG getH P mer = .ok vd0 ∧
      commitKey E inp.sk1 r vd0 (newProverData rnd0) = .ok (vd1, pd1) ∧
      proveRound E P fresh tests small inp vd1 pd1 = .ok (vd, pd) ∧
      ∃ ct1 : EVec Regev.P 2, ct1.length = P.gk.kay ∧
        proveRound E P fresh tests small { inp with ct1 := ct1 } vd1 pd1 = .ok (vd, pd) ∧
        ∀ r e : EVec Regev.P 2, (∀ i < P.gk.kay, ∀ c, |((r.getD i 0).c c).valMinAbs| ≤ 2 ^ 20) →
          (∀ i < P.gk.kay, ∀ c, |((e.getD i 0).c c).valMinAbs| ≤ 2 ^ 200) →
          ¬ Encrypts1 P.gk.kay P.gk.A ct1 r e := by
  unfold mainProve at h
  obtain ⟨gk0, hnew, h⟩ := Res.bind_eq_ok.1 h
  obtain ⟨sp, hsp, h⟩ := Res.bind_eq_ok.1 h
  obtain ⟨⟨gk, inp, wr⟩, hin, h⟩ := Res.bind_eq_ok.1 h
  simp only at h
  obtain ⟨P', hbd, h⟩ := Res.bind_eq_ok.1 h
  obtain ⟨vd0, h1, h⟩ := Res.bind_eq_ok.1 h
  obtain ⟨⟨vd1, pd1⟩, h2, h⟩ := Res.bind_eq_ok.1 h
  simp only at h
  obtain ⟨⟨vd2, pd2⟩, h3, h⟩ := Res.bind_eq_ok.1 h
  obtain ⟨e1, e⟩ := Prod.mk.inj (Res.ok.inj h)
  obtain ⟨e2, e⟩ := Prod.mk.inj e
  obtain ⟨e3, e4⟩ := Prod.mk.inj e
  simp only at e3 e4
  rw [e2] at h1 h3 hbd
  rw [e3, e4] at h3
  have hpar := (C35_setParams n (by omega) hn).2.2.2
  have hw := C66_no_error _ _ _ _ hpar crs gk0 hnew party C gk inp wr hin
  obtain ⟨hs0, hn0, -⟩ := new_shaped _ _ _ _ _ _ hnew
  obtain ⟨g1, g2, g3, g4, g5⟩ := mainInputs_gk hs0 hn0 hin
  have hst0 := new_standard hnew
  have hst : Standard gk n :=
    ⟨by rw [g1]; exact hst0.kay, by rw [g2]; exact hst0.enn, by rw [g4]; exact hst0.sigma1,
      by rw [g5]; exact hst0.sigma2⟩
  obtain ⟨P'', b0, b1, b2, b3, -⟩ := hb gk sp.H hst
  rw [hbd] at b0
  obtain rfl := Res.ok.inj b0
  rw [hw] at hin
  have hnP : ((n : ℕ) : ℤ) < Regev.P := by
    have : (2 : ℤ) ^ 30 < (Regev.P : ℕ) := by unfold Regev.P; norm_num
    omega
  obtain ⟨hI, -⟩ := C66_inputs Regev.delta (by unfold Regev.delta; norm_num) _ _ _ _ crs
    gk0 hnew hnP (by omega) ntlKernel hker sp hsp party C gk inp hin P b1 b2 b3
  have hk : 41 ≤ P.gk.kay := by
    obtain ⟨L, K, G', X, hp, -, -, -, -, hK, -⟩ := setParams_facts n (by omega) hn
    have := hst.kay
    rw [hp] at this
    rw [b1]
    dsimp only at this
    omega
  obtain ⟨ct1, c1, c2, c3⟩ := C72_invalid E P fresh tests small inp vd1 pd1 _ h3 hI.ct1 (2 ^ 20) (2 ^ 200)
    (library_count hk)
  exact ⟨inp, vd0, vd1, pd1, hI, h1, h2, h3, ct1, c1, c2, fun r e hr he => c3 r e
    (fun i hi c => by push_cast; exact hr i hi c) (fun i hi c => by push_cast; exact he i hi c)⟩

end

/-! ### The hypotheses can be met -/

/-- An honest round of the example data, with four elements in `ct1`. -/
example : ∃ vd pd res ct1, proveRound demoE demoQ demoRnd demoTests demoSmall demoInp vd pd = .ok res ∧
    proveRound demoE demoQ demoRnd demoTests demoSmall { demoInp with ct1 := ct1 } vd pd = .ok res ∧
    ∀ r e, (∀ i < 4, ∀ c, |((r.getD i 0).c c).valMinAbs| ≤ ((10 : ℕ) : ℤ)) →
      (∀ i < 4, ∀ c, |((e.getD i 0).c c).valMinAbs| ≤ ((10 : ℕ) : ℤ)) → ¬ Encrypts1 4 demoQ.gk.A ct1 r e := by
  obtain ⟨vd, pd, res, -, -, h⟩ := demo_round []
  obtain ⟨ct1, -, h2, h3⟩ := C72_invalid demoE demoQ demoRnd demoTests demoSmall demoInp vd pd res h
    demoInp_honest.ct1 10 10 (by decide)
  exact ⟨vd, pd, res, ct1, h, h2, h3⟩

/-- A run of the program with 256 parties, as in `C72_program`. -/
example : ∃ ntlKernel C small P vd pd rnd, ∃ crs : ℕ → ℕ → Elt (ZMod Regev.P) 2,
    (∀ G nr nc, G.length = nr → (∀ r ∈ G, r.length = nc) → GeneratesLeftKernel (ntlKernel G) G nr nc) ∧
    mainProve zeroEnv (fun i => (i : ZMod Regev.P)) (fun i => (2 * i + 1 : ℕ)) ntlKernel
      (verifierBounds Regev.delta) Regev.delta (setParams 2 256).1 256 (setParams 2 256).2.1 (setParams 2 256).2.2
      crs 1 C [] rnd rnd 7 (fun _ => ⟨fun _ => false, fun _ => false⟩) small = .ok (false, P, vd, pd) := by
  obtain ⟨k, C, small, P, vd, pd, h⟩ := program_run_256
  exact ⟨k, C, small, P, vd, pd, _, _, (h ⟨1, 2, 3, 4, 5, 6, 7, 8, 9, 10, 11, 12, 13, 14, 15, 16, 17, 18, 19, 20, 21, 22, 23, 24,
    25, 26, 27⟩).1, (h _).2 rfl⟩

end Verif.Props
