/-
C89: an honest prover rarely exceeds the norm bounds; a whole round and the driver program.
-/
import Verif.Spec.TailRound
import Verif.Props.Tail
import Verif.Props.Program
import Verif.Props.RunExists

namespace Verif.Props
open Spec Regev

noncomputable section

section round
variable {q : ℕ} [Fact q.Prime] {G : Type} [AddCommGroup G] [Module (ZMod q) G]

/-- The values that enter a round are so small that the compressed vectors are expected to be within the bounds: the
squared norms are at most `B²/336`, with `B` the bounds computed by the constructor. -/
structure SmallInput (P : Params q) (inp : RoundInput q) : Prop where
  dim : 64 < P.gk.kay * 2
  pos_d : 0 ≤ P.B_dNoise
  pos_e1 : 0 ≤ P.B_eNoise1
  pos_e2 : 0 ≤ P.B_eNoise2
  pos_k : 0 ≤ P.B_kNoise
  decNoise : 336 * normSq (coeffs inp.decNoise) ≤ P.B_dNoise ^ 2
  encRnd : 336 * normSq (coeffs inp.encRnd) ≤ P.B_r ^ 2
  encNoise1 : 336 * normSq (coeffs inp.encNoise1) ≤ P.B_eNoise1 ^ 2
  encNoise2 : 336 * normSq (coeffs inp.encNoise2) ≤ P.B_eNoise2 ^ 2
  sk2 : 336 * normSq (coeffs inp.sk2) ≤ P.B_sk ^ 2
  keyNoise : 336 * normSq (coeffs inp.keyNoise) ≤ P.B_kNoise ^ 2

/-- The other functions succeed after a decryption proof, unless their challenges are bad. -/
theorem round_of_dec {E : Env (ZMod q) G} (hE : LengthOk E) {P : Params q} (hP : ParamsOk P)
    {tests : ℕ → Tests} (hT : ∀ k, NoFalsePrimes (tests k).probPrime) (fresh : Blocks (ZMod q))
    {inp : RoundInput q} (hI : Honest P inp)
    {vd : VerifierData (ZMod q) G E.St} {pd : ProverData (ZMod q)} (S : Start E P inp.sk1 vd pd)
    (h4 : 4 ∣ P.gk.kay ∧ 4 ∣ P.gk.enn) (hpk : inp.pkNum < P.gk.enn)
    (hla : inp.lagrange.length = P.gk.tee) (hH : ∀ row ∈ P.H, row.length = 1 + P.gk.enn)
    (hl : 14 + P.H.length ≤ vd.linConstr.length) (hnn : 64 < P.gk.enn * 2)
    (dim : 64 < P.gk.kay * 2) (pos_e1 : 0 ≤ P.B_eNoise1) (pos_e2 : 0 ≤ P.B_eNoise2) (pos_k : 0 ≤ P.B_kNoise)
    (s0 : 336 * normSq (coeffs inp.encRnd) ≤ P.B_r ^ 2) (s1 : 336 * normSq (coeffs inp.encNoise1) ≤ P.B_eNoise1 ^ 2)
    (s2 : 336 * normSq (coeffs inp.encNoise2) ≤ P.B_eNoise2 ^ 2) (s3 : 336 * normSq (coeffs inp.sk2) ≤ P.B_sk ^ 2)
    (s4 : 336 * normSq (coeffs inp.keyNoise) ≤ P.B_kNoise ^ 2)
    (x : RoundBytes P.gk) (a1 : Answers E "RegevEncR1" x.2.1.1)
    (a2 : Answers E "RegevEncR2" x.2.1.2.1) (a3 : Answers E "RegevEncR3" x.2.1.2.2)
    (a4 : Answers E "RegevKeyGenR1" x.2.2.1) (a5 : Answers E "RegevKeyGenR2" x.2.2.2)
    (c1 : ¬ BadRight P.gk.kay inp.encNoise1 x.2.1.1) (c2 : ¬ BadRight P.gk.enn inp.encNoise2 x.2.1.2.1)
    (c3 : ¬ BadRight P.gk.kay inp.encRnd x.2.1.2.2)
    (c4 : ¬ BadLeft P.gk.kay inp.keyNoise x.2.2.1) (c5 : ¬ BadLeft P.gk.kay inp.sk2 x.2.2.2)
    (hdec : ∃ r, proveDecryption E P fresh tests vd pd inp.ctMat inp.ctVec inp.pt1 inp.sk1 inp.decNoise = .ok r) :
    ∃ r, recordRound E P fresh tests inp vd pd = .ok r := by
  unfold recordRound
  have S0 := S.setup
  obtain ⟨⟨vd1, pd1⟩, h1⟩ := hdec
  obtain ⟨L1, W1, u1, -⟩ :=
    dec_core hE hP hT S0 hI.ctMat hI.ctVec hI.pt1 hI.sk1 hI.decNoise hI.decrypts h1
  have S1 := u1.setup S0
  have e6 : vd1.linConstr[6]? = vd.linConstr[6]? := u1.linRest 6 (by simp)
  have e7 : vd1.linConstr[7]? = vd.linConstr[7]? := u1.linRest 7 (by simp)
  have h6 : ∀ j : Fin 2, vd1.linConstr.getD (6 + j.val) ⟨[], 0⟩ = ⟨[], 0⟩ := by
    intro j
    have e : vd1.linConstr.getD (6 + j.val) ⟨[], 0⟩ = vd.linConstr.getD (6 + j.val) ⟨[], 0⟩ := by
      rw [List.getD_eq_getElem?_getD, List.getD_eq_getElem?_getD]
      have : j.val = 0 ∨ j.val = 1 := by omega
      rcases this with e | e <;> rw [e]
      · rw [Nat.add_zero, e6]
      · rw [e7]
    rw [e, slot_empty S.linEmpty]
  have h6a : SlotOk vd1.linConstr 6 vd1.ix.w := by
    intro i
    rw [h6]
    exact ⟨List.Pairwise.nil, fun j hj => absurd hj List.not_mem_nil⟩
  have h6b : ∀ x, slotLhs vd1.linConstr 6 x = 0 := by
    intro x
    unfold slotLhs
    apply Elt.ext
    funext i
    simp only [h6]
    simp [linLhs]
  obtain ⟨⟨vd2, pd2⟩, h2⟩ := enc_good hE hP hT (fresh := fresh) S1 h6a hI.ct1 hI.ct2 hI.pt2
    hI.encRnd hI.encNoise1 hI.encNoise2 h4 dim hnn pos_e1 pos_e2 s0 s1 s2
    a1 a2 a3 c1 c2 c3
  obtain ⟨L2, W2, u2, -⟩ := enc_core hE hP hT S1 h6a h6b hI.ct1 hI.ct2 hI.pt2 hI.encRnd hI.encNoise1
    hI.encNoise2 hI.encrypts1 hI.encrypts2 h2
  have S2 := u2.setup S1
  obtain ⟨⟨vd3, pd3⟩, h3⟩ := key_good hE hP hT (fresh := fresh) S2 hI.sk2 hI.keyNoise hpk dim pos_k s3
    s4 a4 a5 c4 c5
  obtain ⟨L3, W3, u3, -⟩ := key_core hE hP hT S2 hI.sk2 hI.keyNoise hI.keyFor h3
  obtain ⟨lin, h5, -⟩ := (C43_reshare_meaning (P := P) (vd := vd3) (pd := pd3) (lagrange := inp.lagrange)
    (pt1 := inp.pt1) (pt2 := inp.pt2)).1 ⟨hI.pt1, hla, hI.pt2, hH, by
      rw [u3.linLength, u2.linLength, u1.linLength]; exact hl⟩
  rw [h1, Res.ok_bind]
  dsimp only
  rw [h2, Res.ok_bind]
  dsimp only
  rw [h3, Res.ok_bind]
  dsimp only
  exact ⟨_, h5⟩

theorem round_good {E : Env (ZMod q) G} (hE : LengthOk E) {P : Params q} (hP : ParamsOk P)
    {tests : ℕ → Tests} (hT : ∀ k, NoFalsePrimes (tests k).probPrime) (fresh : Blocks (ZMod q))
    {inp : RoundInput q} (hI : Honest P inp)
    {vd : VerifierData (ZMod q) G E.St} {pd : ProverData (ZMod q)} (S : Start E P inp.sk1 vd pd)
    (h4 : 4 ∣ P.gk.kay ∧ 4 ∣ P.gk.enn) (hpk : inp.pkNum < P.gk.enn)
    (hla : inp.lagrange.length = P.gk.tee) (hH : ∀ row ∈ P.H, row.length = 1 + P.gk.enn)
    (hl : 14 + P.H.length ≤ vd.linConstr.length) (hnn : 64 < P.gk.enn * 2) (hS : SmallInput P inp)
    (x : RoundBytes P.gk) (a0 : Answers E "RegevDecX" x.1) (a1 : Answers E "RegevEncR1" x.2.1.1)
    (a2 : Answers E "RegevEncR2" x.2.1.2.1) (a3 : Answers E "RegevEncR3" x.2.1.2.2)
    (a4 : Answers E "RegevKeyGenR1" x.2.2.1) (a5 : Answers E "RegevKeyGenR2" x.2.2.2)
    (c0 : ¬ BadLeft P.gk.tee inp.decNoise x.1)
    (c1 : ¬ BadRight P.gk.kay inp.encNoise1 x.2.1.1) (c2 : ¬ BadRight P.gk.enn inp.encNoise2 x.2.1.2.1)
    (c3 : ¬ BadRight P.gk.kay inp.encRnd x.2.1.2.2)
    (c4 : ¬ BadLeft P.gk.kay inp.keyNoise x.2.2.1) (c5 : ¬ BadLeft P.gk.kay inp.sk2 x.2.2.2) :
    ∃ r, recordRound E P fresh tests inp vd pd = .ok r :=
  round_of_dec hE hP hT fresh hI S h4 hpk hla hH hl hnn hS.dim hS.pos_e1 hS.pos_e2 hS.pos_k hS.encRnd hS.encNoise1
    hS.encNoise2 hS.sk2 hS.keyNoise x a1 a2 a3 a4 a5 c1 c2 c3 c4 c5
    (dec_good hE hP hT (fresh := fresh) S.setup hI.ctMat hI.ctVec hI.pt1 hI.decNoise (skey := inp.sk1) hS.dim hS.pos_d
      hS.decNoise a0 c0)

/-- **C89, round.** The bytes of the six challenge matrices of a round are random and the secret values are as small as
the bounds expect.  Then for less than a fraction `6·2^-121` of the choices one of the functions before the smallness
proof fails.  (`recordRound` is the round without the smallness proof, see `proveRound_eq`.) -/
theorem C89_round {E : Env (ZMod q) G} (hE : LengthOk E) {P : Params q} (hP : ParamsOk P)
    {tests : ℕ → Tests} (hT : ∀ k, NoFalsePrimes (tests k).probPrime) (fresh : Blocks (ZMod q))
    {inp : RoundInput q} (hI : Honest P inp)
    {vd : VerifierData (ZMod q) G E.St} {pd : ProverData (ZMod q)} (S : Start E P inp.sk1 vd pd)
    (h4 : 4 ∣ P.gk.kay ∧ 4 ∣ P.gk.enn) (hpk : inp.pkNum < P.gk.enn)
    (hla : inp.lagrange.length = P.gk.tee) (hH : ∀ row ∈ P.H, row.length = 1 + P.gk.enn)
    (hl : 14 + P.H.length ≤ vd.linConstr.length) (hnn : 64 < P.gk.enn * 2) (hS : SmallInput P inp) :
    Nat.card {x : RoundBytes P.gk // ¬ ∃ r, recordRound (answeringRound E x) P fresh tests inp vd pd = .ok r} * 2 ^ 121 ≤
      6 * Nat.card (RoundBytes P.gk) := by
  have h := ((rare_left hI.decNoise).or (((rare_right h4.1 hI.encNoise1).or ((rare_right h4.2 hI.encNoise2).or
    (rare_right h4.1 hI.encRnd))).or ((rare_left hI.keyNoise).or (rare_left hI.sk2)))).imp
    fun x (hb : ¬ ∃ r, recordRound (answeringRound E x) P fresh tests inp vd pd = .ok r) => by
    by_contra hc
    simp only [not_or] at hc
    obtain ⟨c0, ⟨c1, c2, c3⟩, c4, c5⟩ := hc
    have S' : Start (answeringRound E x) P inp.sk1 vd pd :=
      ⟨S.setup, S.linEmpty, S.linKeys, S.quadKeys, S.keyLength, S.key⟩
    refine hb (round_good ?_ hP hT fresh hI S' h4 hpk hla hH hl hnn hS x ?_ ?_ ?_ ?_ ?_ ?_ c0 c1 c2 c3 c4 c5)
    · exact answering_length (answering_length (answering_length (answering_length (answering_length
        (answering_length hE _ _) _ _) _ _) _ _) _ _) _ _
    · exact (((((answers_same E _ x.1).other (by decide) _).other (by decide) _).other (by decide) _).other
        (by decide) _).other (by decide) _
    · exact ((((answers_same _ _ x.2.1.1).other (by decide) _).other (by decide) _).other (by decide) _).other
        (by decide) _
    · exact (((answers_same _ _ x.2.1.2.1).other (by decide) _).other (by decide) _).other (by decide) _
    · exact ((answers_same _ _ x.2.1.2.2).other (by decide) _).other (by decide) _
    · exact (answers_same _ _ x.2.2.1).other (by decide) _
    · exact answers_same _ _ x.2.2.2
  exact h

end round

/-! ### The driver program -/

/-- A bound that is a thousandth off is still large enough. -/
theorem close_sq {B : ℤ} {x : ℝ} (h : Close B x) (hx : 2349 ≤ x) {N : ℤ} (hN : 337 * (N : ℝ) ≤ x ^ 2) :
    0 ≤ B ∧ 336 * N ≤ B ^ 2 := by
  unfold Close at h
  have h1 := (abs_le.1 h).1
  have h2 : 0.998574 * x ≤ (B : ℝ) := by nlinarith
  constructor
  · have : (0 : ℝ) ≤ B := by linarith
    exact_mod_cast this
  · have : 336 * (N : ℝ) ≤ (B : ℝ) ^ 2 := by nlinarith
    exact_mod_cast this

/-- The threshold is at most half of the number of parties. -/
theorem new_tee_half {k n s1 s2 : ℤ} {crs : ℕ → ℕ → Elt (ZMod Regev.P) 2} {gk : GlobalKey Regev.P 2}
    (h : GlobalKey.new k n s1 s2 crs = .ok gk) : 2 * gk.tee ≤ gk.enn := by
  unfold GlobalKey.new at h
  simp only at h
  split at h
  · cases h
  · split at h
    · cases h
    · obtain rfl := Res.ok.inj h
      dsimp only
      omega

/-- Norm of a vector with bounded coefficients. -/
theorem normSq_le_coeff (v : EVec Regev.P 2) (D : ℤ) (hD : ∀ e ∈ v, ∀ j, |(e.c j).valMinAbs| < D) :
    normSq (coeffs v) ≤ v.length * 2 * D ^ 2 := by
  rw [normSq_coeffs]
  have : ∀ i ∈ Finset.range v.length, ∑ s : Fin 2, ((v.getD i ⟨fun _ => 0⟩).c s).valMinAbs ^ 2 ≤ 2 * D ^ 2 := by
    intro i hi
    have hi := Finset.mem_range.1 hi
    have hm : v.getD i ⟨fun _ => 0⟩ ∈ v := by
      rw [List.getD_eq_getElem _ _ hi]; exact List.getElem_mem hi
    have h0 := hD _ hm 0
    have h1 := hD _ hm 1
    rw [Fin.sum_univ_two]
    have q0 := sq_abs ((v.getD i ⟨fun _ => 0⟩).c 0).valMinAbs
    have q1 := sq_abs ((v.getD i ⟨fun _ => 0⟩).c 1).valMinAbs
    have p0 := abs_nonneg ((v.getD i ⟨fun _ => 0⟩).c 0).valMinAbs
    have p1 := abs_nonneg ((v.getD i ⟨fun _ => 0⟩).c 1).valMinAbs
    nlinarith
  refine (Finset.sum_le_sum this).trans ?_
  rw [Finset.sum_const, Finset.card_range, nsmul_eq_mul]
  linarith

/-- What the driver program hands to the prover: keys, noises and randomness within the limits of the rejection sampling, and
noise of the decryptions below the bound of C35. -/
theorem inputs_small {k n s1 s2 : ℤ} (hpar : 3 * (k * 2) * 2 ^ s1.toNat + 2 ^ s2.toNat ≤ (2 : ℤ) ^ 125)
    {crs : ℕ → ℕ → Elt (ZMod Regev.P) 2} {gk0 : GlobalKey Regev.P 2}
    (hnew : GlobalKey.new k n s1 s2 crs = .ok gk0) {party : ℕ} {C : MainCoins Regev.P}
    {gk : GlobalKey Regev.P 2} {inp : RoundInput Regev.P} {wrong : Bool}
    (h : mainInputs Regev.delta gk0 party C = .ok (gk, inp, wrong)) :
    normSq (coeffs inp.sk2) ≤ 8 * gk.kay ∧ normSq (coeffs inp.keyNoise) ≤ 4 ^ gk.sigmaEnc1 * gk.kay ∧
    normSq (coeffs inp.encRnd) ≤ 8 * gk.kay ∧ normSq (coeffs inp.encNoise1) ≤ 4 ^ gk.sigmaEnc1 * gk.kay ∧
    normSq (coeffs inp.encNoise2) ≤ 4 ^ gk.sigmaEnc2 * gk.enn ∧
    normSq (coeffs inp.decNoise) ≤ gk.tee * 2 * (3 * (gk.kay * 2) * 2 ^ gk.sigmaEnc1 + 2 ^ gk.sigmaEnc2) ^ 2 := by
  have hNZ : NeZero Regev.P := ⟨by unfold Regev.P; omega⟩
  obtain ⟨hs, hn0, hk, hn, hs1, hs2, -⟩ := new_shaped k n s1 s2 crs gk0 hnew
  unfold mainInputs at h
  obtain ⟨⟨gk', ks⟩, h1, h⟩ := Res.bind_eq_ok.1 h
  simp only at h
  obtain ⟨ptxt1, h2, h⟩ := Res.bind_eq_ok.1 h
  obtain ⟨ctxt1, h3, h⟩ := Res.bind_eq_ok.1 h
  obtain ⟨⟨sk, noise⟩, h4, h⟩ := Res.bind_eq_ok.1 h
  obtain ⟨dec, h5, h⟩ := Res.bind_eq_ok.1 h
  obtain ⟨wr, h6, h⟩ := Res.bind_eq_ok.1 h
  obtain ⟨ptxt3, h7, h⟩ := Res.bind_eq_ok.1 h
  obtain ⟨⟨ct2, r, e1, e2⟩, h8, h⟩ := Res.bind_eq_ok.1 h
  simp only at h
  obtain ⟨ctMat, h9, h⟩ := Res.bind_eq_ok.1 h
  obtain ⟨ctVec, h10, h⟩ := Res.bind_eq_ok.1 h
  obtain ⟨lagrange, h11, h⟩ := Res.bind_eq_ok.1 h
  obtain ⟨hgk, hrest⟩ := Prod.mk.inj (Res.ok.inj h)
  obtain ⟨rfl, -⟩ := Prod.mk.inj hrest
  subst hgk
  simp only at h5
  obtain ⟨pks, a1, a2, a3, a5, a4⟩ := genAll_ok _ _ _ _ _ _ h1
  have hist := C38_history gk0 hn0 hs.rowsB pks
  have ek : gk'.kay = gk0.kay := by rw [a1, hist.1]
  have ee : gk'.enn = gk0.enn := by rw [a1, hist.1]
  have et : gk'.tee = gk0.tee := by rw [a1, hist.1]
  have es1 : gk'.sigmaEnc1 = gk0.sigmaEnc1 := by rw [a1, hist.1]
  have es2 : gk'.sigmaEnc2 = gk0.sigmaEnc2 := by rw [a1, hist.1]
  have hs' : Shaped gk' := by rw [a1]; exact addAll_shaped gk0 hs hn0 pks
  have hks := rd_get h4
  have hparty : party < gk'.enn := by
    by_contra hc
    rw [List.getElem?_eq_none (by omega)] at hks
    cases hks
  obtain ⟨sk', no', pk, b1, b2, b3⟩ := a4 party (by omega)
  rw [hks] at b1
  obtain ⟨rfl, rfl⟩ := Prod.mk.inj (Option.some.inj b1)
  have hall : registered gk0.kay gk0.enn pks = pks := by
    unfold registered
    rw [List.filter_eq_self.2, List.take_of_length_le (by omega)]
    intro p hp
    obtain ⟨j, hj, rfl⟩ := List.getElem_of_mem hp
    obtain ⟨s, hsj⟩ := a5 j (by omega)
    rw [hist.2.2 j _ (List.getElem?_eq_getElem hj)] at hsj
    by_contra hc
    rw [if_neg (by intro hh; exact hc (by simpa using hh.1))] at hsj
    cases hsj
  have b3' : gk0.keyGen (C.keys (0 + party)).1 (C.keys (0 + party)).2 = .ok (sk, pk, noise) := by
    rw [(C38_history gk0 hn0 hs.rowsB (pks.take party)).1] at b3; exact b3
  obtain ⟨k1, k2, -⟩ := keyGen_ok gk0 hs _ _ _ _ _ b3'
  obtain ⟨-, c1, c2, c3, -, -⟩ := encrypt_ok _ gk' hs' _ _ _ _ _ _ _ _ h8
  have l1 := (sampleLoop_ok _ _ _ _ _ _ _ k1).2.1
  have l2 := (sampleLoop_ok _ _ _ _ _ _ _ k2).2.1
  have l3 := (sampleLoop_ok _ _ _ _ _ _ _ c1).2.1
  have l4 := (sampleLoop_ok _ _ _ _ _ _ _ c2).2.1
  have l5 := (sampleLoop_ok _ _ _ _ _ _ _ c3).2.1
  rw [bound_sk, ← ek] at l1
  rw [bound_sk] at l3
  rw [bound_noise, ← ek, ← es1] at l2
  rw [bound_noise] at l4 l5
  refine ⟨l1, l2, l3, l4, l5, ?_⟩
  obtain ⟨l3, g3⟩ := mapRes_range h3
  obtain ⟨l5, g5⟩ := mapRes_range h5
  have hlen : (dec.map Prod.snd).length = gk'.tee := by rw [List.length_map, l5]
  have key := normSq_le_coeff (dec.map Prod.snd) (3 * (gk'.kay * 2) * 2 ^ gk'.sigmaEnc1 + 2 ^ gk'.sigmaEnc2) ?_
  · rw [hlen] at key; exact key
  intro e he
  obtain ⟨⟨x, e'⟩, hd, rfl⟩ := List.mem_map.1 he
  obtain ⟨i, hi, hdi⟩ := List.getElem_of_mem hd
  rw [l5] at hi
  obtain ⟨d, y1, y2⟩ := g5 i hi
  rw [List.getElem?_eq_getElem (by omega), hdi] at y1
  obtain rfl := Option.some.inj y1
  obtain ⟨c, y3, y4⟩ := Res.bind_eq_ok.1 y2
  have hte := new_tee hnew
  obtain ⟨c', u1, u2⟩ := g3 i (by omega)
  have y3 := rd_get y3
  rw [u1] at y3
  obtain rfl := Option.some.inj y3
  obtain ⟨p, u3, u2⟩ := Res.bind_eq_ok.1 u2
  obtain ⟨⟨ct, wit⟩, u4, u2⟩ := Res.bind_eq_ok.1 u2
  obtain rfl := Res.ok.inj u2
  have hb : (3 * (gk'.kay * 2) * 2 ^ gk'.sigmaEnc1 + 2 ^ gk'.sigmaEnc2 : ℤ) =
      3 * (k * 2) * 2 ^ s1.toNat + 2 ^ s2.toNat := by
    rw [ek, es1, es2, hk, show gk0.sigmaEnc1 = s1.toNat by omega, show gk0.sigmaEnc2 = s2.toNat by omega]
  rw [hb]
  rw [a1] at u4 y4
  obtain ⟨noise', hdec, hbd⟩ := C35_no_failure k n s1 s2 hpar crs gk0 hnew (pks.take party) _ _ sk pk noise b3 pks party
    (by omega) (by rw [hall]; exact b2) _ _ _ _ ct wit u4
  rw [hdec] at y4
  have := (Prod.mk.inj (Res.ok.inj y4)).2
  simp only
  rw [← this]
  exact hbd

theorem ge_mul {a b c : ℝ} (ha : 1 ≤ a) (hb : c ≤ b) (hc : 0 ≤ c) : c ≤ a * b :=
  hb.trans (le_mul_of_one_le_left (hc.trans hb) ha)

theorem Q_large {K Q : ℝ} (hK : 4096 ≤ K) (hQ0 : 0 < Q) (hQ : 124080 * K * 4 ≤ Q ^ 2) : 40000 ≤ Q := by
  by_contra h
  nlinarith

theorem dec_real {K N S Q t : ℝ} (hK : 4096 ≤ K) (hK' : K ≤ 9490) (hN : 10 ≤ N) (hS : 0 ≤ S) (hQ0 : 0 < Q)
    (hQ : 124080 * K * 4 ≤ Q ^ 2) (ht0 : 0 ≤ t) (ht : t ≤ N / 2) :
    t * (3 * K * S + S * Q) ^ 2 ≤ (1.7 * N * (S * Q)) ^ 2 := by
  have hKQ : 3 * K ≤ Q := by
    by_contra h
    nlinarith
  have hD : (3 * K * S + S * Q) ^ 2 ≤ (2 * (S * Q)) ^ 2 := by
    apply pow_le_pow_left₀ (by positivity)
    nlinarith
  have hD0 : 0 ≤ (3 * K * S + S * Q) ^ 2 := by positivity
  refine (mul_le_mul ht hD hD0 (by linarith)).trans ?_
  have h2 : 0 ≤ (S * Q) ^ 2 := by positivity
  have e : (1.7 * N * (S * Q)) ^ 2 = 2.89 * N ^ 2 * (S * Q) ^ 2 := by ring
  have e' : N / 2 * (2 * (S * Q)) ^ 2 = 2 * N * (S * Q) ^ 2 := by ring
  rw [e, e']
  exact mul_le_mul_of_nonneg_right (by nlinarith) h2

/-- **C89, inputs of the driver program.** With the parameters of the library for 5 or more parties and bounds that are as close
as C67 says, everything that the driver program hands to the prover is as small as the bounds expect: keys, noises and
encryption randomness because of the rejection sampling, and the noise of the decryptions because it is made from them. -/
theorem C89_inputs {n : ℕ} (h5 : 5 ≤ n) (hn : n < 2 ^ 30) {crs : ℕ → ℕ → Elt (ZMod Regev.P) 2}
    {gk0 : GlobalKey Regev.P 2}
    (hnew : GlobalKey.new (setParams 2 n).1 n (setParams 2 n).2.1 (setParams 2 n).2.2 crs = .ok gk0)
    {party : ℕ} {C : MainCoins Regev.P} {gk : GlobalKey Regev.P 2} {inp : RoundInput Regev.P} {wrong : Bool}
    (h : mainInputs Regev.delta gk0 party C = .ok (gk, inp, wrong))
    {P : Params Regev.P} {b m : ℤ} (hg : P.gk = gk) (hb : BoundsClose P b m) : SmallInput P inp := by
  obtain ⟨i1, i2, i3, i4, i5, i6⟩ := inputs_small (C35_setParams n (by omega) hn).2.2.2 hnew h
  obtain ⟨hs0, hn0, -⟩ := new_shaped _ _ _ _ _ _ hnew
  obtain ⟨g1, g2, g3, g4, g5⟩ := mainInputs_gk hs0 hn0 h
  have hst0 := new_standard hnew
  have hst : Standard gk n :=
    ⟨by rw [g1]; exact hst0.kay, by rw [g2]; exact hst0.enn, by rw [g4]; exact hst0.sigma1,
      by rw [g5]; exact hst0.sigma2⟩
  have htee := new_tee_half hnew
  rw [← g2, ← g3] at htee
  subst hg
  obtain ⟨Q, hz, hQ⟩ := hst.sizes h5 hn
  obtain ⟨x1, x2, x3, x4, x5, x6, x7, x8, x9, x10, x11⟩ := hb
  have hkk := hz.kk_lo
  have hSlo := hz.S_lo
  have hQ0 := hz.Q0
  have hQlo := hz.Q_lo
  have hnn := hz.nn_lo
  have hkh := hz.kk_hi
  obtain ⟨K, hK⟩ : ∃ K : ℝ, K = P.gk.kay * 2 := ⟨_, rfl⟩
  obtain ⟨N, hN⟩ : ∃ N : ℝ, N = P.gk.enn * 2 := ⟨_, rfl⟩
  obtain ⟨S, hS⟩ : ∃ S : ℝ, S = 2 ^ P.gk.sigmaEnc1 := ⟨_, rfl⟩
  rw [← hK] at x1 x3 x6 hkk hQlo hkh
  rw [← hN] at x5 x6 hnn
  rw [← hS] at x3 x6 hSlo hQ
  rw [hQ] at x5 x6
  have hQ700 : 40000 ≤ Q := Q_large hkk hQ0 hQlo
  have hS1 : (1 : ℝ) ≤ S := le_trans (by norm_num) hSlo
  have r1 : (√(337 * K)) ^ 2 = 337 * K := Real.sq_sqrt (by linarith)
  have r2 : (√(337 * K / 2)) ^ 2 = 337 * K / 2 := Real.sq_sqrt (by linarith)
  have r3 : (√(337 * N / 2)) ^ 2 = 337 * N / 2 := Real.sq_sqrt (by linarith)
  have r4 : (√337) ^ 2 = (337 : ℝ) := Real.sq_sqrt (by norm_num)
  have p1 : 2349 ≤ 2 * √(337 * K) := by
    have : (2349 : ℝ) / 2 ≤ √(337 * K) := Real.le_sqrt_of_sq_le (by linarith)
    linarith
  have p2 : 2349 ≤ √(337 * K / 2) * S := by
    exact ge_mul (Real.le_sqrt_of_sq_le (by linarith)) (by linarith) (by norm_num)
  have p3 : 2349 ≤ √(337 * N / 2) * (S * Q) := by
    exact ge_mul (Real.le_sqrt_of_sq_le (by linarith)) (ge_mul hS1 (by linarith) (by norm_num)) (by norm_num)
  have n1 : ((8 * P.gk.kay : ℤ) : ℝ) = 4 * K := by rw [hK]; push_cast; ring
  have n2 : ((4 ^ P.gk.sigmaEnc1 * P.gk.kay : ℤ) : ℝ) = S ^ 2 * K / 2 := by
    rw [hK, hS, ← pow_mul, mul_comm P.gk.sigmaEnc1 2, pow_mul]; push_cast; ring
  have n3 : ((4 ^ P.gk.sigmaEnc2 * P.gk.enn : ℤ) : ℝ) = (S * Q) ^ 2 * N / 2 := by
    rw [hN, ← hQ, ← pow_mul, mul_comm P.gk.sigmaEnc2 2, pow_mul]; push_cast; ring
  have cst : ∀ {a b : ℤ}, a ≤ b → (a : ℝ) ≤ (b : ℝ) := fun h => by exact_mod_cast h
  have j1 := cst i1
  have j2 := cst i2
  have j3 := cst i3
  have j4 := cst i4
  have j5 := cst i5
  have j6 := cst i6
  rw [n1] at j1 j3
  rw [n2] at j2 j4
  rw [n3] at j5
  have t1 : (2 * √(337 * K)) ^ 2 = 4 * (337 * K) := by rw [mul_pow, r1]; ring
  have t2 : (√(337 * K / 2) * S) ^ 2 = 337 * (S ^ 2 * K / 2) := by rw [mul_pow, r2]; ring
  have t3 : (√(337 * N / 2) * (S * Q)) ^ 2 = 337 * ((S * Q) ^ 2 * N / 2) := by rw [mul_pow, r3]; ring
  -- decryption
  obtain ⟨X, hX⟩ : ∃ X : ℝ, X = 1.7 * √337 * N * (S * Q) + 24 * √(377 * K * N) * S := ⟨_, rfl⟩
  rw [← hX] at x6
  have y0 : 0 ≤ 24 * √(377 * K * N) * S := by positivity
  have y1 : 1.7 * √337 * N * (S * Q) ≤ X := by rw [hX]; linarith
  have sq18 : (18 : ℝ) ≤ √337 := Real.le_sqrt_of_sq_le (by norm_num)
  have hSQ : (40000 : ℝ) ≤ S * Q := ge_mul hS1 hQ700 (by norm_num)
  have y2 : 2349 ≤ 1.7 * √337 * N * (S * Q) :=
    ge_mul (ge_mul (by linarith) (by linarith) (by norm_num)) (by linarith) (by norm_num)
  have y3 : 337 * (1.7 * N * (S * Q)) ^ 2 ≤ X ^ 2 := by
    have e : 337 * (1.7 * N * (S * Q)) ^ 2 = (1.7 * √337 * N * (S * Q)) ^ 2 := by
      rw [show (1.7 * √337 * N * (S * Q)) = √337 * (1.7 * N * (S * Q)) by ring, mul_pow √337, r4]
    rw [e]
    exact pow_le_pow_left₀ (by linarith) y1 2
  have y4 : ((P.gk.tee * 2 * (3 * (P.gk.kay * 2) * 2 ^ P.gk.sigmaEnc1 + 2 ^ P.gk.sigmaEnc2) ^ 2 : ℤ) : ℝ) ≤
      (1.7 * N * (S * Q)) ^ 2 := by
    have e : ((P.gk.tee * 2 * (3 * (P.gk.kay * 2) * 2 ^ P.gk.sigmaEnc1 + 2 ^ P.gk.sigmaEnc2) ^ 2 : ℤ) : ℝ) =
        (P.gk.tee * 2) * (3 * K * S + S * Q) ^ 2 := by
      push_cast; rw [hQ, hK, hS]
    rw [e]
    have ht : ((P.gk.tee : ℝ) * 2) ≤ N / 2 := by
      rw [hN]
      have : ((2 * P.gk.tee : ℕ) : ℝ) ≤ (P.gk.enn : ℕ) := by exact_mod_cast htee
      push_cast at this
      linarith
    exact dec_real hkk hkh hnn (by linarith) hQ0 hQlo (by positivity) ht
  have z1 := close_sq x1 p1 (N := normSq (coeffs inp.sk2)) (by rw [t1]; linarith)
  have z2 := close_sq x3 p2 (N := normSq (coeffs inp.keyNoise)) (by rw [t2]; linarith)
  have z3 := close_sq x1 p1 (N := normSq (coeffs inp.encRnd)) (by rw [t1]; linarith)
  have z4 := close_sq x3 p2 (N := normSq (coeffs inp.encNoise1)) (by rw [t2]; linarith)
  have z5 := close_sq x5 p3 (N := normSq (coeffs inp.encNoise2)) (by rw [t3]; linarith)
  have z6 := close_sq x6 (y2.trans y1) (N := normSq (coeffs inp.decNoise)) (by linarith)
  have hdim : 64 < P.gk.kay * 2 := by
    have : (64 : ℝ) < ((P.gk.kay * 2 : ℕ) : ℝ) := by push_cast; rw [← hK]; linarith
    exact_mod_cast this
  exact ⟨hdim, z6.1, by rw [x4]; exact z4.1, z5.1, z2.1, z6.2, by rw [x2]; exact z3.2, by rw [x4]; exact z4.2, z5.2,
    z1.2, z2.2⟩

/-- **C89, program.** In a run of the driver program with 33 or more parties, dimensions that are multiples of 4 and
coins with which key generation and encryption do not give up, all steps before the proofs succeed; and for less than a
fraction `6·2^-121` of the bytes of the challenge matrices one of the functions before the smallness proof fails. -/
theorem C89_program {G : Type} [AddCommGroup G] [Module (ZMod Regev.P) G] {E : Env (ZMod Regev.P) G} (hE : LengthOk E)
    (getG getH : ℕ → G) (ntlKernel : List (List (ZMod Regev.P)) → List (List (ZMod Regev.P)))
    (hker : ∀ G nr nc, G.length = nr → (∀ r ∈ G, r.length = nc) → LeftKernelBasis (ntlKernel G) G nr nc)
    (bounds : GlobalKey Regev.P 2 → List (List (ZMod Regev.P)) → Res (Params Regev.P))
    (n : ℕ) (h33 : 33 ≤ n) (hn : n < 2 ^ 30) (hb : Precise bounds n) (h4 : 4 ∣ (setParams 2 n).1 ∧ 4 ∣ n)
    (crs : ℕ → ℕ → Elt (ZMod Regev.P) 2) (party : ℕ) (hparty : party < n) (C : MainCoins Regev.P)
    (hC : ∀ gk, GlobalKey.new (setParams 2 n).1 n (setParams 2 n).2.1 (setParams 2 n).2.2 crs = .ok gk → CoinsOk gk C)
    (mer : E.St) (rnd0 fresh : Blocks (ZMod Regev.P)) (r : ZMod Regev.P)
    {tests : ℕ → Tests} (hT : ∀ k, NoFalsePrimes (tests k).probPrime) :
    ∃ gk0 sp gk inp P vd0 vd pd,
      GlobalKey.new (setParams 2 n).1 n (setParams 2 n).2.1 (setParams 2 n).2.2 crs = .ok gk0 ∧
      SharingParams.make ntlKernel (interval 1 ((gk0.enn : ℤ) + 1)) gk0.tee = .ok sp ∧
      mainInputs Regev.delta gk0 party C = .ok (gk, inp, false) ∧ bounds gk sp.H = .ok P ∧
      newVerifierData getG getH P mer = .ok vd0 ∧
      commitKey E inp.sk1 r vd0 (newProverData rnd0) = .ok (vd, pd) ∧
      Nat.card {x : RoundBytes P.gk // ¬ ∃ r, recordRound (answeringRound E x) P fresh tests inp vd pd = .ok r} * 2 ^ 121 ≤
        6 * Nat.card (RoundBytes P.gk) := by
  have h5 : 5 ≤ n := by omega
  obtain ⟨gk0, hnew, hst0, hs0, ht⟩ := standard_exists n h5 hn crs
  have hker' : ∀ G nr nc, G.length = nr → (∀ r ∈ G, r.length = nc) → GeneratesLeftKernel (ntlKernel G) G nr nc :=
    fun G nr nc a b => (hker G nr nc a b).1
  obtain ⟨-, hn0, hk, hen, -, -, -⟩ := new_shaped _ _ _ _ _ _ hnew
  obtain ⟨-, hte, hk0, he0⟩ := new_tee hnew
  have henn := hst0.enn
  obtain ⟨sp, hsp, -, -, -⟩ := C24_parity_check ntlKernel hker' (interval 1 ((gk0.enn : ℤ) + 1)) gk0.tee (by omega)
  have hnP : ((n : ℕ) : ℤ) < Regev.P := by
    have : (2 : ℤ) ^ 30 < (Regev.P : ℕ) := by unfold Regev.P; norm_num
    omega
  obtain ⟨⟨gk, inp, wr⟩, hin⟩ := (C66_inputs_defined Regev.delta _ _ _ _ crs gk0 hnew hnP (by omega) party (by omega)
    C).1 (hC _ hnew)
  have hpar := (C35_setParams n (by omega) hn).2.2.2
  have hw := C66_no_error _ _ _ _ hpar crs gk0 hnew party _ gk inp wr hin
  rw [hw] at hin
  obtain ⟨g1, g2, g3, g4, g5⟩ := mainInputs_gk hs0 hn0 hin
  have hst : Standard gk n :=
    ⟨by rw [g1]; exact hst0.kay, by rw [g2]; exact hst0.enn, by rw [g4]; exact hst0.sigma1,
      by rw [g5]; exact hst0.sigma2⟩
  obtain ⟨P, b0, b1, b2, b3, b, m, hbc⟩ := hb gk sp.H hst
  obtain ⟨hI, -, epk, hpk, hla, ek, ee, et, hsh⟩ := C66_inputs Regev.delta (by unfold Regev.delta; norm_num) _ _ _ _ crs
    gk0 hnew hnP (by omega) ntlKernel hker' sp hsp party _ gk inp hin P b1 b2 b3
  have hstP : Standard P.gk n := by rw [b1]; exact hst
  obtain ⟨-, -, -, hP, -, -⟩ := C67_bounds hstP h5 hn (by rw [b1]; exact hsh) (by rw [b1, et]; exact ht) hbc
  obtain ⟨-, -, -, -, -, -, -, -, -, -, -, -, hkk⟩ := standard_facts hstP h5 hn hbc
  have hgood := interval_good (q := Regev.P) gk0.enn (by omega) (by omega)
  have hpts : (interval 1 ((gk0.enn : ℤ) + 1)).length = gk0.enn := by
    rw [interval_get]; simp
  have hrows := C24_rows ntlKernel hker _ hgood gk0.tee (by omega) (by rw [hpts]; omega) sp hsp
  rw [hpts] at hrows
  have hrow : ∀ row ∈ P.H, row.length = 1 + P.gk.enn := by
    rw [b2]
    intro row hrow
    unfold SharingParams.make genMatrix at hsp
    rw [if_neg (by omega)] at hsp
    obtain rfl := Res.ok.inj hsp
    have := (hker' _ (gk0.enn + 1) gk0.tee (by simp [hpts]) (by
      intro r hr
      rcases List.mem_cons.1 hr with rfl | hr
      · simp; omega
      · obtain ⟨ep, -, rfl⟩ := List.mem_map.1 hr
        exact genRow_length _ _ _)).1 row hrow
    rw [this, b1, ee, add_comm]
  have hennP := hstP.enn
  have htn : P.gk.tee ≤ P.gk.enn := by rw [b1]; omega
  have htee : 2 * P.gk.tee ≤ P.gk.enn := by
    rw [b1, et, ee]
    exact new_tee_half hnew
  obtain ⟨vd, vd', pd', h1, h2, S, hlen⟩ := C64_start E P getG getH mer rnd0 inp.sk1 r hI.sk1 (by omega) (by
    obtain ⟨ix, hix⟩ := (C39_defined P.gk.kay 2 P.gk.enn P.gk.tee).2 (by omega)
    unfold setIndexes at hix
    simp only at hix
    split at hix
    · assumption
    · cases hix)
  have hdiv : 4 ∣ P.gk.kay ∧ 4 ∣ P.gk.enn := by
    have := hstP.kay
    rw [hennP]
    exact ⟨by have := h4.1; omega, h4.2⟩
  exact ⟨gk0, sp, gk, inp, P, vd, vd', pd', hnew, hsp, hin, b0, h1, h2,
    C89_round hE hP hT fresh hI S hdiv (by rw [epk, b1]; exact hpk) (by rw [hla, b1]) hrow
      (by rw [hlen, b2, hrows, b1, ee, et]; omega) (by omega) (C89_inputs h5 hn hnew hin b1 hbc)⟩

/-- The formulas of the constructor are precise enough for 256 parties. -/
theorem precise_256 : Precise (verifierBounds Regev.delta) 256 := by
  intro gk H hs
  obtain ⟨P, b, m, h1, h2, h3, h4, h5⟩ := C67_model Regev.delta gk H hs (by norm_num) (by norm_num)
  exact ⟨P, h1, h2, h3, h4, b, m, h5⟩

/-- `C89_program` applies to 256 parties and coins that make short but nonzero keys and noises. -/
example : ∃ ntlKernel : List (List (ZMod Regev.P)) → List (List (ZMod Regev.P)),
    (∀ G nr nc, G.length = nr → (∀ r ∈ G, r.length = nc) →
      LeftKernelBasis (ntlKernel G) G nr nc) ∧ Precise (verifierBounds Regev.delta) 256 ∧
    (4 ∣ (setParams 2 256).1 ∧ 4 ∣ 256) ∧
    ∀ crs gk, GlobalKey.new (setParams 2 256).1 (256 : ℕ) (setParams 2 256).2.1 (setParams 2 256).2.2 crs = .ok gk →
      CoinsOk gk (unitCoins Regev.P) := by
  obtain ⟨k, hk⟩ := kernel_exists (ZMod Regev.P)
  refine ⟨k, hk, precise_256, ⟨by rw [C66_good_dimension.1]; norm_num, by norm_num⟩, fun crs gk hnew => ?_⟩
  obtain ⟨-, -, hk0, he0⟩ := new_tee hnew
  have hst := new_standard hnew
  obtain ⟨c1, c2, c3, -⟩ := C35_setParams 256 (by norm_num) (by norm_num)
  have d1 := hst.sigma1
  have d2 := hst.sigma2
  exact unit_coinsOk hk0 he0 (by omega) (by omega)

/-- The hypotheses of `C89_round` are met (and, with `Start.setup`, those of the theorems about the three functions) in a
run with 256 parties. -/
example : ∃ (P : Params Regev.P) (inp : RoundInput Regev.P)
    (vd : VerifierData (ZMod Regev.P) (ZMod Regev.P) zeroEnv.St) (pd : ProverData (ZMod Regev.P)),
    LengthOk zeroEnv ∧ ParamsOk P ∧ Honest P inp ∧ Start zeroEnv P inp.sk1 vd pd ∧ SmallInput P inp ∧
      64 < P.gk.enn * 2 ∧ 4 ∣ P.gk.kay ∧ 4 ∣ P.gk.enn := by
  obtain ⟨k, hk⟩ := kernel_exists (ZMod Regev.P)
  obtain ⟨gk0, sp, gk, inp, P, vd0, vd, pd, -, -, b, m, hnew, -, hin, b0, -, -, -, hst, hbc, hP, hI, S, -⟩ :=
    unit_round (E := zeroEnv) (fun _ _ _ => rfl) (fun i => (i : ZMod Regev.P)) (fun i => (2 * i + 1 : ℕ)) k hk _ 256
      (by norm_num) (by norm_num) precise_256 ⟨by rw [C66_good_dimension.1]; norm_num, by norm_num⟩
      (fun i j => ⟨![(i : ZMod Regev.P), (j : ZMod Regev.P)]⟩) []
      ⟨1, 2, 3, 4, 5, 6, 7, 8, 9, 10, 11, 12, 13, 14, 15, 16, 17, 18, 19, 20, 21, 22, 23, 24, 25, 26, 27⟩
      ⟨1, 2, 3, 4, 5, 6, 7, 8, 9, 10, 11, 12, 13, 14, 15, 16, 17, 18, 19, 20, 21, 22, 23, 24, 25, 26, 27⟩ 7
      (tests := fun _ => ⟨fun _ => false, fun _ => false⟩) (fun _ p hp => by cases hp)
  have hg : P.gk = gk := by
    unfold verifierBounds at b0
    simp only at b0
    split at b0
    · cases b0
    · obtain rfl := Res.ok.inj b0
      rfl
  have hkay := hst.kay
  rw [C66_good_dimension.1] at hkay
  exact ⟨P, inp, vd, pd, fun st l n => List.length_replicate, hP, hI, S,
    C89_inputs (by norm_num) (by norm_num) hnew hin hg hbc, by rw [hst.enn]; norm_num, by omega, by rw [hst.enn]; norm_num⟩

/-- The vectors of `C89_left` and `C89_right`. -/
example : ∃ v : EVec Regev.P 2, v.length = 8 ∧ 4 ∣ 8 ∧ normSq (coeffs v) = 16 := by
  refine ⟨List.replicate 8 ⟨![1, -1]⟩, rfl, by norm_num, ?_⟩
  rw [normSq_coeffs]
  have h1 : ((1 : ZMod Regev.P)).valMinAbs = 1 := by decide +kernel
  have h2 : ((-1 : ZMod Regev.P)).valMinAbs = -1 := by decide +kernel
  rw [List.length_replicate, Finset.sum_congr rfl (g := fun _ => (2 : ℤ))]
  · rfl
  · intro i hi
    rw [List.getD_eq_getElem _ _ (by simpa using hi), List.getElem_replicate, Fin.sum_univ_two]
    simp [h1, h2]

end
end Verif.Props
