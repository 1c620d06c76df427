/-
Property C83: what a round of proofs absorbs, and what its challenges are bound to.
-/
import Verif.Props.Library
import Verif.Spec.RoundMsgs
import Verif.Lemmas.KeyHash
import Verif.Lemmas.RoundSound
import Verif.Model.Protocol

namespace Verif.Props
open Verif Verif.Spec Verif.Merlin Verif.Regev

variable {G : Type} [AddCommGroup G] [Module (ZMod Regev.P) G]

theorem at_dec {tag : Bytes} {hd : List TOp} {st : LibState} (c : Curve G) (h : At tag hd st) (tee : ℕ)
    (com : Blocks G) :
    let d := decChallenges (libEnv c) st tee com
    let ans := fun j l n => answer tag (hd ++ before j (decMsgs c.pointBytes tee com)) l n
    d.1 = ternaryOf (ans 0 (str "RegevDecX") (matrixBytes tee 128)) tee 128 ∧
      d.2.1 = elementOf (ans 1 (str "RegevDec") 64) ∧ At tag (hd ++ decMsgs c.pointBytes tee com) d.2.2 := by
  have h1 := at_commit h (str "RegevDecPtxt") (c.pointBytes com.pt1)
  obtain ⟨a0, h2⟩ := at_challenge h1 (str "RegevDecX") (matrixBytes tee 128)
  have h3 := at_commit (at_commit (at_commit (at_commit h2 (str "RegevDecCompHi") (c.pointBytes com.dCompHi))
    (str "RegevDecPadHi") (c.pointBytes com.dPadHi)) (str "RegevDecCompLo") (c.pointBytes com.dCompLo))
    (str "RegevDecPadLo") (c.pointBytes com.dPadLo)
  obtain ⟨a1, h4⟩ := at_challenge h3 (str "RegevDec") 64
  simp only [List.append_assoc, List.cons_append, List.nil_append] at a0 a1 h4
  refine ⟨?_, ?_, ?_⟩
  · exact congrArg (fun b => ternaryOf b tee 128) a0
  · exact congrArg elementOf a1
  · exact h4

theorem at_enc {tag : Bytes} {hd : List TOp} {st : LibState} (c : Curve G) (h : At tag hd st) (kay enn : ℕ)
    (com : Blocks G) :
    let d := encChallenges (libEnv c) st kay enn com
    let ans := fun j l n => answer tag (hd ++ before j (encMsgs c.pointBytes kay enn com)) l n
    d.R1 = ternaryOf (ans 0 (str "RegevEncR1") (matrixBytes 128 kay)) 128 kay ∧
      d.R2 = ternaryOf (ans 1 (str "RegevEncR2") (matrixBytes 128 enn)) 128 enn ∧
      d.R3 = ternaryOf (ans 2 (str "RegevEncR3") (matrixBytes 128 kay)) 128 kay ∧
      d.x1 = elementOf (ans 3 (str "RegevEncChallenge1") 64) ∧
      d.x2 = elementOf (ans 4 (str "RegevEncChallenge2") 64) ∧
      d.x3 = elementOf (ans 5 (str "RegevEncChallenge3") 64) ∧
      At tag (hd ++ encMsgs c.pointBytes kay enn com) d.st := by
  have h1 := at_commit (at_commit h (str "RegevEncPtxt") (c.pointBytes com.pt2)) (str "RegevEncRnd")
    (c.pointBytes com.r)
  obtain ⟨a0, h2⟩ := at_challenge h1 (str "RegevEncR1") (matrixBytes 128 kay)
  obtain ⟨a1, h3⟩ := at_challenge h2 (str "RegevEncR2") (matrixBytes 128 enn)
  obtain ⟨a2, h4⟩ := at_challenge h3 (str "RegevEncR3") (matrixBytes 128 kay)
  have h5 := at_commit (at_commit (at_commit (at_commit h4 (str "RegevEncR") (c.pointBytes com.rComp))
    [] (c.pointBytes com.rPad)) (str "RegevEnc1Hi") (c.pointBytes com.eComp1Hi)) [] (c.pointBytes com.ePad1Hi)
  have h6 := at_commit (at_commit (at_commit h5 (str "RegevEnc1Lo") (c.pointBytes com.eComp1Lo))
    [] (c.pointBytes com.ePad1Lo)) (str "RegevEnc2Hi") (c.pointBytes com.eComp2Hi)
  have h7 := at_commit (at_commit (at_commit h6 [] (c.pointBytes com.ePad2Hi))
    (str "RegevEnc2Lo") (c.pointBytes com.eComp2Lo)) [] (c.pointBytes com.ePad2Lo)
  obtain ⟨a3, h8⟩ := at_challenge h7 (str "RegevEncChallenge1") 64
  obtain ⟨a4, h9⟩ := at_challenge h8 (str "RegevEncChallenge2") 64
  obtain ⟨a5, h10⟩ := at_challenge h9 (str "RegevEncChallenge3") 64
  simp only [List.append_assoc, List.cons_append, List.nil_append] at a0 a1 a2 a3 a4 a5 h10
  refine ⟨?_, ?_, ?_, ?_, ?_, ?_, ?_⟩
  · exact congrArg (fun b => ternaryOf b 128 kay) a0
  · exact congrArg (fun b => ternaryOf b 128 enn) a1
  · exact congrArg (fun b => ternaryOf b 128 kay) a2
  · exact congrArg elementOf a3
  · exact congrArg elementOf a4
  · exact congrArg elementOf a5
  · exact h10

theorem at_key {tag : Bytes} {hd : List TOp} {st : LibState} (c : Curve G) (h : At tag hd st) (kay : ℕ)
    (com : Blocks G) :
    let d := keyChallenges (libEnv c) st kay com
    let ans := fun j l n => answer tag (hd ++ before j (keyMsgs c.pointBytes kay com)) l n
    d.R1 = ternaryOf (ans 0 (str "RegevKeyGenR1") (matrixBytes kay 128)) kay 128 ∧
      d.R2 = ternaryOf (ans 1 (str "RegevKeyGenR2") (matrixBytes kay 128)) kay 128 ∧
      d.x1 = elementOf (ans 2 (str "RegevKGChallenge1") 64) ∧
      d.x2 = elementOf (ans 3 (str "RegevKGChallenge2") 64) ∧
      At tag (hd ++ keyMsgs c.pointBytes kay com) d.st := by
  have h1 := at_commit h (str "RegevSK") (c.pointBytes com.sk2)
  obtain ⟨a0, h2⟩ := at_challenge h1 (str "RegevKeyGenR1") (matrixBytes kay 128)
  obtain ⟨a1, h3⟩ := at_challenge h2 (str "RegevKeyGenR2") (matrixBytes kay 128)
  have h5 := at_commit (at_commit (at_commit h3 (str "RegevKeyGenSK") (c.pointBytes com.sk2Comp))
    [] (c.pointBytes com.sk2Pad)) (str "RegevKGHi") (c.pointBytes com.kCompHi)
  have h6 := at_commit (at_commit (at_commit h5 [] (c.pointBytes com.kPadHi))
    (str "RegevKGHi") (c.pointBytes com.kCompLo)) [] (c.pointBytes com.kPadLo)
  obtain ⟨a2, h8⟩ := at_challenge h6 (str "RegevKGChallenge1") 64
  obtain ⟨a3, h9⟩ := at_challenge h8 (str "RegevKGChallenge2") 64
  simp only [List.append_assoc, List.cons_append, List.nil_append] at a0 a1 a2 a3 h9
  refine ⟨?_, ?_, ?_, ?_, ?_⟩
  · exact congrArg (fun b => ternaryOf b kay 128) a0
  · exact congrArg (fun b => ternaryOf b kay 128) a1
  · exact congrArg elementOf a2
  · exact congrArg elementOf a3
  · exact h9

theorem at_reply {tag : Bytes} (c : Curve G) (z : EVec Regev.P 2) {hd : List TOp} {st : LibState}
    (h : At tag hd st) : At tag (hd ++ replyMsgs z) (absorbReply (libEnv c) st z) := by
  have fold : ∀ (l : List (Elt (ZMod Regev.P) 2 × ℕ)) (hd : List TOp) (st : LibState), At tag hd st →
      At tag (hd ++ l.map fun e => .commit (if e.2 = 0 then str "masked reply" else [])
        (le32 (e.1.c 0).val ++ le32 (e.1.c 1).val))
      (l.foldl (fun st e => libCommit st (if e.2 = 0 then str "masked reply" else [])
        (Sc.elementBytes e.1 64)) st) := by
    intro l
    induction l with
    | nil => intro hd st h; simpa using h
    | cons e l ih =>
      intro hd st h
      rw [List.foldl_cons, List.map_cons, List.append_cons, ← KeyHash.elt_bytes]
      exact ih _ _ (at_commit h _ _)
  exact fold z.zipIdx hd st h

theorem before_commits {α : Type} (f : α → TOp) (hf : ∀ a, ∃ l m, f a = .commit l m) (rest : List TOp) (j : ℕ) :
    ∀ L : List α, before j (L.map f ++ rest) = L.map f ++ before j rest := by
  intro L
  induction L with
  | nil => rfl
  | cons a L ih =>
    obtain ⟨l, m, h⟩ := hf a
    rw [List.map_cons, List.cons_append, h, before, ih, List.cons_append]

theorem before_reply (z : EVec Regev.P 2) (rest : List TOp) (j : ℕ) :
    before j (replyMsgs z ++ rest) = replyMsgs z ++ before j rest :=
  before_commits _ (fun _ => ⟨_, _, rfl⟩) _ _ _

theorem at_small {tag : Bytes} {hd : List TOp} {st : LibState} (c : Curve G) (h : At tag hd st)
    (com : Blocks G) (z : EVec Regev.P 2) :
    let d := smallChallenges (libEnv c) st com z
    let ans := fun j l n => answer tag (hd ++ before j (smallMsgs c.pointBytes com z)) l n
    d.1 = ternaryOf (ans 0 (str "Smallness") (matrixBytes 1300 64)) 1300 64 ∧
      d.2.1 = elementOf (ans 1 (str "SmallnessChallenge") 64) ∧
      At tag (hd ++ smallMsgs c.pointBytes com z) d.2.2 := by
  have h1 := at_commit h (str "smallnessPf") (c.pointBytes com.y)
  obtain ⟨a0, h2⟩ := at_challenge h1 (str "Smallness") (matrixBytes 1300 64)
  have h3 := at_reply c z h2
  obtain ⟨a1, h4⟩ := at_challenge h3 (str "SmallnessChallenge") 64
  simp only [List.append_assoc, List.cons_append, List.nil_append] at a0 a1 h4
  refine ⟨?_, ?_, ?_⟩
  · exact congrArg (fun b => ternaryOf b 1300 64) a0
  · have e : before 1 (smallMsgs c.pointBytes com z) = .commit (str "smallnessPf") (c.pointBytes com.y) ::
        .challenge (str "Smallness") (matrixBytes 1300 64) :: replyMsgs z := by
      simp only [smallMsgs, List.append_assoc, List.cons_append, List.nil_append, before, before_reply,
        List.append_nil]
    dsimp only
    rw [e]
    exact congrArg elementOf a1
  · have e : smallMsgs c.pointBytes com z = .commit (str "smallnessPf") (c.pointBytes com.y) ::
        .challenge (str "Smallness") (matrixBytes 1300 64) :: (replyMsgs z ++ [.challenge (str "SmallnessChallenge") 64]) := by
      simp only [smallMsgs, List.append_assoc, List.cons_append, List.nil_append]
    rw [e]
    exact h4

/-- the number of requests -/
def nreq : List TOp → ℕ
  | [] => 0
  | .commit _ _ :: ops => nreq ops
  | .challenge _ _ :: ops => nreq ops + 1

theorem nreq_append (A B : List TOp) : nreq (A ++ B) = nreq A + nreq B := by
  induction A with
  | nil => simp [nreq]
  | cons a A ih => cases a <;> simp only [List.cons_append, nreq, ih] <;> omega

theorem nreq_reply (z : EVec Regev.P 2) : nreq (replyMsgs z) = 0 := by
  unfold replyMsgs
  induction z.zipIdx with
  | nil => rfl
  | cons e l ih => exact ih

theorem before_append (A B : List TOp) (j : ℕ) : before (nreq A + j) (A ++ B) = A ++ before j B := by
  induction A with
  | nil => simp [nreq]
  | cons a A ih =>
    cases a with
    | commit l m => simp only [List.cons_append, nreq, before, ih]
    | challenge l n =>
      rw [nreq, Nat.add_right_comm, List.cons_append, before, ih, List.cons_append]

theorem before_left (A B : List TOp) : ∀ (j : ℕ), j < nreq A → before j (A ++ B) = before j A := by
  induction A with
  | nil => intro j h; simp [nreq] at h
  | cons a A ih =>
    intro j h
    cases a with
    | commit l m =>
      simp only [List.cons_append, before]
      rw [ih j h]
    | challenge l n =>
      cases j with
      | zero => simp only [List.cons_append, before]
      | succ j =>
        simp only [List.cons_append, before]
        rw [ih j (by simpa [nreq] using h)]

theorem nreq_before (A : List TOp) : ∀ j, j ≤ nreq A → nreq (before j A) = j := by
  induction A with
  | nil => intro j h; simp [nreq] at h; subst h; rfl
  | cons a A ih =>
    intro j h
    cases a with
    | commit l m =>
      simp only [before, nreq]
      exact ih j h
    | challenge l n =>
      cases j with
      | zero => simp only [before, nreq]
      | succ j =>
        simp only [before, nreq]
        rw [ih j (by simpa [nreq] using h)]

theorem nreq_round (pb : G → Bytes) (kay enn tee : ℕ) (com : Blocks G) (z : EVec Regev.P 2) :
    nreq (roundMsgs pb kay enn tee com z) = 14 := by
  simp only [roundMsgs, smallMsgs, nreq_append, nreq_reply]
  rfl

section
variable {c : Curve G} {tag : Bytes} {hd : List TOp} {st : LibState}

/-- **C83, challenges.** Let a transcript with label `tag` have absorbed `hd`.  The fourteen challenges of a round
(C73: the constraints of the round, and what they imply, are stated with these) are the answers of the Merlin
transcript to the fourteen requests in the messages of the round, each after everything that precedes the
request; and the transcript after the round has absorbed exactly the messages of the round. -/
theorem C83_challenges (c : Curve G) (outs : List Bytes)
    (h : (do let s ← transcriptInit keccakf tag; runOps keccakf s hd) = .ok (outs, st.s))
    (kay enn tee : ℕ) (com : Blocks G) (z : EVec Regev.P 2) :
    let msgs := roundMsgs c.pointBytes kay enn tee com z
    let C := roundChallenges (libEnv c) st kay enn tee com z
    let matrix := fun j l n m => ternaryOf (answer tag (hd ++ before j msgs) (str l) (matrixBytes n m)) n m
    let element := fun j l => elementOf (answer tag (hd ++ before j msgs) (str l) 64)
    (C.decR = matrix 0 "RegevDecX" tee 128 ∧ C.decX = element 1 "RegevDec") ∧
    (C.enc.R1 = matrix 2 "RegevEncR1" 128 kay ∧ C.enc.R2 = matrix 3 "RegevEncR2" 128 enn ∧
      C.enc.R3 = matrix 4 "RegevEncR3" 128 kay ∧ C.enc.x1 = element 5 "RegevEncChallenge1" ∧
      C.enc.x2 = element 6 "RegevEncChallenge2" ∧ C.enc.x3 = element 7 "RegevEncChallenge3") ∧
    (C.key.R1 = matrix 8 "RegevKeyGenR1" kay 128 ∧ C.key.R2 = matrix 9 "RegevKeyGenR2" kay 128 ∧
      C.key.x1 = element 10 "RegevKGChallenge1" ∧ C.key.x2 = element 11 "RegevKGChallenge2") ∧
    (C.smallR = matrix 12 "Smallness" 1300 64 ∧ C.smallX = element 13 "SmallnessChallenge") ∧
    ∃ (s' : LibState) (outs' : List Bytes), C.st = s' ∧
      (do let s ← transcriptInit keccakf tag; runOps keccakf s (hd ++ msgs)) = .ok (outs', s'.s) := by
  obtain ⟨d0, d1, d2⟩ := at_dec (hd := hd) (st := st) c ⟨outs, h⟩ tee com
  obtain ⟨e0, e1, e2, e3, e4, e5, e6⟩ := at_enc c d2 kay enn com
  obtain ⟨k0, k1, k2, k3, k4⟩ := at_key c e6 kay com
  obtain ⟨s0, s1, o, s2⟩ := at_small c k4 com z
  have b1 : ∀ j < 2, before j (roundMsgs c.pointBytes kay enn tee com z) = before j (decMsgs c.pointBytes tee com) :=
    fun j hj => before_left _ _ _ hj
  have b2 : ∀ j < 6, before (2 + j) (roundMsgs c.pointBytes kay enn tee com z) =
      decMsgs c.pointBytes tee com ++ before j (encMsgs c.pointBytes kay enn com) := fun j hj =>
    (before_append (decMsgs c.pointBytes tee com) _ j).trans (by rw [before_left _ _ _ hj])
  have b3 : ∀ j < 4, before (8 + j) (roundMsgs c.pointBytes kay enn tee com z) =
      decMsgs c.pointBytes tee com ++ (encMsgs c.pointBytes kay enn com ++ before j (keyMsgs c.pointBytes kay com)) := by
    intro j hj
    rw [← before_left (keyMsgs c.pointBytes kay com) (smallMsgs c.pointBytes com z) _ hj,
      ← before_append (encMsgs c.pointBytes kay enn com), ← before_append (decMsgs c.pointBytes tee com)]
    exact congrArg (fun i => before i (roundMsgs c.pointBytes kay enn tee com z)) (Nat.add_assoc 2 6 j)
  have b4 : ∀ j, before (12 + j) (roundMsgs c.pointBytes kay enn tee com z) =
      decMsgs c.pointBytes tee com ++ (encMsgs c.pointBytes kay enn com ++ (keyMsgs c.pointBytes kay com ++
        before j (smallMsgs c.pointBytes com z))) := by
    intro j
    rw [← before_append (keyMsgs c.pointBytes kay com),
      ← before_append (encMsgs c.pointBytes kay enn com), ← before_append (decMsgs c.pointBytes tee com)]
    refine congrArg (fun i => before i (roundMsgs c.pointBytes kay enn tee com z)) ?_
    show 12 + j = 2 + (6 + (4 + j))
    omega
  simp only [List.append_assoc] at e0 e1 e2 e3 e4 e5 k0 k1 k2 k3 s0 s1 s2
  refine ⟨⟨?_, ?_⟩, ⟨?_, ?_, ?_, ?_, ?_, ?_⟩, ⟨?_, ?_, ?_, ?_⟩, ⟨?_, ?_⟩, _, o, rfl, ?_⟩
  · exact d0.trans (congrArg (fun o => ternaryOf (answer tag (hd ++ o) _ _) _ _) (b1 0 (by omega)).symm)
  · exact d1.trans (congrArg (fun o => elementOf (answer tag (hd ++ o) _ _)) (b1 1 (by omega)).symm)
  · exact e0.trans (congrArg (fun o => ternaryOf (answer tag (hd ++ o) _ _) _ _) (b2 0 (by omega)).symm)
  · exact e1.trans (congrArg (fun o => ternaryOf (answer tag (hd ++ o) _ _) _ _) (b2 1 (by omega)).symm)
  · exact e2.trans (congrArg (fun o => ternaryOf (answer tag (hd ++ o) _ _) _ _) (b2 2 (by omega)).symm)
  · exact e3.trans (congrArg (fun o => elementOf (answer tag (hd ++ o) _ _)) (b2 3 (by omega)).symm)
  · exact e4.trans (congrArg (fun o => elementOf (answer tag (hd ++ o) _ _)) (b2 4 (by omega)).symm)
  · exact e5.trans (congrArg (fun o => elementOf (answer tag (hd ++ o) _ _)) (b2 5 (by omega)).symm)
  · exact k0.trans (congrArg (fun o => ternaryOf (answer tag (hd ++ o) _ _) _ _) (b3 0 (by omega)).symm)
  · exact k1.trans (congrArg (fun o => ternaryOf (answer tag (hd ++ o) _ _) _ _) (b3 1 (by omega)).symm)
  · exact k2.trans (congrArg (fun o => elementOf (answer tag (hd ++ o) _ _)) (b3 2 (by omega)).symm)
  · exact k3.trans (congrArg (fun o => elementOf (answer tag (hd ++ o) _ _)) (b3 3 (by omega)).symm)
  · exact s0.trans (congrArg (fun o => ternaryOf (answer tag (hd ++ o) _ _) _ _) (b4 0).symm)
  · exact s1.trans (congrArg (fun o => elementOf (answer tag (hd ++ o) _ _)) (b4 1).symm)
  · exact s2

/-- **C83, a round.** A party that runs the proofs of a round, honest or not, on any inputs of the right
lengths, leaves the transcript in the state after exactly the messages of the round. -/
theorem C83_round {P : Params Regev.P} (hP : ParamsOk P)
    {tests : ℕ → Tests} (hT : ∀ k, NoFalsePrimes (tests k).probPrime) {fresh : Blocks (ZMod Regev.P)}
    {small : ℕ → SmallRnd Regev.P} {inp : RoundInput Regev.P} (hI : Sized P inp)
    {vd vd' : VerifierData (ZMod Regev.P) G (libEnv c).St} {pd pd' : ProverData (ZMod Regev.P)} (S0 : Setup P vd pd)
    (hempty : ∀ l ∈ vd.linConstr, l = ⟨[], 0⟩)
    (h : proveRound (libEnv c) P fresh tests small inp vd pd = .ok (vd', pd'))
    (hst : vd.mer = st) (outs : List Bytes)
    (hs : (do let s ← transcriptInit keccakf tag; runOps keccakf s hd) = .ok (outs, st.s)) :
    ∃ (s' : LibState) (outs' : List Bytes), vd'.mer = s' ∧
      (do let s ← transcriptInit keccakf tag
          runOps keccakf s (hd ++ roundMsgs c.pointBytes P.gk.kay P.gk.enn P.gk.tee vd'.com vd'.z)) =
        .ok (outs', s'.s) := by
  obtain ⟨-, -, -, -, -, -, h1, -⟩ := round_meaning (C82_length c) hP hT hI S0 hempty h _ rfl
  obtain ⟨-, -, -, -, s', o, h2, h3⟩ := C83_challenges (tag := tag) (hd := hd) (st := st) c outs hs P.gk.kay P.gk.enn
    P.gk.tee vd'.com vd'.z
  exact ⟨s', o, by rw [h1, hst, h2], h3⟩

end

/-! ### The aggregation -/

section
variable {F G : Type} [Field F] [DecidableEq F] [AddCommGroup G] [Module F G]

theorem publicStatement_mer (E : Env F G) (tie : List (CompIter F) → ℕ) (v : ReadyToVerify F G)
    (vd : VerifierData F G E.St) (wCom : G) (v2 : ReadyToVerify F G) (m : E.St)
    (h : publicStatement E tie v vd wCom = .ok (v2, m)) :
    m = (E.newChallenge (E.newChallenge (E.newChallenge (E.newChallenge vd.mer (str "aggregateLinear")).2
      (str "aggregateNorms")).2 (str "enforceNorm")).2 (str "separareLinQuad")).2 := by
  unfold publicStatement at h
  obtain ⟨⟨v1, vd1⟩, h1, h⟩ := Res.bind_eq_ok.1 h
  simp only at h
  obtain ⟨⟨v3, vd3⟩, h3, h⟩ := Res.bind_eq_ok.1 h
  obtain ⟨-, rfl⟩ := Prod.mk.inj (Res.ok.inj h)
  have e1 : vd1.mer = (E.newChallenge (E.newChallenge vd.mer (str "aggregateLinear")).2 (str "aggregateNorms")).2 := by
    unfold aggregateVerifier1 at h1
    obtain ⟨_, -, h1⟩ := Res.bind_eq_ok.1 h1
    obtain ⟨_, -, h1⟩ := Res.bind_eq_ok.1 h1
    obtain ⟨_, -, h1⟩ := Res.bind_eq_ok.1 h1
    obtain ⟨_, -, h1⟩ := Res.bind_eq_ok.1 h1
    obtain ⟨_, -, h1⟩ := Res.bind_eq_ok.1 h1
    dsimp only at h1
    split at h1
    · cases h1
    · obtain ⟨_, -, h1⟩ := Res.bind_eq_ok.1 h1
      obtain ⟨-, rfl⟩ := Prod.mk.inj (Res.ok.inj h1)
      rfl
  rw [← e1]
  unfold aggregateVerifier2 at h3
  obtain ⟨_, -, h3⟩ := Res.bind_eq_ok.1 h3
  split at h3
  · cases h3
  · obtain ⟨_, -, h3⟩ := Res.bind_eq_ok.1 h3
    obtain ⟨_, -, h3⟩ := Res.bind_eq_ok.1 h3
    obtain ⟨_, -, h3⟩ := Res.bind_eq_ok.1 h3
    obtain ⟨-, rfl⟩ := Prod.mk.inj (Res.ok.inj h3)
    rfl

/-- **C83, the commitment to `w` is not absorbed.** Whatever commitment to `w` is sent, the aggregated
constraints, the offsets (which contain the challenges u and rho) and the transcript are the same: it can be
chosen after all the challenges of the aggregation are known. -/
theorem C83_w_free (E : Env F G) (tie : List (CompIter F) → ℕ) (v : ReadyToVerify F G)
    (vd : VerifierData F G E.St) (wCom wCom' : G) (v2 : ReadyToVerify F G) (m : E.St)
    (h : publicStatement E tie v vd wCom = .ok (v2, m)) :
    publicStatement E tie v vd wCom' =
      .ok ({ v2 with linCom := v2.linCom - wCom + wCom', quadCom := v2.quadCom - wCom + wCom' }, m) := by
  unfold publicStatement at h ⊢
  obtain ⟨⟨v1, vd1⟩, h1, h⟩ := Res.bind_eq_ok.1 h
  rw [h1, Res.ok_bind]
  simp only at h ⊢
  obtain ⟨⟨v3, vd3⟩, h3, h⟩ := Res.bind_eq_ok.1 h
  obtain ⟨rfl, rfl⟩ := Prod.mk.inj (Res.ok.inj h)
  have key : aggregateVerifier2 E { v1 with linCom := v1.linCom + wCom', quadCom := v1.quadCom + wCom',
                                            bs := mapPut v1.bs vd1.ix.w (-1) } vd1 =
      .ok ({ v3 with linCom := v3.linCom - wCom + wCom', quadCom := v3.quadCom - wCom + wCom' }, vd3) := by
    unfold aggregateVerifier2 at h3 ⊢
    simp only at h3 ⊢
    obtain ⟨_, a1, h3⟩ := Res.bind_eq_ok.1 h3
    rw [a1, Res.ok_bind]
    split at h3
    · cases h3
    · rename_i hc
      rw [if_neg hc]
      obtain ⟨_, a2, h3⟩ := Res.bind_eq_ok.1 h3
      obtain ⟨_, a3, h3⟩ := Res.bind_eq_ok.1 h3
      obtain ⟨_, a4, h3⟩ := Res.bind_eq_ok.1 h3
      rw [a2, Res.ok_bind, a3, Res.ok_bind, a4, Res.ok_bind]
      obtain ⟨rfl, rfl⟩ := Prod.mk.inj (Res.ok.inj h3)
      simp only [add_sub_cancel_right]
  rw [key, Res.ok_bind]

end

section
variable {c : Curve G} {tag : Bytes} {hd : List TOp} {st : LibState}

/-- **C83, the aggregation.** The four challenges of the aggregation are the answers to its four requests, with
nothing absorbed between them, and the transcript after `aggregateProver` has absorbed exactly these. -/
theorem C83_aggregation (tie : List (CompIter (ZMod Regev.P)) → ℕ) (wRnd : ZMod Regev.P)
    (v v' : ReadyToProve (ZMod Regev.P) G) (vd vd' : VerifierData (ZMod Regev.P) G (libEnv c).St)
    (pd pd' : ProverData (ZMod Regev.P))
    (h : aggregateProver (libEnv c) tie wRnd v vd pd = .ok (v', vd', pd'))
    (hst : vd.mer = st) (outs : List Bytes)
    (hs : (do let s ← transcriptInit keccakf tag; runOps keccakf s hd) = .ok (outs, st.s)) :
    let ch := fun (s : LibState) l => (libEnv c).newChallenge s (str l)
    let ans := fun j l => ((Sc.leVal (answer tag (hd ++ aggregateMsgs.take j) (str l) 64) : ℕ) : ZMod Regev.P)
    ∃ s1 s2 s3 s4 : LibState, ch st "aggregateLinear" = (ans 0 "aggregateLinear", s1) ∧
      ch s1 "aggregateNorms" = (ans 1 "aggregateNorms", s2) ∧
      ch s2 "enforceNorm" = (ans 2 "enforceNorm", s3) ∧
      ch s3 "separareLinQuad" = (ans 3 "separareLinQuad", s4) ∧ vd'.mer = s4 ∧
      ∃ outs', (do let s ← transcriptInit keccakf tag; runOps keccakf s (hd ++ aggregateMsgs)) = .ok (outs', s4.s) := by
  obtain ⟨v2, h1, -⟩ := C42_public (libEnv c) tie wRnd v v' vd vd' pd pd' h
  have h2 := publicStatement_mer _ _ _ _ _ _ _ h1
  rw [hst] at h2
  have g0 : At tag hd st := ⟨outs, hs⟩
  obtain ⟨a0, g1⟩ := at_challenge g0 (str "aggregateLinear") 64
  obtain ⟨a1, g2⟩ := at_challenge g1 (str "aggregateNorms") 64
  obtain ⟨a2, g3⟩ := at_challenge g2 (str "enforceNorm") 64
  obtain ⟨a3, o, g4⟩ := at_challenge g3 (str "separareLinQuad") 64
  simp only [List.append_assoc, List.cons_append, List.nil_append] at a1 a2 a3 g4
  have red : ∀ b b' : Bytes, b = b' → (libEnv c).scalarReduce b = ((Sc.leVal b' : ℕ) : ZMod Regev.P) :=
    fun b b' e => by rw [e]; rfl
  have step : ∀ (s : LibState) (l : Bytes) (b : Bytes), (libChallenge s l 64).1 = b →
      (libEnv c).newChallenge s l = (((Sc.leVal b : ℕ) : ZMod Regev.P), (libChallenge s l 64).2) :=
    fun s l b e => Prod.ext (red _ _ e) rfl
  refine ⟨_, _, _, _, step _ _ _ ?_, step _ _ _ ?_, step _ _ _ ?_, step _ _ _ ?_, h2, o, ?_⟩
  · rw [List.take_zero, List.append_nil]; exact a0
  · exact a1
  · exact a2
  · exact a3
  · exact g4

/-- **C83, the final proofs.** The two final proofs start from transcripts that have absorbed, on top of all
that, exactly the aggregated linear constraint and the aggregated quadratic constraint, respectively.
(C82 continues from here: the challenges inside the two proofs.) -/
theorem C83_final (coinsL coinsQ : ℕ → ZMod Regev.P × ZMod Regev.P)
    (v : ReadyToProve (ZMod Regev.P) G) (vd : VerifierData (ZMod Regev.P) G (libEnv c).St)
    (pd : ProverData (ZMod Regev.P)) {rtv : ReadyToVerify (ZMod Regev.P) G} {merL merQ : (libEnv c).St}
    {pfL : LinPf (ZMod Regev.P) G} {pfQ : QuadPf (ZMod Regev.P) G}
    (h : finalProve (libEnv c) coinsL coinsQ v vd pd = .ok (rtv, merL, merQ, pfL, pfQ))
    (hst : vd.mer = st) (outs : List Bytes)
    (hs : (do let s ← transcriptInit keccakf tag; runOps keccakf s hd) = .ok (outs, st.s)) :
    ∃ (sL sQ : LibState) (oL oQ : List Bytes), merL = sL ∧ merQ = sQ ∧
      (do let s ← transcriptInit keccakf tag
          runOps keccakf s (hd ++ linOps (libEnv c) (str "linear") v.linCnstr)) = .ok (oL, sL.s) ∧
      (do let s ← transcriptInit keccakf tag
          runOps keccakf s (hd ++ quadOps (libEnv c) (str "quadratic") v.quadCnstr)) = .ok (oQ, sQ.s) := by
  have hL : merL = (libEnv c).processLin vd.mer (str "linear") v.linCnstr ∧
      merQ = (libEnv c).processQuad vd.mer (str "quadratic") v.quadCnstr := by
    unfold finalProve at h
    obtain ⟨_, -, h⟩ := Res.bind_eq_ok.1 h
    obtain ⟨_, -, h⟩ := Res.bind_eq_ok.1 h
    obtain ⟨_, -, h⟩ := Res.bind_eq_ok.1 h
    obtain ⟨_, -, h⟩ := Res.bind_eq_ok.1 h
    have := Res.ok.inj h
    simp only [Prod.mk.injEq] at this
    exact ⟨this.2.1.symm, this.2.2.1.symm⟩
  rw [hst] at hL
  obtain ⟨oL, h1⟩ := at_lin (st := st) (ops := hd) c ⟨outs, hs⟩ (str "linear") v.linCnstr
  obtain ⟨oQ, h2⟩ := at_quad (st := st) (ops := hd) c ⟨outs, hs⟩ (str "quadratic") v.quadCnstr
  exact ⟨_, _, oL, oQ, hL.1, hL.2, h1, h2⟩

end

/-! ### What the challenges are bound to -/

theorem elt_inj (a b : Elt (ZMod Regev.P) 2)
    (h : le32 (a.c 0).val ++ le32 (a.c 1).val = le32 (b.c 0).val ++ le32 (b.c 1).val) : a = b := by
  obtain ⟨h0, h1⟩ := List.append_inj h (by rw [KeyHash.le32_length, KeyHash.le32_length])
  have lt : ∀ s : ZMod Regev.P, s.val < 256 ^ 32 := fun s => (ZMod.val_lt s).trans (by decide +kernel)
  have e0 := ZMod.val_injective _ (KeyHash.le32_inj (lt _) (lt _) h0)
  have e1 := ZMod.val_injective _ (KeyHash.le32_inj (lt _) (lt _) h1)
  apply Elt.ext
  funext i
  have : i = 0 ∨ i = 1 := by omega
  rcases this with rfl | rfl
  · exact e0
  · exact e1

theorem reply_inj (z z' : EVec Regev.P 2) (h : replyMsgs z = replyMsgs z') : z = z' := by
  have hlen := congrArg List.length h
  simp only [replyMsgs, List.length_map, List.length_zipIdx] at hlen
  apply List.ext_getElem hlen
  intro i h1 h2
  have := congrArg (fun l => l[i]?) h
  simp only [replyMsgs, List.getElem?_map, List.getElem?_zipIdx, List.getElem?_eq_getElem h1,
    List.getElem?_eq_getElem h2, Option.map_some, Option.some.injEq, TOp.commit.injEq] at this
  exact elt_inj _ _ this.2

theorem small_before (pb : G → Bytes) (com : Blocks G) (z : EVec Regev.P 2) :
    before 1 (smallMsgs pb com z) = .commit (str "smallnessPf") (pb com.y) ::
      .challenge (str "Smallness") (matrixBytes 1300 64) :: replyMsgs z := by
  simp only [smallMsgs, List.append_assoc, List.cons_append, List.nil_append, before, before_reply, List.append_nil]

theorem commits_inj (A B : List TOp) (hA : nreq A = 0) (hB : nreq B = 0) (l l' : Bytes) (n n' : ℕ)
    (r r' : List TOp) (h : A ++ .challenge l n :: r = B ++ .challenge l' n' :: r') : A = B ∧ r = r' := by
  induction A generalizing B with
  | nil =>
    cases B with
    | nil => simp at h; exact ⟨rfl, h.2⟩
    | cons b B =>
      cases b with
      | commit l m => simp at h
      | challenge l m => simp [nreq] at hB
  | cons a A ih =>
    cases a with
    | challenge l m => simp [nreq] at hA
    | commit l m =>
      cases B with
      | nil => simp at h
      | cons b B =>
        cases b with
        | challenge l m => simp [nreq] at hB
        | commit l' m' =>
          rw [List.cons_append, List.cons_append] at h
          obtain ⟨h1, h2⟩ := List.cons.inj h
          obtain ⟨i1, i2⟩ := ih B hA hB h2
          exact ⟨by rw [h1, i1], i2⟩

theorem round_inj (pb : G → Bytes) (hpb : Function.Injective pb) (kay enn tee : ℕ) (com com' : Blocks G)
    (z z' : EVec Regev.P 2) (r r' : List TOp)
    (h : roundMsgs pb kay enn tee com z ++ r = roundMsgs pb kay enn tee com' z' ++ r') :
    sentBefore 13 com = sentBefore 13 com' ∧ z = z' ∧ r = r' := by
  simp only [roundMsgs, decMsgs, encMsgs, keyMsgs, smallMsgs, List.append_assoc, List.cons_append, List.nil_append,
    List.cons.injEq, TOp.commit.injEq, true_and, and_true, hpb.eq_iff] at h
  have hz := commits_inj _ _ (nreq_reply z) (nreq_reply z') (str "SmallnessChallenge") (str "SmallnessChallenge")
    64 64 r r' (by simp only [h])
  exact ⟨by simp [sentBefore, h], reply_inj _ _ hz.1, hz.2⟩

theorem round_bound (pb : G → Bytes) (hpb : Function.Injective pb) (kay enn tee : ℕ) (com com' : Blocks G)
    (z z' : EVec Regev.P 2) (j j' : ℕ) (hj : j ≤ 17) (hj' : j' ≤ 17)
    (h : before j (roundMsgs pb kay enn tee com z ++ aggregateMsgs) =
      before j' (roundMsgs pb kay enn tee com' z' ++ aggregateMsgs)) :
    j = j' ∧ sentBefore j com = sentBefore j com' ∧ (13 ≤ j → z = z') := by
  have ha : nreq aggregateMsgs = 4 := rfl
  have e := congrArg nreq h
  rw [nreq_before _ _ (by rw [nreq_append, nreq_round, ha]; omega),
    nreq_before _ _ (by rw [nreq_append, nreq_round, ha]; omega)] at e
  subst e
  refine ⟨rfl, ?_⟩
  rcases Nat.lt_or_ge j 14 with h14 | h14
  · rw [before_left _ _ _ (by rw [nreq_round]; exact h14), before_left _ _ _ (by rw [nreq_round]; exact h14)] at h
    rcases Nat.lt_or_ge j 13 with hlt | hge
    · interval_cases j <;>
      · simp only [roundMsgs, decMsgs, encMsgs, keyMsgs, smallMsgs, List.cons_append, List.nil_append, before,
          List.cons.injEq, TOp.commit.injEq, true_and, and_true, hpb.eq_iff] at h
        simp [sentBefore, h]
    · obtain rfl : j = 13 := by omega
      simp only [roundMsgs, decMsgs, encMsgs, keyMsgs, List.cons_append, List.nil_append, before, small_before,
        List.cons.injEq, TOp.commit.injEq, true_and, and_true, hpb.eq_iff] at h
      exact ⟨by simp [sentBefore, h], fun _ => reply_inj _ _ (by simp [h])⟩
  · obtain ⟨i, rfl⟩ : ∃ i, j = 14 + i := ⟨j - 14, by omega⟩
    have e1 := before_append (roundMsgs pb kay enn tee com z) aggregateMsgs i
    have e2 := before_append (roundMsgs pb kay enn tee com' z') aggregateMsgs i
    rw [nreq_round] at e1 e2
    rw [e1, e2] at h
    obtain ⟨h1, h2, -⟩ := round_inj pb hpb _ _ _ _ _ _ _ _ _ h
    have hs : ∀ com : Blocks G, sentBefore (14 + i) com = sentBefore 13 com := by
      intro com
      simp [sentBefore, show 1 ≤ 14 + i by omega, show 2 ≤ 14 + i by omega, show 5 ≤ 14 + i by omega,
        show 8 ≤ 14 + i by omega, show 10 ≤ 14 + i by omega, show 12 ≤ 14 + i by omega]
    exact ⟨by rw [hs, hs, h1], fun _ => h2⟩

theorem history_inj (pb : G → Bytes) (hpb : Function.Injective pb) (kay enn tee : ℕ) :
    ∀ (past past' : List (Blocks G × EVec Regev.P 2)) (rest rest' : List TOp), past.length = past'.length →
    historyMsgs pb kay enn tee past ++ rest = historyMsgs pb kay enn tee past' ++ rest' →
    past.map (fun r => (sentBefore 13 r.1, r.2)) = past'.map (fun r => (sentBefore 13 r.1, r.2)) ∧ rest = rest' := by
  intro past
  induction past with
  | nil =>
    intro past' rest rest' hl h
    obtain rfl := List.length_eq_zero_iff.1 hl.symm
    exact ⟨rfl, h⟩
  | cons r past ih =>
    intro past' rest rest' hl h
    cases past' with
    | nil => simp at hl
    | cons r' past' =>
      simp only [historyMsgs, List.flatMap_cons, List.append_assoc] at h
      obtain ⟨h1, h2, h3⟩ := round_inj pb hpb _ _ _ _ _ _ _ _ _ h
      obtain ⟨i1, i2⟩ := ih past' rest rest' (by simpa using hl) (List.append_cancel_left h3)
      exact ⟨by rw [List.map_cons, List.map_cons, h1, h2, i1], i2⟩

theorem nreq_history (pb : G → Bytes) (kay enn tee : ℕ) (past : List (Blocks G × EVec Regev.P 2)) :
    nreq (historyMsgs pb kay enn tee past) = 18 * past.length := by
  induction past with
  | nil => rfl
  | cons r past ih =>
    rw [historyMsgs, List.flatMap_cons, nreq_append, nreq_append, nreq_round]
    have := ih
    unfold historyMsgs at this
    rw [this, List.length_cons, show nreq aggregateMsgs = 4 from rfl]
    omega

/-- **C83, binding.** The challenges of a round are requests 0, …, 17 (the last four are those of the aggregation).
The sponge input from which request `j` of some round of one party is answered is the input of request `j'` of some
round of another only if the label of the transcript is the same, it is the same round and the same request, all the
commitments sent and the masked replies are the same in all the earlier rounds, the commitments sent before this
request are the same in this round, and so is the masked reply, if the request comes after it. -/
theorem C83_binding (c : Curve G) (hpb : Function.Injective c.pointBytes) (kay enn tee : ℕ) (tag tag' : Bytes)
    (past past' : List (Blocks G × EVec Regev.P 2)) (com com' : Blocks G) (z z' : EVec Regev.P 2) (j j' : ℕ)
    (hj : j ≤ 17) (hj' : j' ≤ 17)
    (h : traceOf (transcriptOps tag (historyMsgs c.pointBytes kay enn tee past ++
        before j (roundMsgs c.pointBytes kay enn tee com z ++ aggregateMsgs))) =
      traceOf (transcriptOps tag' (historyMsgs c.pointBytes kay enn tee past' ++
        before j' (roundMsgs c.pointBytes kay enn tee com' z' ++ aggregateMsgs)))) :
    tag = tag' ∧ past.length = past'.length ∧ j = j' ∧
      past.map (fun r => (sentBefore 13 r.1, r.2)) = past'.map (fun r => (sentBefore 13 r.1, r.2)) ∧
      sentBefore j com = sentBefore j com' ∧ (13 ≤ j → z = z') := by
  obtain ⟨h1, h2⟩ := C51_injective _ _ _ _ h
  have ha : nreq aggregateMsgs = 4 := rfl
  have e := congrArg nreq h2
  rw [nreq_append, nreq_append, nreq_history, nreq_history,
    nreq_before _ _ (by rw [nreq_append, nreq_round, ha]; omega),
    nreq_before _ _ (by rw [nreq_append, nreq_round, ha]; omega)] at e
  have hl : past.length = past'.length := by omega
  obtain ⟨h3, h4⟩ := history_inj c.pointBytes hpb _ _ _ _ _ _ _ hl h2
  obtain ⟨h5, h6, h7⟩ := round_bound c.pointBytes hpb _ _ _ _ _ _ _ _ _ hj hj' h4
  exact ⟨h1, hl, h5, h3, h6, h7⟩

/-- **C83, binding of the final proofs.** After the same number of complete rounds, whatever follows (the aggregated
constraints and the messages of the final proofs): the sponge inputs are the same only if all the commitments sent
and the masked replies of all rounds are the same, and what follows is the same. -/
theorem C83_final_binding (c : Curve G) (hpb : Function.Injective c.pointBytes) (kay enn tee : ℕ) (tag tag' : Bytes)
    (past past' : List (Blocks G × EVec Regev.P 2)) (rest rest' : List TOp) (hl : past.length = past'.length)
    (h : traceOf (transcriptOps tag (historyMsgs c.pointBytes kay enn tee past ++ rest)) =
      traceOf (transcriptOps tag' (historyMsgs c.pointBytes kay enn tee past' ++ rest'))) :
    tag = tag' ∧ past.map (fun r => (sentBefore 13 r.1, r.2)) = past'.map (fun r => (sentBefore 13 r.1, r.2)) ∧
      rest = rest' := by
  obtain ⟨h1, h2⟩ := C51_injective _ _ _ _ h
  exact ⟨h1, history_inj c.pointBytes hpb _ _ _ _ _ _ _ hl h2⟩

/-- **C83, what is not bound.** The messages of a round do not depend on the commitment to the old key and the
commitment to `w`. -/
theorem C83_not_bound (pb : G → Bytes) (kay enn tee : ℕ) (com : Blocks G) (sk1 w : G) (z : EVec Regev.P 2) :
    roundMsgs pb kay enn tee { com with sk1 := sk1, w := w } z = roundMsgs pb kay enn tee com z := rfl

end Verif.Props
