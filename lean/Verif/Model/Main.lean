/-
Model of the driver program /repo/src/main.cpp:56-255 from the generation of the keys to the last
verification: a run of the whole protocol for one party, with keys of all the parties, a sharing of a
random secret, encryption, decryption, re-encryption, the proofs and their verification.

All random choices are arguments.  The loops over vectors write their results one by one; here they are
`mapRes` over the range of the index.  Timing and printing are left out, except for the three complaints
that the program may print.
-/
import Verif.Model.Driver
import Verif.Model.Shamir

namespace Verif
open Regev

noncomputable section
variable {q : ℕ} [Fact q.Prime] {G : Type} [AddCommGroup G] [Module (ZMod q) G]

/-- The random choices before the proofs. -/
structure MainCoins (q : ℕ) where
  /-- for the key pair of each party: secret key, noise -/
  keys : ℕ → Rnd × Rnd
  /-- `randomSharing`, shamir.hpp:63-67: the secret -/
  secret : ZMod q
  /-- the coefficients of its sharing -/
  shares : ℕ → ZMod q
  /-- for the ciphertext of each party: randomness, first and second noise -/
  enc : ℕ → Rnd × Rnd × Rnd
  /-- for the ciphertext of the new sharing -/
  reEnc : Rnd × Rnd × Rnd

/-- The loop of main.cpp:80-83: `k` parties are left, party `i` is next; a key pair is generated with the
global key as it is, and the public key added to it.  Returns the global key and the pairs of secret key and
noise. -/
def genAll (coins : ℕ → Rnd × Rnd) : ℕ → ℕ → GlobalKey q 2 →
    Res (GlobalKey q 2 × List (EVec q 2 × EVec q 2))
  | 0, _, gk => .ok (gk, [])
  | k + 1, i, gk => do
    let (sk, pk, noise) ← gk.keyGen (coins i).1 (coins i).2
    let added := gk.addPK pk
    let _ ← added.2
    let (gk', rest) ← genAll coins k (i + 1) added.1
    .ok (gk', (sk, noise) :: rest)

/-- main.cpp:72-154: everything before the first proof.  `gk0` is the new global key, `party` the index of
the party that makes the proofs (1 in the program).  Returns the global key with all the public keys, the
values that enter the proofs, and whether the program complains about a decryption error (lines 122-125). -/
def mainInputs (delta : ℕ) (gk0 : GlobalKey q 2) (party : ℕ) (C : MainCoins q) :
    Res (GlobalKey q 2 × RoundInput q × Bool) := do
  -- lines 80-84
  let (gk, ks) ← genAll C.keys gk0.enn 0 gk0
  -- lines 94-95; the evaluation points are those of line 67
  let sshr := newSharing (interval 1 (gk.enn + 1)) ((List.range (gk.tee - 1)).map C.shares) C.secret
  -- lines 96-99
  let ptxt1 ← mapRes (fun i => do
    let s ← rd sshr (i + 1)
    .ok (List.replicate gk.enn s)) (List.range gk.enn)
  -- lines 102-104
  let ctxt1 ← mapRes (fun i => do
    let p ← rd ptxt1 i
    let r ← gk.encrypt delta p (C.enc i).1 (C.enc i).2.1 (C.enc i).2.2
    .ok r.1) (List.range gk.enn)
  -- lines 111-115
  let key ← rd ks party
  let dec ← mapRes (fun i => do
    let c ← rd ctxt1 i
    gk.decrypt delta key.1 party c) (List.range gk.tee)
  -- lines 121-124
  let wrong ← mapRes (fun i => do
    let d ← rd dec i
    let p ← rd ptxt1 i
    let x ← rd p party
    .ok (decide (d.1 ≠ x))) (List.range gk.tee)
  -- lines 127-129
  let ptxt3 ← mapRes (fun j => rd sshr (j + 1)) (List.range gk.enn)
  -- line 132
  let (ctxt2, encRnd, encNoise1, encNoise2) ← gk.encrypt delta ptxt3 C.reEnc.1 C.reEnc.2.1 C.reEnc.2.2
  -- lines 135-143
  let ctMat ← mapRes (fun j => mapRes (fun i => do
    let c ← rd ctxt1 i
    rd c.1 j) (List.range gk.tee)) (List.range gk.kay)
  let ctVec ← mapRes (fun i => do
    let c ← rd ctxt1 i
    rd c.2 party) (List.range gk.tee)
  -- line 154
  let lagrange ← lagrangeCoeffs (interval 1 (gk.tee + 1))
  .ok (gk, { ctMat, ctVec, pt1 := dec.map Prod.fst, sk1 := key.1, decNoise := dec.map Prod.snd
             ct1 := ctxt2.1, ct2 := ctxt2.2, pt2 := ptxt3, encRnd, encNoise1, encNoise2
             pkNum := party, sk2 := key.1, keyNoise := key.2, lagrange }, wrong.any id)

/-- What the program computes up to and including `proveSmallness` (line 161): whether it complained about
a decryption error, the parameters, the values that entered the proofs, the state before and after the
five proof functions.  `bounds` gives the norm bounds for the final global key and parity check matrix
(computed in the constructor of `VerifierData` from the dimensions).  `r` is the randomness of the
commitment to the secret key, `rnd0` the uninitialised memory that the constructor of `ProverData`
leaves. -/
def mainProve (E : Env (ZMod q) G) (getG getH : ℕ → G) (ntlKernel : List (List (ZMod q)) → List (List (ZMod q)))
    (bounds : GlobalKey q 2 → List (List (ZMod q)) → Res (Params q)) (delta : ℕ) (k n sigma1 sigma2 : ℤ)
    (crs : ℕ → ℕ → Elt (ZMod q) 2) (party : ℕ) (C : MainCoins q) (mer : E.St) (rnd0 fresh : Blocks (ZMod q))
    (r : ZMod q) (tests : ℕ → Tests) (small : ℕ → SmallRnd q) :
    Res (Bool × Params q × VerifierData (ZMod q) G E.St × ProverData (ZMod q)) := do
  -- line 60
  let gk0 ← GlobalKey.new k n sigma1 sigma2 crs
  -- line 67
  let sp ← SharingParams.make ntlKernel (interval 1 (gk0.enn + 1)) gk0.tee
  -- lines 72-154
  let (gk, inp, wrong) ← mainInputs delta gk0 party C
  let P ← bounds gk sp.H
  -- lines 68-69; the constructors depend only on the dimensions in the global key
  let vd ← newVerifierData getG getH P mer
  -- line 151
  let (vd, pd) ← commitKey E inp.sk1 r vd (newProverData rnd0)
  -- lines 157-161
  let (vd, pd) ← proveRound E P fresh tests small inp vd pd
  .ok (wrong, P, vd, pd)

end
end Verif
