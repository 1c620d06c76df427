/-
Specification of the life of a shared secret: committees that hand it over to each other, with the
functions of the library (`newSharing` for the dealer, `lagrangeCoeffs`/`getSecret` for the receiver, as in
`proveReShare`, regevProofs.cpp:601-660, and main.cpp:93-154).
-/
import Verif.Model.Main
import Verif.Spec.Shamir

namespace Verif.Spec
open Verif Verif.Regev

section
variable {F : Type} [Field F] [DecidableEq F]

/-- One handover: the members of the old committee (given by their points) whose dealings are used, the
points and the threshold of the new committee, and the random coefficients that each dealer draws. -/
structure Handover (F : Type) where
  dealers : List ℤ
  pts : List ℤ
  thr : ℕ
  coins : ℤ → List F

/-- The shares of those members of a committee that are in `sub`. -/
def sharesFor (pts : List ℤ) (shares : List F) (sub : List ℤ) : List F :=
  ((pts.zip shares).filter fun p => p.1 ∈ sub).map Prod.snd

/-- Every dealer shares its share among the new committee. -/
def dealings (pts : List ℤ) (shares : List F) (H : Handover F) : List (List F) :=
  ((pts.zip shares).filter fun p => p.1 ∈ H.dealers).map fun p => newSharing H.pts (H.coins p.1) p.2

/-- Member number `j` of the new committee (from 0) takes its entry of each dealing and combines these
entries as if it reconstructed a secret from them. -/
def newShare (D : List (List F)) (dealers : List ℤ) (j : ℕ) : Res F := do
  let col ← mapRes (fun d => rd d (j + 1)) D
  getSecret col dealers

/-- The shares of the new committee. -/
def handover (pts : List ℤ) (shares : List F) (H : Handover F) : Res (List F) :=
  mapRes (newShare (dealings pts shares H) H.dealers) (List.range H.pts.length)

/-- Any number of handovers, one after the other. -/
def handovers : List ℤ → List F → List (Handover F) → Res (List F)
  | _, shares, [] => .ok shares
  | pts, shares, H :: Hs => do
    let shares' ← handover pts shares H
    handovers H.pts shares' Hs

/-- The points of the last committee. -/
def lastPts : List ℤ → List (Handover F) → List ℤ
  | pts, [] => pts
  | _, H :: Hs => lastPts H.pts Hs

/-- The threshold of the last committee. -/
def lastThr : ℕ → List (Handover F) → ℕ
  | t, [] => t
  | _, H :: Hs => lastThr H.thr Hs

end

noncomputable section
variable {q : ℕ} [Fact q.Prime]

/-- What is needed to send the dealings of a handover over a public channel: the global key with the public
keys of the new committee, the secret keys of its members, and the random choices of each dealer. -/
structure Channel (q : ℕ) where
  gk : GlobalKey q 2
  sks : List (EVec q 2)
  coins : ℕ → Rnd × Rnd × Rnd

/-- A handover over a public channel: each dealing is encrypted to the new committee, and each member decrypts
its entry of each ciphertext. -/
def sealedHandover (delta : ℕ) (C : Channel q) (pts : List ℤ) (shares : List (ZMod q)) (H : Handover (ZMod q)) :
    Res (List (ZMod q)) := do
  let D := dealings pts shares H
  let cts ← mapRes (fun i => do
    let d ← rd D i
    let r ← C.gk.encrypt delta d.tail (C.coins i).1 (C.coins i).2.1 (C.coins i).2.2
    .ok r.1) (List.range D.length)
  mapRes (fun j => do
    let sk ← rd C.sks j
    let col ← mapRes (fun c => do
      let r ← C.gk.decrypt delta sk j c
      .ok r.1) cts
    getSecret col H.dealers) (List.range H.pts.length)

/-- Any number of them. -/
def sealedHandovers (delta : ℕ) : List ℤ → List (ZMod q) → List (Channel q × Handover (ZMod q)) →
    Res (List (ZMod q))
  | _, shares, [] => .ok shares
  | pts, shares, (C, H) :: Hs => do
    let shares' ← sealedHandover delta C pts shares H
    sealedHandovers delta H.pts shares' Hs

end
end Verif.Spec
