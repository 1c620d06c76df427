/-
The verifiers of /repo/src/dlproofs/bulletproof.cpp once more, on points that are arrays of bytes
as they come from a stream: nothing is known about them, and every operation on them is the
operator of `Point` (Model/Point25519.lean), which can throw.  Scalars are residues, and the
points that the library derives itself (the generator F, the base point) are elements of the main
subgroup, here in their encoding `E.pointBytes`.
-/
import Verif.Model.Bulletproof
import Verif.Model.Point25519

namespace Verif
open Verif.Sc

/-- `LinPfTranscript`, bulletproof.hpp:67-75, with points as bytes. -/
structure LinPfB (F : Type) where
  tag : Bytes
  C : Bytes
  Ls : List Bytes
  Rs : List Bytes
  S : Bytes
  a : F
  r : F

/-- `QuadPfTranscript`, bulletproof.hpp:149-157, with points as bytes. -/
structure QuadPfB (F : Type) where
  tag : Bytes
  C : Bytes
  Ls : List Bytes
  Rs : List Bytes
  S1 : Bytes
  S2 : Bytes
  a : F
  b : F
  r : F

section
variable {F G : Type} [Field F] [DecidableEq F]

/-- `multiExp`, naive.cpp:32-37. -/
def multiExpB (E : Env F G) (S : Sodium) (Gs : List Bytes) (n : Nat) (xes : List F) : Res Bytes := do
  let gs ← rdN Gs n
  let xs ← rdN xes n
  S.sumMul (xs.map E.scalarBytes) gs S.identityPoint

/-- `expSubsetProduct`, naive.cpp:89-98. -/
def expSubsetProductB (E : Env F G) (S : Sodium) (Gs : List Bytes) (n : Nat) (xes : List F) (a : F)
    (offsets : Option (List F)) : Res Bytes := do
  let logn := log2roundUp n
  let prods ← subsetProduct n xes logn a
  match offsets with
  | none => multiExpB E S Gs n prods
  | some off => do
    let off' ← rdN off n
    multiExpB E S Gs n (addInto prods off')

/-- The main loop of `verifyLinear`, bulletproof.cpp:208-231 (see `verifyLinLoop`). -/
def verifyLinLoopB (E : Env F G) (Ls Rs : List Bytes) (n nOver2 ii : Nat) (bs : List F) (st : E.St) :
    Res (List F × List F × List F × E.St) :=
  if n > 1 then do
    let L ← rd Ls ii
    let R ← rd Rs ii
    let st := E.commit st (lblL n) L
    let st := E.commit st lblR R
    let (x, st) := E.newChallenge st lblx
    let xInv ← inverseOf x
    let b2 ← rdN (bs.drop nOver2) (n - nOver2)
    let bs := addInto bs (b2.map (fun b => b * x))
    let (xs, xis, bs', st) ← verifyLinLoopB E Ls Rs nOver2 (nOver2 / 2) (ii + 1) (bs.take nOver2) st
    .ok (x :: xs, xInv :: xis, bs', st)
  else .ok ([], [], bs, st)
termination_by if n > 1 then nOver2 + 1 else 0
decreasing_by
  all_goals (split <;> omega)

/-- `verifyLinear` (low level), bulletproof.cpp:188-251. -/
def verifyLinearB (E : Env F G) (S : Sodium) (pf : LinPfB F) (bs : List F) (gs : List Bytes) (n : Nat)
    (eq : F) (st : E.St) (wOffsets : Option (List F)) : Res (Bool × E.St) := do
  let st := E.commit st lblC pf.C
  let (Fg, st) := E.newGenerator st lblF
  let f ← S.ptMul (E.pointBytes Fg) (E.scalarBytes eq)
  let C ← S.ptAdd pf.C f
  let logN := log2roundUp n
  if pf.Ls.length ≠ logN ∨ pf.Rs.length ≠ logN then .throw else
    let (xes, xInvs, bs', st) ← verifyLinLoopB E pf.Ls pf.Rs n (next2power n / 2) 0 bs st
    let m1 ← multiExpB E S pf.Ls pf.Ls.length xes
    let m2 ← multiExpB E S pf.Rs pf.Rs.length xInvs
    let m ← S.ptAdd m1 m2
    let C ← S.ptAdd C m
    let st := E.commit st lblS pf.S
    let (x, st) := E.newChallenge st lblx
    let _xInv ← inverseOf x
    let off ← (match wOffsets with
      | none => .ok none
      | some w => do
        let w' ← rdN w n
        .ok (some (w'.map (fun o => o * x))) : Res (Option (List F)))
    let tmp ← expSubsetProductB E S gs n xes pf.a off
    let b0 ← rd bs' 0
    let xC ← S.ptMul C (E.scalarBytes x)
    let lhs ← S.ptAdd pf.S xC
    let rB ← S.ptMul S.basePoint (E.scalarBytes pf.r)
    let fF ← S.ptMul (E.pointBytes Fg) (E.scalarBytes (pf.a * b0))
    let t ← S.ptAdd rB fF
    let rhs ← S.ptAdd t tmp
    .ok (decide (lhs = rhs), st)

/-- The main loop of `verifyQuadratic`, bulletproof.cpp:363-377 (see `verifyQuadLoop`). -/
def verifyQuadLoopB (E : Env F G) (Ls Rs : List Bytes) (n nOver2 ii : Nat) (st : E.St) :
    Res (List F × List F × E.St) :=
  if n > 1 then do
    let L ← rd Ls ii
    let R ← rd Rs ii
    let st := E.commit st (lblL n) L
    let st := E.commit st lblR R
    let (x, st) := E.newChallenge st lblx
    let xInv ← inverseOf x
    let (xs, xis, st) ← verifyQuadLoopB E Ls Rs nOver2 (nOver2 / 2) (ii + 1) st
    .ok (x :: xs, xInv :: xis, st)
  else .ok ([], [], st)
termination_by if n > 1 then nOver2 + 1 else 0
decreasing_by
  all_goals (split <;> omega)

/-- `verifyQuadratic` (low level), bulletproof.cpp:342-395. -/
def verifyQuadraticB (E : Env F G) (S : Sodium) (pf : QuadPfB F) (gs hs : List Bytes) (n : Nat) (eq : F)
    (st : E.St) (uOffsets vOffsets : Option (List F)) : Res (Bool × E.St) := do
  let st := E.commit st lblC pf.C
  let (Fg, st) := E.newGenerator st lblF
  let f ← S.ptMul (E.pointBytes Fg) (E.scalarBytes eq)
  let C ← S.ptAdd pf.C f
  let logN := log2roundUp n
  if pf.Ls.length ≠ logN ∨ pf.Rs.length ≠ logN then .throw else
    let (xes, xInvs, st) ← verifyQuadLoopB E pf.Ls pf.Rs n (next2power n / 2) 0 st
    let m1 ← multiExpB E S pf.Ls pf.Ls.length xes
    let m2 ← multiExpB E S pf.Rs pf.Rs.length xInvs
    let m ← S.ptAdd m1 m2
    let C ← S.ptAdd C m
    let tmpG ← expSubsetProductB E S gs n xes pf.a uOffsets
    let tmpH ← expSubsetProductB E S hs n xInvs pf.b vOffsets
    let st := E.commit st lblS1 pf.S1
    let st := E.commit st lblS2 pf.S2
    let (x, st) := E.newChallenge st lblx
    let xS ← S.ptMul pf.S2 (E.scalarBytes x)
    let s ← S.ptAdd pf.S1 xS
    let xs ← S.ptMul s (E.scalarBytes x)
    let lhs ← S.ptAdd C xs
    let rB ← S.ptMul S.basePoint (E.scalarBytes pf.r)
    let t ← S.ptAdd rB tmpG
    let t ← S.ptAdd t tmpH
    let fF ← S.ptMul (E.pointBytes Fg) (E.scalarBytes (pf.a * pf.b))
    let rhs ← S.ptAdd t fF
    .ok (decide (lhs = rhs), st)

end

end Verif
