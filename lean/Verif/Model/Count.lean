/-
The exponentiation counter: the functions of /repo/src/dlproofs once more, now with the effect
of `Point::counter` (point25519.hpp:41,103), which main.cpp:147-257 resets and reports.  The
values that are computed are those of `Model/Pedersen.lean` and `Model/Bulletproof.lean`.
-/
import Verif.Model.Bulletproof

namespace Verif

/-- The counter of the library and, beside it, a count the library does not keep: how many
products of a point with a scalar were trivial and are not in `counter`. -/
structure Counter where
  counter : Nat
  trivial : Nat
  deriving DecidableEq

/-- A computation that changes the counter. -/
def Cnt (α : Type) : Type := Counter → Res (α × Counter)

instance : Monad Cnt where
  pure a := fun c => .ok (a, c)
  bind p f := fun c => (p c).bind fun r => f r.1 r.2

/-- Computations without products. -/
instance : MonadLift Res Cnt where
  monadLift r := fun c => r.bind fun a => .ok (a, c)

section
variable {F G : Type} [Field F] [AddCommGroup G] [Module F G] [DecidableEq F] [DecidableEq G]

/-- `Point::operator*=`, point25519.hpp:93-110: the identity and zero are handled without an
exponentiation, everything else is counted. -/
def smulC (x : F) (P : G) : Cnt G := fun c =>
  .ok (x • P, if P = 0 ∨ x = 0 then { c with trivial := c.trivial + 1 }
    else { c with counter := c.counter + 1 })

/-- The loop of `multiExp`, naive.cpp:33-36. -/
def multiExpAccC : G → List G → List F → Cnt G
  | c, g :: gs, x :: xs => do
    let p ← smulC x g
    multiExpAccC (c + p) gs xs
  | c, _, _ => pure c

/-- `multiExp`, naive.cpp:32-37. -/
def multiExpC (Gs : List G) (n : Nat) (xes : List F) : Cnt G := do
  let gs ← rdN Gs n
  let xs ← rdN xes n
  multiExpAccC 0 gs xs

/-- `multiBaseOneExp`, naive.cpp:40-43. -/
def multiBaseOneExpC (x : F) : List G → Cnt (List G)
  | [] => pure []
  | g :: gs => do
    let p ← smulC x g
    let ps ← multiBaseOneExpC x gs
    pure (p :: ps)

/-- `foldGenerators`, naive.cpp:46-54. -/
def foldGeneratorsC (Gs : List G) (n : Nat) (x : F) (nOver2 : Nat) : Cnt (List G) := do
  let gs ← rdN Gs n
  if n < nOver2 then (Res.ub : Res (List G)) else
    let hi ← multiBaseOneExpC x (gs.drop nOver2)
    let s := gs.take nOver2 ++ hi
    pure (addInto s (s.drop nOver2))

/-- `expSubsetProduct`, naive.cpp:89-98. -/
def expSubsetProductC (Gs : List G) (n : Nat) (xes : List F) (a : F) (offsets : Option (List F)) :
    Cnt G := do
  let logn := log2roundUp n
  let prods ← subsetProduct n xes logn a
  match offsets with
  | none => multiExpC Gs n prods
  | some off => do
    let off' ← rdN off n
    multiExpC Gs n (addInto prods off')

/-- `commit`, pedersen.hpp:114-117. -/
def commitC (base : G) (Gs : List G) (xes : List F) (n : Nat) (r : F) (Fg : G := 0) (alpha : F := 0) :
    Cnt G := do
  let m ← multiExpC Gs n xes
  let p ← smulC r base
  let f ← smulC alpha Fg
  pure (p + f + m)

/-- `commit2`, pedersen.hpp:123-127. -/
def commit2C (base : G) (Gs : List G) (xes : List F) (Hs : List G) (ys : List F) (n : Nat) (r : F)
    (Fg : G := 0) (alpha : F := 0) : Cnt G := do
  let m1 ← multiExpC Gs n xes
  let m2 ← multiExpC Hs n ys
  let p ← smulC r base
  let f ← smulC alpha Fg
  pure (p + f + m1 + m2)

/-- The main loop of `proveLinear`, bulletproof.cpp:136-167. -/
def proveLinLoopC (E : Env F G) (coins : Nat → F × F) (Fg : G) (n nOver2 : Nat)
    (s : LinProverState F G E.St) : Cnt (LinProverState F G E.St) :=
  if n > 1 then do
    let (sb, tb) := coins s.k
    let m1 ← multiExpC (s.gs.drop nOver2) (n - nOver2) s.as
    let i1 ← innerProduct (s.bs.drop nOver2) s.as (n - nOver2)
    let p1 ← smulC sb E.base
    let f1 ← smulC i1 Fg
    let L := p1 + m1 + f1
    let m2 ← multiExpC s.gs (n - nOver2) (s.as.drop nOver2)
    let i2 ← innerProduct s.bs (s.as.drop nOver2) (n - nOver2)
    let p2 ← smulC tb E.base
    let f2 ← smulC i2 Fg
    let R := p2 + m2 + f2
    let st := E.processPoint s.st (lblL n) L
    let st := E.processPoint st lblR R
    let (x, st) := E.newChallenge st lblx
    let xInv ← inverseOf x
    let a2 ← rdN (s.as.drop nOver2) (n - nOver2)
    let b2 ← rdN (s.bs.drop nOver2) (n - nOver2)
    let as := addInto s.as (a2.map (fun a => a * xInv))
    let bs := addInto s.bs (b2.map (fun b => b * x))
    let gs ← foldGeneratorsC s.gs n x nOver2
    let r := s.r + (sb * x + tb * xInv)
    proveLinLoopC E coins Fg nOver2 (nOver2 / 2)
      ⟨s.Ls ++ [L], s.Rs ++ [R], as.take nOver2, bs.take nOver2, gs.take nOver2, r, st, s.k + 1⟩
  else pure s
termination_by if n > 1 then nOver2 + 1 else 0
decreasing_by
  all_goals (split <;> omega)

/-- `proveLinear` (low level), bulletproof.cpp:127-182. -/
def proveLinearC (E : Env F G) (coins : Nat → F × F) (pf : LinPf F G) (r : F) (st : E.St)
    (as bs : List F) (gs : List G) (n : Nat) : Cnt (LinPf F G × E.St) := do
  let st := E.processPoint st lblC pf.C
  let (Fg, st) := E.newGenerator st lblF
  let e ← proveLinLoopC E coins Fg n (next2power n / 2) ⟨pf.Ls, pf.Rs, as, bs, gs, r, st, 0⟩
  let (s, t) := coins e.k
  let g0 ← rd e.gs 0
  let b0 ← rd e.bs 0
  let a0 ← rd e.as 0
  let q1 ← smulC s g0
  let q2 ← smulC (s * b0) Fg
  let q3 ← smulC t E.base
  let S := q1 + q2 + q3
  let st := E.processPoint e.st lblS S
  let (x, st) := E.newChallenge st lblx
  pure ({ pf with Ls := e.Ls, Rs := e.Rs, S := S, a := s + a0 * x, r := t + e.r * x }, st)

/-- `verifyLinear` (low level), bulletproof.cpp:188-251; its main loop multiplies no points. -/
def verifyLinearC (E : Env F G) (pf : LinPf F G) (bs : List F) (gs : List G) (n : Nat) (eq : F)
    (st : E.St) (wOffsets : Option (List F)) : Cnt (Bool × E.St) := do
  let st := E.processPoint st lblC pf.C
  let (Fg, st) := E.newGenerator st lblF
  let f ← smulC eq Fg
  let C := pf.C + f
  let logN := log2roundUp n
  if pf.Ls.length ≠ logN ∨ pf.Rs.length ≠ logN then (Res.throw : Res (Bool × E.St)) else
    let (xes, xInvs, bs', st) ← verifyLinLoop E pf.Ls pf.Rs n (next2power n / 2) 0 bs st
    let m1 ← multiExpC pf.Ls pf.Ls.length xes
    let m2 ← multiExpC pf.Rs pf.Rs.length xInvs
    let C := C + (m1 + m2)
    let st := E.processPoint st lblS pf.S
    let (x, st) := E.newChallenge st lblx
    let _xInv ← inverseOf x
    let off ← (match wOffsets with
      | none => .ok none
      | some w => do
        let w' ← rdN w n
        .ok (some (w'.map (fun o => o * x))) : Res (Option (List F)))
    let tmp ← expSubsetProductC gs n xes pf.a off
    let b0 ← rd bs' 0
    let xC ← smulC x C
    let rB ← smulC pf.r E.base
    let fF ← smulC (pf.a * b0) Fg
    pure (decide (pf.S + xC = rB + fF + tmp), st)

/-- The main loop of `proveQuadratic`, bulletproof.cpp:284-317. -/
def proveQuadLoopC (E : Env F G) (coins : Nat → F × F) (Fg : G) (n nOver2 : Nat)
    (s : QuadProverState F G E.St) : Cnt (QuadProverState F G E.St) :=
  if n > 1 then do
    let (sb, tb) := coins s.k
    let m1 ← multiExpC (s.gs.drop nOver2) (n - nOver2) s.as
    let m1' ← multiExpC s.hs (n - nOver2) (s.bs.drop nOver2)
    let i1 ← innerProduct s.as (s.bs.drop nOver2) (n - nOver2)
    let p1 ← smulC sb E.base
    let f1 ← smulC i1 Fg
    let L := p1 + m1 + m1' + f1
    let m2 ← multiExpC s.gs (n - nOver2) (s.as.drop nOver2)
    let m2' ← multiExpC (s.hs.drop nOver2) (n - nOver2) s.bs
    let i2 ← innerProduct (s.as.drop nOver2) s.bs (n - nOver2)
    let p2 ← smulC tb E.base
    let f2 ← smulC i2 Fg
    let R := p2 + m2 + m2' + f2
    let st := E.processPoint s.st (lblL n) L
    let st := E.processPoint st lblR R
    let (x, st) := E.newChallenge st lblx
    let xInv ← inverseOf x
    let a2 ← rdN (s.as.drop nOver2) (n - nOver2)
    let b2 ← rdN (s.bs.drop nOver2) (n - nOver2)
    let as := addInto s.as (a2.map (fun a => a * xInv))
    let bs := addInto s.bs (b2.map (fun b => b * x))
    let gs ← foldGeneratorsC s.gs n x nOver2
    let hs ← foldGeneratorsC s.hs n xInv nOver2
    let r := s.r + (sb * x + tb * xInv)
    proveQuadLoopC E coins Fg nOver2 (nOver2 / 2)
      ⟨s.Ls ++ [L], s.Rs ++ [R], gs.take nOver2, as.take nOver2, hs.take nOver2, bs.take nOver2,
        r, st, s.k + 1⟩
  else pure s
termination_by if n > 1 then nOver2 + 1 else 0
decreasing_by
  all_goals (split <;> omega)

/-- `proveQuadratic` (low level), bulletproof.cpp:274-336. -/
def proveQuadraticC (E : Env F G) (coins : Nat → F × F) (pf : QuadPf F G) (r : F) (st : E.St)
    (gs : List G) (as : List F) (hs : List G) (bs : List F) (n : Nat) : Cnt (QuadPf F G × E.St) := do
  let st := E.processPoint st lblC pf.C
  let (Fg, st) := E.newGenerator st lblF
  let e ← proveQuadLoopC E coins Fg n (next2power n / 2) ⟨pf.Ls, pf.Rs, gs, as, hs, bs, r, st, 0⟩
  let (s, t) := coins e.k
  let (u, v) := coins (e.k + 1)
  let g0 ← rd e.gs 0
  let h0 ← rd e.hs 0
  let a0 ← rd e.as 0
  let b0 ← rd e.bs 0
  let q1 ← smulC u E.base
  let q2 ← smulC s g0
  let q3 ← smulC t h0
  let q4 ← smulC (a0 * t + b0 * s) Fg
  let S1 := q1 + q2 + q3 + q4
  let q5 ← smulC v E.base
  let q6 ← smulC (s * t) Fg
  let S2 := q5 + q6
  let st := E.processPoint e.st lblS1 S1
  let st := E.processPoint st lblS2 S2
  let (x, st) := E.newChallenge st lblx
  pure ({ pf with Ls := e.Ls, Rs := e.Rs, S1 := S1, S2 := S2, a := a0 + s * x, b := b0 + t * x,
                  r := e.r + (u + v * x) * x }, st)

/-- `verifyQuadratic` (low level), bulletproof.cpp:342-395. -/
def verifyQuadraticC (E : Env F G) (pf : QuadPf F G) (gs hs : List G) (n : Nat) (eq : F)
    (st : E.St) (uOffsets vOffsets : Option (List F)) : Cnt (Bool × E.St) := do
  let st := E.processPoint st lblC pf.C
  let (Fg, st) := E.newGenerator st lblF
  let f ← smulC eq Fg
  let C := pf.C + f
  let logN := log2roundUp n
  if pf.Ls.length ≠ logN ∨ pf.Rs.length ≠ logN then (Res.throw : Res (Bool × E.St)) else
    let (xes, xInvs, st) ← verifyQuadLoop E pf.Ls pf.Rs n (next2power n / 2) 0 st
    let m1 ← multiExpC pf.Ls pf.Ls.length xes
    let m2 ← multiExpC pf.Rs pf.Rs.length xInvs
    let C := C + (m1 + m2)
    let tmpG ← expSubsetProductC gs n xes pf.a uOffsets
    let tmpH ← expSubsetProductC hs n xInvs pf.b vOffsets
    let st := E.processPoint st lblS1 pf.S1
    let st := E.processPoint st lblS2 pf.S2
    let (x, st) := E.newChallenge st lblx
    let xS ← smulC x pf.S2
    let xT ← smulC x (pf.S1 + xS)
    let rB ← smulC pf.r E.base
    let fF ← smulC (pf.a * pf.b) Fg
    pure (decide (C + xT = rB + tmpG + tmpH + fF), st)

/-- `proveLinear(tag, cnstr, xes)`, bulletproof.hpp:86-107. -/
def proveLinearTagC (E : Env F G) (coins : Nat → F × F) (r : F) (tag : Bytes) (c : LinConstraint F)
    (xes : PtxtVec F) : Cnt (LinPf F G) := do
  let st := E.processLin (E.newCtx tag) lblConstraint c
  let fs ← mkFlatLin E tag c xes
  let C ← commitC E.base fs.generators fs.witness fs.generators.length r
  let (pf, _) ← proveLinearC E coins ⟨tag, C, [], [], 0, 0, 0⟩ r st fs.witness fs.statement
    fs.generators fs.generators.length
  pure pf

/-- `verifyLinear(cnstr, proof)`, bulletproof.hpp:109-120. -/
def verifyLinearTagC (E : Env F G) (c : LinConstraint F) (pf : LinPf F G) : Cnt Bool := do
  let st := E.processLin (E.newCtx pf.tag) lblConstraint c
  let fs ← mkFlatLin E pf.tag c []
  let (b, _) ← verifyLinearC E pf fs.statement fs.generators fs.generators.length fs.equalsTo st none
  pure b

/-- `proveQuadratic(tag, cnstr, xs, ys)`, bulletproof.hpp:169-189. -/
def proveQuadraticTagC (E : Env F G) (coins : Nat → F × F) (r : F) (tag : Bytes)
    (c : QuadConstraint F) (xs ys : PtxtVec F) : Cnt (QuadPf F G) := do
  let st := E.processQuad (E.newCtx tag) lblConstraint c
  let fs ← mkFlatQuad E tag c xs ys
  let C ← commit2C E.base fs.gs fs.wG fs.hs fs.wH fs.gs.length r
  let (pf, _) ← proveQuadraticC E coins ⟨tag, C, [], [], 0, 0, 0, 0, 0⟩ r st fs.gs fs.wG fs.hs fs.wH
    fs.gs.length
  pure pf

/-- `verifyQuadratic(cnstr, pf)`, bulletproof.hpp:191-201. -/
def verifyQuadraticTagC (E : Env F G) (c : QuadConstraint F) (pf : QuadPf F G) : Cnt Bool := do
  let st := E.processQuad (E.newCtx pf.tag) lblConstraint c
  let fs ← mkFlatQuad E pf.tag c [] []
  let (b, _) ← verifyQuadraticC E pf fs.gs fs.hs fs.gs.length fs.equalsTo st none none
  pure b

/-- `proveNormSquared`, bulletproof.cpp:404-439. -/
def proveNormSquaredC (E : Env F G) (coins : Nat → F × F) (r : F) (pf : QuadPf F G) (st : E.St)
    (vec : PtxtVec F) : Cnt (F × QuadPf F G) := do
  let c := normConstraint vec
  let fs ← mkFlatQuad E pf.tag c vec vec
  let st := E.processQuad st lblNorm c
  let (x, st) := E.newChallenge st lblx
  let (wG, wH, _) := normShift x x fs.equalsTo fs.wG fs.wH
  let C ← commit2C E.base fs.gs wG fs.hs wH fs.gs.length r
  let (pf, _) ← proveQuadraticC E coins { pf with C := C } r st fs.gs wG fs.hs wH fs.gs.length
  pure (c.equalsTo, pf)

/-- `verifyNormSquared`, bulletproof.cpp:440-465. -/
def verifyNormSquaredC (E : Env F G) (indexes : List Nat) (normSq : F) (pf : QuadPf F G) :
    Cnt Bool := do
  let st := E.newCtx pf.tag
  let c : QuadConstraint F := ⟨indexes, normSq⟩
  let fs ← mkFlatQuad E pf.tag c [] []
  let st := E.processQuad st lblNorm c
  let (x, st) := E.newChallenge st lblx
  let x2 := x * x
  let eq := normShiftVer x2 indexes.length x2 fs.equalsTo
  let (b, _) ← verifyQuadraticC E pf fs.gs fs.hs fs.gs.length eq st none none
  pure b

end

end Verif
