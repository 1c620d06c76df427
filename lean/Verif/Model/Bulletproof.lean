/-
Model of /repo/src/dlproofs/bulletproof.cpp and /repo/include/bulletproof.hpp.

Arrays passed by pointer are lists (see `rdN`).  The prover and the verifier update the
caller's arrays in place; the model returns the proof object / the decision and the final
transcript state, and drops the scratch contents of the arrays, except where stated.
The scalars returned by `newBlindingFactors` are given by `coins : Nat → F × F`
(the k-th call returns `coins k`): they are hashes of secrets and fresh randomness, and
the theorems quantify over all of them.
-/
import Verif.Model.Pedersen
import Verif.Model.Transcript

namespace Verif

section
variable {F G : Type} [Field F] [AddCommGroup G] [Module F G] [DecidableEq F] [DecidableEq G]

/-- `inverseOf`, scalar25519.hpp:162 and `invert`, 69-75: throws on zero. -/
def inverseOf (x : F) : Res F := if x = 0 then .throw else .ok x⁻¹

/-! ### Flat statements -/

/-- `FlatLinStmt`, bulletproof.hpp:55-64. -/
structure FlatLinStmt (F G : Type) where
  generators : List G
  statement : List F
  equalsTo : F
  witness : List F
  deriving DecidableEq

/-- The loop of the `FlatLinStmt` constructor, bulletproof.cpp:66-76.  `withWit` is `n2>0`.
Dereferencing the witness iterator past the end is undefined. -/
def flatLinLoop (E : Env F G) (tag : Bytes) (withWit : Bool) :
    PtxtVec F → PtxtVec F → Res (List G × List F × List F)
  | [], _ => .ok ([], [], [])
  | (idx, b) :: terms, xes =>
    if withWit then
      match xes with
      | [] => .ub
      | (k, x) :: xes =>
        if k ≠ idx then .throw else do
          let (gs, st, ws) ← flatLinLoop E tag withWit terms xes
          .ok (E.getG tag idx :: gs, b :: st, x :: ws)
    else do
      let (gs, st, ws) ← flatLinLoop E tag withWit terms xes
      .ok (E.getG tag idx :: gs, b :: st, ws)

/-- `FlatLinStmt::FlatLinStmt`, bulletproof.cpp:47-82. -/
def mkFlatLin (E : Env F G) (tag : Bytes) (c : LinConstraint F) (xes : PtxtVec F) :
    Res (FlatLinStmt F G) :=
  let n := c.terms.length
  let n2 := xes.length
  if n < 1 ∨ n > 2 ^ 20 then .throw
  else if n2 > 0 ∧ n2 ≠ n then .throw
  else do
    let (gs, st, ws) ← flatLinLoop E tag (decide (n2 > 0)) c.terms xes
    .ok ⟨gs, st, c.equalsTo, ws⟩

/-- `FlatQuadStmt`, bulletproof.hpp:139-147. -/
structure FlatQuadStmt (F G : Type) where
  gs : List G
  hs : List G
  equalsTo : F
  wG : List F
  wH : List F
  deriving DecidableEq

/-- The loop of the `FlatQuadStmt` constructor, bulletproof.cpp:101-111. -/
def flatQuadLoop (E : Env F G) (tag : Bytes) (withWit : Bool) :
    List Nat → PtxtVec F → PtxtVec F → Res (List G × List G × List F × List F)
  | [], _, _ => .ok ([], [], [], [])
  | idx :: idxs, xes, ys =>
    if withWit then
      match xes, ys with
      | (kx, x) :: xes, (ky, y) :: ys =>
        if kx ≠ idx ∨ ky ≠ idx then .throw else do
          let (gs, hs, ws, vs) ← flatQuadLoop E tag withWit idxs xes ys
          .ok (E.getG tag idx :: gs, E.getH tag idx :: hs, x :: ws, y :: vs)
      | _, _ => .ub
    else do
      let (gs, hs, ws, vs) ← flatQuadLoop E tag withWit idxs xes ys
      .ok (E.getG tag idx :: gs, E.getH tag idx :: hs, ws, vs)

/-- `FlatQuadStmt::FlatQuadStmt`, bulletproof.cpp:86-117. -/
def mkFlatQuad (E : Env F G) (tag : Bytes) (c : QuadConstraint F) (xes ys : PtxtVec F) :
    Res (FlatQuadStmt F G) :=
  let n := c.indexes.length
  let n2 := xes.length
  if n < 1 ∨ n > 2 ^ 20 then .throw
  else if ys.length ≠ n2 ∨ (n2 > 0 ∧ n2 ≠ n) then .throw
  else do
    let (gs, hs, ws, vs) ← flatQuadLoop E tag (decide (n2 > 0)) c.indexes xes ys
    .ok ⟨gs, hs, c.equalsTo, ws, vs⟩

/-! ### Linear proofs -/

/-- `LinPfTranscript`, bulletproof.hpp:67-75. -/
structure LinPf (F G : Type) where
  tag : Bytes
  C : G
  Ls : List G
  Rs : List G
  S : G
  a : F
  r : F
  deriving DecidableEq

/-- Labels used in the transcript: "C", "F", "L" (after the decimal length), "R", "x",
"S", "S1", "S2". -/
def lblC : Bytes := [67]
@[inherit_doc lblC] def lblF : Bytes := [70]
@[inherit_doc lblC] def lblL (n : Nat) : Bytes := decBytes n ++ [76]
@[inherit_doc lblC] def lblR : Bytes := [82]
@[inherit_doc lblC] def lblx : Bytes := [120]
@[inherit_doc lblC] def lblS : Bytes := [83]
@[inherit_doc lblC] def lblS1 : Bytes := [83, 49]
@[inherit_doc lblC] def lblS2 : Bytes := [83, 50]

/-- Local variables of `proveLinear` at the end of its main loop. -/
structure LinProverState (F G St : Type) where
  Ls : List G
  Rs : List G
  as : List F
  bs : List F
  gs : List G
  r : F
  st : St
  k : Nat

/-- The main loop of `proveLinear`, bulletproof.cpp:136-167, with loop variables `n` and
`nOver2`; `k` counts the calls of `newBlindingFactors`.  After each level the arrays are
cut to their first `nOver2` entries, as only those are used from then on. -/
def proveLinLoop (E : Env F G) (coins : Nat → F × F) (Fg : G) (n nOver2 : Nat)
    (s : LinProverState F G E.St) : Res (LinProverState F G E.St) :=
  if n > 1 then do
    let (sb, tb) := coins s.k
    let m1 ← multiExp (s.gs.drop nOver2) (n - nOver2) s.as
    let i1 ← innerProduct (s.bs.drop nOver2) s.as (n - nOver2)
    let L := sb • E.base + m1 + i1 • Fg
    let m2 ← multiExp s.gs (n - nOver2) (s.as.drop nOver2)
    let i2 ← innerProduct s.bs (s.as.drop nOver2) (n - nOver2)
    let R := tb • E.base + m2 + i2 • Fg
    let st := E.processPoint s.st (lblL n) L
    let st := E.processPoint st lblR R
    let (x, st) := E.newChallenge st lblx
    let xInv ← inverseOf x
    let a2 ← rdN (s.as.drop nOver2) (n - nOver2)
    let b2 ← rdN (s.bs.drop nOver2) (n - nOver2)
    let as := addInto s.as (a2.map (fun a => a * xInv))
    let bs := addInto s.bs (b2.map (fun b => b * x))
    let gs ← foldGenerators s.gs n x nOver2
    let r := s.r + (sb * x + tb * xInv)
    proveLinLoop E coins Fg nOver2 (nOver2 / 2)
      ⟨s.Ls ++ [L], s.Rs ++ [R], as.take nOver2, bs.take nOver2, gs.take nOver2, r, st, s.k + 1⟩
  else .ok s
termination_by if n > 1 then nOver2 + 1 else 0
decreasing_by
  all_goals (split <;> omega)

/-- `proveLinear` (low level), bulletproof.cpp:127-182.  The C++ function appends to
`proof.Ls`, `proof.Rs`.  Returns the proof and the final transcript state. -/
def proveLinear (E : Env F G) (coins : Nat → F × F) (pf : LinPf F G) (r : F) (st : E.St)
    (as bs : List F) (gs : List G) (n : Nat) : Res (LinPf F G × E.St) := do
  let st := E.processPoint st lblC pf.C
  let (Fg, st) := E.newGenerator st lblF
  let e ← proveLinLoop E coins Fg n (next2power n / 2) ⟨pf.Ls, pf.Rs, as, bs, gs, r, st, 0⟩
  let (s, t) := coins e.k
  let g0 ← rd e.gs 0
  let b0 ← rd e.bs 0
  let a0 ← rd e.as 0
  let S := s • g0 + (s * b0) • Fg + t • E.base
  let st := E.processPoint e.st lblS S
  let (x, st) := E.newChallenge st lblx
  .ok ({ pf with Ls := e.Ls, Rs := e.Rs, S := S, a := s + a0 * x, r := t + e.r * x }, st)

/-- The main loop of `verifyLinear`, bulletproof.cpp:208-231: returns the challenges,
their inverses, the folded `bs` and the transcript state. -/
def verifyLinLoop (E : Env F G) (Ls Rs : List G) (n nOver2 ii : Nat) (bs : List F) (st : E.St) :
    Res (List F × List F × List F × E.St) :=
  if n > 1 then do
    let L ← rd Ls ii
    let R ← rd Rs ii
    let st := E.processPoint st (lblL n) L
    let st := E.processPoint st lblR R
    let (x, st) := E.newChallenge st lblx
    let xInv ← inverseOf x
    let b2 ← rdN (bs.drop nOver2) (n - nOver2)
    let bs := addInto bs (b2.map (fun b => b * x))
    let (xs, xis, bs', st) ← verifyLinLoop E Ls Rs nOver2 (nOver2 / 2) (ii + 1) (bs.take nOver2) st
    .ok (x :: xs, xInv :: xis, bs', st)
  else .ok ([], [], bs, st)
termination_by if n > 1 then nOver2 + 1 else 0
decreasing_by
  all_goals (split <;> omega)

/-- `verifyLinear` (low level), bulletproof.cpp:188-251.  `wOffsets = none` is the null
pointer.  The final `inverseOf(x)` (line 242) is unused in C++ but throws for `x = 0`. -/
def verifyLinear (E : Env F G) (pf : LinPf F G) (bs : List F) (gs : List G) (n : Nat) (eq : F)
    (st : E.St) (wOffsets : Option (List F)) : Res (Bool × E.St) := do
  let st := E.processPoint st lblC pf.C
  let (Fg, st) := E.newGenerator st lblF
  let C := pf.C + eq • Fg
  let logN := log2roundUp n
  if pf.Ls.length ≠ logN ∨ pf.Rs.length ≠ logN then .throw else
    let (xes, xInvs, bs', st) ← verifyLinLoop E pf.Ls pf.Rs n (next2power n / 2) 0 bs st
    let m1 ← multiExp pf.Ls pf.Ls.length xes
    let m2 ← multiExp pf.Rs pf.Rs.length xInvs
    let C := C + (m1 + m2)
    let st := E.processPoint st lblS pf.S
    let (x, st) := E.newChallenge st lblx
    let _xInv ← inverseOf x
    let off ← match wOffsets with
      | none => .ok none
      | some w => do
        let w' ← rdN w n
        .ok (some (w'.map (fun o => o * x)))
    let tmp ← expSubsetProduct gs n xes pf.a off
    let b0 ← rd bs' 0
    .ok (decide (pf.S + x • C = pf.r • E.base + (pf.a * b0) • Fg + tmp), st)

/-! ### Quadratic proofs -/

/-- `QuadPfTranscript`, bulletproof.hpp:149-157. -/
structure QuadPf (F G : Type) where
  tag : Bytes
  C : G
  Ls : List G
  Rs : List G
  S1 : G
  S2 : G
  a : F
  b : F
  r : F
  deriving DecidableEq

/-- Local variables of `proveQuadratic` in its main loop. -/
structure QuadProverState (F G St : Type) where
  Ls : List G
  Rs : List G
  gs : List G
  as : List F
  hs : List G
  bs : List F
  r : F
  st : St
  k : Nat

/-- The main loop of `proveQuadratic`, bulletproof.cpp:284-317 (see `proveLinLoop`). -/
def proveQuadLoop (E : Env F G) (coins : Nat → F × F) (Fg : G) (n nOver2 : Nat)
    (s : QuadProverState F G E.St) : Res (QuadProverState F G E.St) :=
  if n > 1 then do
    let (sb, tb) := coins s.k
    let m1 ← multiExp (s.gs.drop nOver2) (n - nOver2) s.as
    let m1' ← multiExp s.hs (n - nOver2) (s.bs.drop nOver2)
    let i1 ← innerProduct s.as (s.bs.drop nOver2) (n - nOver2)
    let L := sb • E.base + m1 + m1' + i1 • Fg
    let m2 ← multiExp s.gs (n - nOver2) (s.as.drop nOver2)
    let m2' ← multiExp (s.hs.drop nOver2) (n - nOver2) s.bs
    let i2 ← innerProduct (s.as.drop nOver2) s.bs (n - nOver2)
    let R := tb • E.base + m2 + m2' + i2 • Fg
    let st := E.processPoint s.st (lblL n) L
    let st := E.processPoint st lblR R
    let (x, st) := E.newChallenge st lblx
    let xInv ← inverseOf x
    let a2 ← rdN (s.as.drop nOver2) (n - nOver2)
    let b2 ← rdN (s.bs.drop nOver2) (n - nOver2)
    let as := addInto s.as (a2.map (fun a => a * xInv))
    let bs := addInto s.bs (b2.map (fun b => b * x))
    let gs ← foldGenerators s.gs n x nOver2
    let hs ← foldGenerators s.hs n xInv nOver2
    let r := s.r + (sb * x + tb * xInv)
    proveQuadLoop E coins Fg nOver2 (nOver2 / 2)
      ⟨s.Ls ++ [L], s.Rs ++ [R], gs.take nOver2, as.take nOver2, hs.take nOver2, bs.take nOver2,
        r, st, s.k + 1⟩
  else .ok s
termination_by if n > 1 then nOver2 + 1 else 0
decreasing_by
  all_goals (split <;> omega)

/-- `proveQuadratic` (low level), bulletproof.cpp:274-336. -/
def proveQuadratic (E : Env F G) (coins : Nat → F × F) (pf : QuadPf F G) (r : F) (st : E.St)
    (gs : List G) (as : List F) (hs : List G) (bs : List F) (n : Nat) : Res (QuadPf F G × E.St) := do
  let st := E.processPoint st lblC pf.C
  let (Fg, st) := E.newGenerator st lblF
  let e ← proveQuadLoop E coins Fg n (next2power n / 2) ⟨pf.Ls, pf.Rs, gs, as, hs, bs, r, st, 0⟩
  let (s, t) := coins e.k
  let (u, v) := coins (e.k + 1)
  let g0 ← rd e.gs 0
  let h0 ← rd e.hs 0
  let a0 ← rd e.as 0
  let b0 ← rd e.bs 0
  let S1 := u • E.base + s • g0 + t • h0 + (a0 * t + b0 * s) • Fg
  let S2 := v • E.base + (s * t) • Fg
  let st := E.processPoint e.st lblS1 S1
  let st := E.processPoint st lblS2 S2
  let (x, st) := E.newChallenge st lblx
  .ok ({ pf with Ls := e.Ls, Rs := e.Rs, S1 := S1, S2 := S2, a := a0 + s * x, b := b0 + t * x,
                 r := e.r + (u + v * x) * x }, st)

/-- The main loop of `verifyQuadratic`, bulletproof.cpp:363-377. -/
def verifyQuadLoop (E : Env F G) (Ls Rs : List G) (n nOver2 ii : Nat) (st : E.St) :
    Res (List F × List F × E.St) :=
  if n > 1 then do
    let L ← rd Ls ii
    let R ← rd Rs ii
    let st := E.processPoint st (lblL n) L
    let st := E.processPoint st lblR R
    let (x, st) := E.newChallenge st lblx
    let xInv ← inverseOf x
    let (xs, xis, st) ← verifyQuadLoop E Ls Rs nOver2 (nOver2 / 2) (ii + 1) st
    .ok (x :: xs, xInv :: xis, st)
  else .ok ([], [], st)
termination_by if n > 1 then nOver2 + 1 else 0
decreasing_by
  all_goals (split <;> omega)

/-- `verifyQuadratic` (low level), bulletproof.cpp:342-395. -/
def verifyQuadratic (E : Env F G) (pf : QuadPf F G) (gs hs : List G) (n : Nat) (eq : F)
    (st : E.St) (uOffsets vOffsets : Option (List F)) : Res (Bool × E.St) := do
  let st := E.processPoint st lblC pf.C
  let (Fg, st) := E.newGenerator st lblF
  let C := pf.C + eq • Fg
  let logN := log2roundUp n
  if pf.Ls.length ≠ logN ∨ pf.Rs.length ≠ logN then .throw else
    let (xes, xInvs, st) ← verifyQuadLoop E pf.Ls pf.Rs n (next2power n / 2) 0 st
    let m1 ← multiExp pf.Ls pf.Ls.length xes
    let m2 ← multiExp pf.Rs pf.Rs.length xInvs
    let C := C + (m1 + m2)
    let tmpG ← expSubsetProduct gs n xes pf.a uOffsets
    let tmpH ← expSubsetProduct hs n xInvs pf.b vOffsets
    let st := E.processPoint st lblS1 pf.S1
    let st := E.processPoint st lblS2 pf.S2
    let (x, st) := E.newChallenge st lblx
    .ok (decide (C + x • (pf.S1 + x • pf.S2) =
      pf.r • E.base + tmpG + tmpH + (pf.a * pf.b) • Fg), st)

/-! ### Tag-level wrappers -/

/-- "constraint", the label of the statement in the transcript. -/
def lblConstraint : Bytes := [99, 111, 110, 115, 116, 114, 97, 105, 110, 116]

/-- "normSquared". -/
def lblNorm : Bytes := [110, 111, 114, 109, 83, 113, 117, 97, 114, 101, 100]

/-- `proveLinear(tag, cnstr, xes)`, bulletproof.hpp:86-107.  `r` is `randomScalar()`.
A default-constructed `LinPfTranscript` has unspecified points/zero scalars in the fields
that are filled later; they are `0` here. -/
def proveLinearTag (E : Env F G) (coins : Nat → F × F) (r : F) (tag : Bytes) (c : LinConstraint F)
    (xes : PtxtVec F) : Res (LinPf F G) := do
  let st := E.processLin (E.newCtx tag) lblConstraint c
  let fs ← mkFlatLin E tag c xes
  let C ← commit E.base fs.generators fs.witness fs.generators.length r
  let (pf, _) ← proveLinear E coins ⟨tag, C, [], [], 0, 0, 0⟩ r st fs.witness fs.statement
    fs.generators fs.generators.length
  .ok pf

/-- `verifyLinear(cnstr, proof)`, bulletproof.hpp:109-120. -/
def verifyLinearTag (E : Env F G) (c : LinConstraint F) (pf : LinPf F G) : Res Bool := do
  let st := E.processLin (E.newCtx pf.tag) lblConstraint c
  let fs ← mkFlatLin E pf.tag c []
  let (b, _) ← verifyLinear E pf fs.statement fs.generators fs.generators.length fs.equalsTo st none
  .ok b

/-- `proveQuadratic(tag, cnstr, xs, ys)`, bulletproof.hpp:169-189. -/
def proveQuadraticTag (E : Env F G) (coins : Nat → F × F) (r : F) (tag : Bytes)
    (c : QuadConstraint F) (xs ys : PtxtVec F) : Res (QuadPf F G) := do
  let st := E.processQuad (E.newCtx tag) lblConstraint c
  let fs ← mkFlatQuad E tag c xs ys
  let C ← commit2 E.base fs.gs fs.wG fs.hs fs.wH fs.gs.length r
  let (pf, _) ← proveQuadratic E coins ⟨tag, C, [], [], 0, 0, 0, 0, 0⟩ r st fs.gs fs.wG fs.hs fs.wH
    fs.gs.length
  .ok pf

/-- `verifyQuadratic(cnstr, pf)`, bulletproof.hpp:191-201. -/
def verifyQuadraticTag (E : Env F G) (c : QuadConstraint F) (pf : QuadPf F G) : Res Bool := do
  let st := E.processQuad (E.newCtx pf.tag) lblConstraint c
  let fs ← mkFlatQuad E pf.tag c [] []
  let (b, _) ← verifyQuadratic E pf fs.gs fs.hs fs.gs.length fs.equalsTo st none none
  .ok b

/-! ### Norm-squared proofs -/

/-- The first loop of `proveNormSquared`, bulletproof.cpp:408-411. -/
def normConstraint (vec : PtxtVec F) : QuadConstraint F :=
  vec.foldl (fun c e => ⟨c.indexes ++ [e.1], c.equalsTo + e.2 * e.2⟩) ⟨[], 0⟩

/-- The second loop of `proveNormSquared`, bulletproof.cpp:421-426, for the remaining entries:
`wG[i] += x2i; wH[i] -= x2i; equalsTo -= x2i*x2i; x2i *= x`. -/
def normShift (x : F) : F → F → List F → List F → List F × List F × F
  | x2i, eq, a :: as, b :: bs =>
    let r := normShift x (x2i * x) (eq - x2i * x2i) as bs
    ((a + x2i) :: r.1, (b - x2i) :: r.2.1, r.2.2)
  | _, eq, as, bs => (as, bs, eq)

/-- `proveNormSquared`, bulletproof.cpp:404-439.  `pf` comes in with its tag (and empty
lists), `st` is the caller's transcript.  Returns the norm and the proof. -/
def proveNormSquared (E : Env F G) (coins : Nat → F × F) (r : F) (pf : QuadPf F G) (st : E.St)
    (vec : PtxtVec F) : Res (F × QuadPf F G) := do
  let c := normConstraint vec
  let fs ← mkFlatQuad E pf.tag c vec vec
  let st := E.processQuad st lblNorm c
  let (x, st) := E.newChallenge st lblx
  let (wG, wH, _) := normShift x x fs.equalsTo fs.wG fs.wH
  let C ← commit2 E.base fs.gs wG fs.hs wH fs.gs.length r
  let (pf, _) ← proveQuadratic E coins { pf with C := C } r st fs.gs wG fs.hs wH fs.gs.length
  .ok (c.equalsTo, pf)

/-- The loop of `verifyNormSquared`, bulletproof.cpp:456-459: `k` times
`equalsTo -= xto2i; xto2i *= x2`. -/
def normShiftVer (x2 : F) : Nat → F → F → F
  | 0, _, eq => eq
  | k + 1, xto2i, eq => normShiftVer x2 k (xto2i * x2) (eq - xto2i)

/-- `verifyNormSquared`, bulletproof.cpp:440-465. -/
def verifyNormSquared (E : Env F G) (indexes : List Nat) (normSq : F) (pf : QuadPf F G) : Res Bool := do
  let st := E.newCtx pf.tag
  let c : QuadConstraint F := ⟨indexes, normSq⟩
  let fs ← mkFlatQuad E pf.tag c [] []
  let st := E.processQuad st lblNorm c
  let (x, st) := E.newChallenge st lblx
  let x2 := x * x
  let eq := normShiftVer x2 indexes.length x2 fs.equalsTo
  let (b, _) ← verifyQuadratic E pf fs.gs fs.hs fs.gs.length eq st none none
  .ok b

end

end Verif
