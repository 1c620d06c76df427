/- The low-level proof functions as they act on the caller's arrays: what bulletproof.cpp
leaves behind in `as`, `bs`, `gs`, `hs` and `wOffsets`.  `Verif.Model.Bulletproof` models
the same functions by their result, cutting the arrays after each level; here nothing is
cut, and the final contents of every array are returned. -/
import Verif.Model.Bulletproof

namespace Verif


section
variable {F G : Type} [Field F] [DecidableEq F] [AddCommGroup G] [Module F G] [DecidableEq G]

/-- `foldGenerators`, naive.cpp:46-54, on the whole array `Gs`: only the first `n` entries
are written. -/
def foldGeneratorsI (Gs : List G) (n : Nat) (x : F) (nOver2 : Nat) : Res (List G) := do
  let gs ← foldGenerators Gs n x nOver2
  .ok (gs ++ Gs.drop n)

/-- The main loop of `proveLinear`, bulletproof.cpp:136-167, on the caller's arrays. -/
def proveLinLoopI (E : Env F G) (coins : Nat → F × F) (Fg : G) (n nOver2 : Nat)
    (s : LinProverState F G E.St) : Res (LinProverState F G E.St) :=
  if n > 1 then do
    let (sb, tb) := coins s.k
    let m1 ← multiExp (s.gs.drop nOver2) (n - nOver2) s.as
    let i1 ← innerProduct (s.bs.drop nOver2) s.as (n - nOver2)
    let L := sb • E.base + m1 + i1 • Fg
    let m2 ← multiExp s.gs (n - nOver2) (s.as.drop nOver2)
    let i2 ← innerProduct s.bs (s.as.drop nOver2) (n - nOver2)
    let R := tb • E.base + m2 + i2 • Fg
    let st := E.processPoint s.st (lblL n) L
    let st := E.processPoint st lblR R
    let (x, st) := E.newChallenge st lblx
    let xInv ← inverseOf x
    let a2 ← rdN (s.as.drop nOver2) (n - nOver2)
    let b2 ← rdN (s.bs.drop nOver2) (n - nOver2)
    let as := addInto s.as (a2.map (fun a => a * xInv))
    let bs := addInto s.bs (b2.map (fun b => b * x))
    let gs ← foldGeneratorsI s.gs n x nOver2
    let r := s.r + (sb * x + tb * xInv)
    proveLinLoopI E coins Fg nOver2 (nOver2 / 2)
      ⟨s.Ls ++ [L], s.Rs ++ [R], as, bs, gs, r, st, s.k + 1⟩
  else .ok s
termination_by if n > 1 then nOver2 + 1 else 0
decreasing_by
  all_goals (split <;> omega)

/-- `proveLinear` (low level), bulletproof.cpp:127-182: the proof, the transcript state and
the final contents of `as`, `bs` and `gs`. -/
def proveLinearI (E : Env F G) (coins : Nat → F × F) (pf : LinPf F G) (r : F) (st : E.St)
    (as bs : List F) (gs : List G) (n : Nat) :
    Res ((LinPf F G × E.St) × List F × List F × List G) := do
  let st := E.processPoint st lblC pf.C
  let (Fg, st) := E.newGenerator st lblF
  let e ← proveLinLoopI E coins Fg n (next2power n / 2) ⟨pf.Ls, pf.Rs, as, bs, gs, r, st, 0⟩
  let (s, t) := coins e.k
  let g0 ← rd e.gs 0
  let b0 ← rd e.bs 0
  let a0 ← rd e.as 0
  let S := s • g0 + (s * b0) • Fg + t • E.base
  let st := E.processPoint e.st lblS S
  let (x, st) := E.newChallenge st lblx
  .ok (({ pf with Ls := e.Ls, Rs := e.Rs, S := S, a := s + a0 * x, r := t + e.r * x }, st),
    e.as, e.bs, e.gs)

/-- The main loop of `verifyLinear`, bulletproof.cpp:208-231, on the caller's `bs`. -/
def verifyLinLoopI (E : Env F G) (Ls Rs : List G) (n nOver2 ii : Nat) (bs : List F) (st : E.St) :
    Res (List F × List F × List F × E.St) :=
  if n > 1 then do
    let L ← rd Ls ii
    let R ← rd Rs ii
    let st := E.processPoint st (lblL n) L
    let st := E.processPoint st lblR R
    let (x, st) := E.newChallenge st lblx
    let xInv ← inverseOf x
    let b2 ← rdN (bs.drop nOver2) (n - nOver2)
    let bs := addInto bs (b2.map (fun b => b * x))
    let (xs, xis, bs', st) ← verifyLinLoopI E Ls Rs nOver2 (nOver2 / 2) (ii + 1) bs st
    .ok (x :: xs, xInv :: xis, bs', st)
  else .ok ([], [], bs, st)
termination_by if n > 1 then nOver2 + 1 else 0
decreasing_by
  all_goals (split <;> omega)

/-- `verifyLinear` (low level), bulletproof.cpp:188-251: the verdict, the transcript state
and the final contents of `bs` and `wOffsets` (lines 225-227 and 246-247 write to them). -/
def verifyLinearI (E : Env F G) (pf : LinPf F G) (bs : List F) (gs : List G) (n : Nat) (eq : F)
    (st : E.St) (wOffsets : Option (List F)) :
    Res ((Bool × E.St) × List F × Option (List F)) := do
  let st := E.processPoint st lblC pf.C
  let (Fg, st) := E.newGenerator st lblF
  let C := pf.C + eq • Fg
  let logN := log2roundUp n
  if pf.Ls.length ≠ logN ∨ pf.Rs.length ≠ logN then .throw else
    let (xes, xInvs, bs', st) ← verifyLinLoopI E pf.Ls pf.Rs n (next2power n / 2) 0 bs st
    let m1 ← multiExp pf.Ls pf.Ls.length xes
    let m2 ← multiExp pf.Rs pf.Rs.length xInvs
    let C := C + (m1 + m2)
    let st := E.processPoint st lblS pf.S
    let (x, st) := E.newChallenge st lblx
    let _xInv ← inverseOf x
    let off ← match wOffsets with
      | none => .ok none
      | some w => do
        let w' ← rdN w n
        .ok (some (w'.map (fun o => o * x) ++ w.drop n))
    let tmp ← expSubsetProduct gs n xes pf.a off
    let b0 ← rd bs' 0
    .ok ((decide (pf.S + x • C = pf.r • E.base + (pf.a * b0) • Fg + tmp), st), bs', off)

/-- The main loop of `proveQuadratic`, bulletproof.cpp:284-317, on the caller's arrays. -/
def proveQuadLoopI (E : Env F G) (coins : Nat → F × F) (Fg : G) (n nOver2 : Nat)
    (s : QuadProverState F G E.St) : Res (QuadProverState F G E.St) :=
  if n > 1 then do
    let (sb, tb) := coins s.k
    let m1 ← multiExp (s.gs.drop nOver2) (n - nOver2) s.as
    let m1' ← multiExp s.hs (n - nOver2) (s.bs.drop nOver2)
    let i1 ← innerProduct s.as (s.bs.drop nOver2) (n - nOver2)
    let L := sb • E.base + m1 + m1' + i1 • Fg
    let m2 ← multiExp s.gs (n - nOver2) (s.as.drop nOver2)
    let m2' ← multiExp (s.hs.drop nOver2) (n - nOver2) s.bs
    let i2 ← innerProduct (s.as.drop nOver2) s.bs (n - nOver2)
    let R := tb • E.base + m2 + m2' + i2 • Fg
    let st := E.processPoint s.st (lblL n) L
    let st := E.processPoint st lblR R
    let (x, st) := E.newChallenge st lblx
    let xInv ← inverseOf x
    let a2 ← rdN (s.as.drop nOver2) (n - nOver2)
    let b2 ← rdN (s.bs.drop nOver2) (n - nOver2)
    let as := addInto s.as (a2.map (fun a => a * xInv))
    let bs := addInto s.bs (b2.map (fun b => b * x))
    let gs ← foldGeneratorsI s.gs n x nOver2
    let hs ← foldGeneratorsI s.hs n xInv nOver2
    let r := s.r + (sb * x + tb * xInv)
    proveQuadLoopI E coins Fg nOver2 (nOver2 / 2)
      ⟨s.Ls ++ [L], s.Rs ++ [R], gs, as, hs, bs, r, st, s.k + 1⟩
  else .ok s
termination_by if n > 1 then nOver2 + 1 else 0
decreasing_by
  all_goals (split <;> omega)

/-- `proveQuadratic` (low level), bulletproof.cpp:274-336: the proof, the transcript state
and the final contents of `gs`, `as`, `hs` and `bs`. -/
def proveQuadraticI (E : Env F G) (coins : Nat → F × F) (pf : QuadPf F G) (r : F) (st : E.St)
    (gs : List G) (as : List F) (hs : List G) (bs : List F) (n : Nat) :
    Res ((QuadPf F G × E.St) × List G × List F × List G × List F) := do
  let st := E.processPoint st lblC pf.C
  let (Fg, st) := E.newGenerator st lblF
  let e ← proveQuadLoopI E coins Fg n (next2power n / 2) ⟨pf.Ls, pf.Rs, gs, as, hs, bs, r, st, 0⟩
  let (s, t) := coins e.k
  let (u, v) := coins (e.k + 1)
  let g0 ← rd e.gs 0
  let h0 ← rd e.hs 0
  let a0 ← rd e.as 0
  let b0 ← rd e.bs 0
  let S1 := u • E.base + s • g0 + t • h0 + (a0 * t + b0 * s) • Fg
  let S2 := v • E.base + (s * t) • Fg
  let st := E.processPoint e.st lblS1 S1
  let st := E.processPoint st lblS2 S2
  let (x, st) := E.newChallenge st lblx
  .ok (({ pf with Ls := e.Ls, Rs := e.Rs, S1 := S1, S2 := S2, a := a0 + s * x, b := b0 + t * x,
                  r := e.r + (u + v * x) * x }, st), e.gs, e.as, e.hs, e.bs)

end
end Verif
