/-
The verifiers of /repo/src/dlproofs/bulletproof.cpp on a proof that is bytes throughout: points
and also the scalars a, b and r are what was read from the stream (scalar25519.hpp:157-160 reads 32
bytes and does not look at them).  The scalars that the library computes (challenges, the
statement, the offsets) are residues, here in their encoding `E.scalarBytes`.
-/
import Verif.Model.PointBytes

namespace Verif
open Verif.Sc

/-- `LinPfTranscript`, bulletproof.hpp:67-75, as read from a stream. -/
structure LinPfR where
  tag : Bytes
  C : Bytes
  Ls : List Bytes
  Rs : List Bytes
  S : Bytes
  a : Bytes
  r : Bytes

/-- `QuadPfTranscript`, bulletproof.hpp:149-157, as read from a stream. -/
structure QuadPfR where
  tag : Bytes
  C : Bytes
  Ls : List Bytes
  Rs : List Bytes
  S1 : Bytes
  S2 : Bytes
  a : Bytes
  b : Bytes
  r : Bytes

/-- `Scalar::operator+=`, scalar25519.hpp:85-88, on arbitrary bytes: `crypto_core_ed25519_scalar_add`
(libsodium) adds the numbers in 32 bytes, so modulo `2^256`, and then reduces.  If no number exceeds
`2^255` this is `addBytes`. -/
def addRaw (a b : Bytes) : Bytes := zzBytes 32 (((leVal a + leVal b) % 2 ^ 256 % P : ℕ) : ℤ)

section
variable {F G : Type} [Field F] [DecidableEq F]

/-- `subsetProdRecurse`, naive.cpp:68-77 (see `subsetProdRecurse`), on scalars as bytes. -/
def subsetProdRecurseR (E : Env F G) (vec : List Bytes) (basis : List F) (basisLen : Nat) :
    Res (List Bytes) :=
  if hn : vec.length ≤ 1 then .ok vec
  else
    let logn := log2roundUp vec.length
    let nOver2 := 2 ^ (logn - 1)
    if basisLen < logn then .ub
    else do
      let b ← rd basis (basisLen - logn)
      let hi ← subsetProdRecurseR E ((vec.drop nOver2).map (fun v => mulBytes v (E.scalarBytes b))) basis
        basisLen
      let lo ← subsetProdRecurseR E (vec.take nOver2) basis basisLen
      .ok (lo ++ hi)
termination_by vec.length
decreasing_by
  · have := log2roundUp_half_lt (n := vec.length) (by omega)
    simp only [List.length_map, List.length_drop]
    have : 0 < 2 ^ (log2roundUp vec.length - 1) := Nat.two_pow_pos _
    omega
  · have := log2roundUp_half_lt (n := vec.length) (by omega)
    simp only [List.length_take]
    omega

/-- `expSubsetProduct`, naive.cpp:89-98, with `subsetProduct`, naive.cpp:80-85, inlined. -/
def expSubsetProductR (E : Env F G) (S : Sodium) (Gs : List Bytes) (n : Nat) (xes : List F) (a : Bytes)
    (offsets : Option (List F)) : Res Bytes := do
  let logn := log2roundUp n
  let prods ← subsetProdRecurseR E (List.replicate n a) xes logn
  match offsets with
  | none => do
    let gs ← rdN Gs n
    S.sumMul prods gs S.identityPoint
  | some off => do
    let off' ← rdN off n
    let gs ← rdN Gs n
    S.sumMul (List.zipWith addRaw prods (off'.map E.scalarBytes)) gs S.identityPoint

/-- `verifyLinear` (low level), bulletproof.cpp:188-251. -/
def verifyLinearR (E : Env F G) (S : Sodium) (pf : LinPfR) (bs : List F) (gs : List Bytes) (n : Nat)
    (eq : F) (st : E.St) (wOffsets : Option (List F)) : Res (Bool × E.St) := do
  let st := E.commit st lblC pf.C
  let (Fg, st) := E.newGenerator st lblF
  let f ← S.ptMul (E.pointBytes Fg) (E.scalarBytes eq)
  let C ← S.ptAdd pf.C f
  let logN := log2roundUp n
  if pf.Ls.length ≠ logN ∨ pf.Rs.length ≠ logN then .throw else
    let (xes, xInvs, bs', st) ← verifyLinLoopB E pf.Ls pf.Rs n (next2power n / 2) 0 bs st
    let m1 ← multiExpB E S pf.Ls pf.Ls.length xes
    let m2 ← multiExpB E S pf.Rs pf.Rs.length xInvs
    let m ← S.ptAdd m1 m2
    let C ← S.ptAdd C m
    let st := E.commit st lblS pf.S
    let (x, st) := E.newChallenge st lblx
    let _xInv ← inverseOf x
    let off ← (match wOffsets with
      | none => .ok none
      | some w => do
        let w' ← rdN w n
        .ok (some (w'.map (fun o => o * x))) : Res (Option (List F)))
    let tmp ← expSubsetProductR E S gs n xes pf.a off
    let b0 ← rd bs' 0
    let xC ← S.ptMul C (E.scalarBytes x)
    let lhs ← S.ptAdd pf.S xC
    let rB ← S.ptMul S.basePoint pf.r
    let fF ← S.ptMul (E.pointBytes Fg) (mulBytes pf.a (E.scalarBytes b0))
    let t ← S.ptAdd rB fF
    let rhs ← S.ptAdd t tmp
    .ok (decide (lhs = rhs), st)

/-- `verifyQuadratic` (low level), bulletproof.cpp:342-395. -/
def verifyQuadraticR (E : Env F G) (S : Sodium) (pf : QuadPfR) (gs hs : List Bytes) (n : Nat) (eq : F)
    (st : E.St) (uOffsets vOffsets : Option (List F)) : Res (Bool × E.St) := do
  let st := E.commit st lblC pf.C
  let (Fg, st) := E.newGenerator st lblF
  let f ← S.ptMul (E.pointBytes Fg) (E.scalarBytes eq)
  let C ← S.ptAdd pf.C f
  let logN := log2roundUp n
  if pf.Ls.length ≠ logN ∨ pf.Rs.length ≠ logN then .throw else
    let (xes, xInvs, st) ← verifyQuadLoopB E pf.Ls pf.Rs n (next2power n / 2) 0 st
    let m1 ← multiExpB E S pf.Ls pf.Ls.length xes
    let m2 ← multiExpB E S pf.Rs pf.Rs.length xInvs
    let m ← S.ptAdd m1 m2
    let C ← S.ptAdd C m
    let tmpG ← expSubsetProductR E S gs n xes pf.a uOffsets
    let tmpH ← expSubsetProductR E S hs n xInvs pf.b vOffsets
    let st := E.commit st lblS1 pf.S1
    let st := E.commit st lblS2 pf.S2
    let (x, st) := E.newChallenge st lblx
    let xS ← S.ptMul pf.S2 (E.scalarBytes x)
    let s ← S.ptAdd pf.S1 xS
    let xs ← S.ptMul s (E.scalarBytes x)
    let lhs ← S.ptAdd C xs
    let rB ← S.ptMul S.basePoint pf.r
    let t ← S.ptAdd rB tmpG
    let t ← S.ptAdd t tmpH
    let fF ← S.ptMul (E.pointBytes Fg) (mulBytes pf.a pf.b)
    let rhs ← S.ptAdd t fF
    .ok (decide (lhs = rhs), st)

end

end Verif
