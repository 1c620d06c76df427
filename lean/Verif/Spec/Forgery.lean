/-
A cheating prover for quadratic statements whose length is not a power of two (property C58).
It is not part of the repository; it is written against the repository's interface, and shares its
last part with `proveQuadratic`.
-/
import Verif.Spec.Bulletproof
import Verif.Spec.Honest

namespace Verif.Spec

section
variable {F G : Type} [Field F] [AddCommGroup G] [Module F G] [DecidableEq F] [DecidableEq G]

/-- The cheating prover.  Let `h` be the size of the first half.  When `n < 2h`, entry `h-1` has no
partner in the second half and is not folded.  The prover adds `u` times its generator `G_{h-1}` to
the first `L`, and `v` times `H_{h-1}` to the first `R` (with the matching multiples of `F`), and adds
`x u` and `v/x` to that entry of its vectors afterwards.  The product of the two adds `u v` to the
inner product.  Everything else is done honestly, with the same vectors `as`, `bs` that the commitment
`pf.C` is for. -/
def forgeQuad (E : Env F G) (coins : Nat → F × F) (pf : QuadPf F G) (r : F) (st : E.St)
    (gs : List G) (as : List F) (hs : List G) (bs : List F) (n : Nat) (u v : F) : Res (QuadPf F G × E.St) := do
  let st := E.processPoint st lblC pf.C
  let (Fg, st) := E.newGenerator st lblF
  let h := next2power n / 2
  let L := mexp (as.take h) (gs.drop h) + mexp (bs.drop h) (hs.take h) + dot (as.take h) (bs.drop h) • Fg
    + (u • gs.getD (h - 1) 0 + (u * bs.getD (h - 1) 0) • Fg)
  let R := mexp (as.drop h) (gs.take h) + mexp (bs.take h) (hs.drop h) + dot (as.drop h) (bs.take h) • Fg
    + (v • hs.getD (h - 1) 0 + (as.getD (h - 1) 0 * v) • Fg)
  let st := E.processPoint st (lblL n) L
  let st := E.processPoint st lblR R
  let (x, st) := E.newChallenge st lblx
  let xInv ← inverseOf x
  let as' := addInto (as.take h) ((as.drop h).map (fun a => a * xInv))
  let bs' := addInto (bs.take h) ((bs.drop h).map (fun b => b * x))
  let gs' := addInto (gs.take h) ((gs.drop h).map (fun g => x • g))
  let hs' := addInto (hs.take h) ((hs.drop h).map (fun g => xInv • g))
  let e ← proveQuadLoop E coins Fg h (h / 2) ⟨[L], [R], gs', as'.modify (h - 1) (· + x * u), hs',
    bs'.modify (h - 1) (· + xInv * v), r, st, 0⟩
  let (s, t) := coins e.k
  let (p, q) := coins (e.k + 1)
  let g0 ← rd e.gs 0
  let h0 ← rd e.hs 0
  let a0 ← rd e.as 0
  let b0 ← rd e.bs 0
  let S1 := p • E.base + s • g0 + t • h0 + (a0 * t + b0 * s) • Fg
  let S2 := q • E.base + (s * t) • Fg
  let st := E.processPoint e.st lblS1 S1
  let st := E.processPoint st lblS2 S2
  let (x, st) := E.newChallenge st lblx
  .ok ({ pf with Ls := e.Ls, Rs := e.Rs, S1 := S1, S2 := S2, a := a0 + s * x, b := b0 + t * x,
                 r := e.r + (p + q * x) * x }, st)

/-- The folding challenges that the cheating prover meets: the first one answers its own `L` and `R`,
the others are those of an honest prover for the folded and modified vectors. -/
def forgeChallenges (E : Env F G) (coins : Nat → F × F) (C : G) (st : E.St) (gs : List G) (as : List F)
    (hs : List G) (bs : List F) (n : Nat) (u v : F) : List F :=
  let f := E.challenge (E.commit st [67] (E.pointBytes C)) [70] 32
  let Fg := E.fromUniform f.1
  let m := Nat.clog 2 n - 1
  let h := 2 ^ m
  let L := mexp (as.take h) (gs.drop h) + mexp (bs.drop h) (hs.take h) + dot (as.take h) (bs.drop h) • Fg
    + (u • gs.getD (h - 1) 0 + (u * bs.getD (h - 1) 0) • Fg)
  let R := mexp (as.drop h) (gs.take h) + mexp (bs.take h) (hs.drop h) + dot (as.drop h) (bs.take h) • Fg
    + (v • hs.getD (h - 1) 0 + (as.getD (h - 1) 0 * v) • Fg)
  let ch := E.challenge (E.commit (E.commit f.2 (decBytes n ++ [76]) (E.pointBytes L)) [82] (E.pointBytes R)) [120] 64
  let x := E.scalarReduce ch.1
  x :: quadLevels E coins Fg m h ch.2 0 ((halve h x⁻¹ as).modify (h - 1) (· + x * u))
    ((halve h x bs).modify (h - 1) (· + x⁻¹ * v)) (halve h x gs) (halve h x⁻¹ hs)

end

end Verif.Spec
