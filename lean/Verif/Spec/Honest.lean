/-
The folding challenges that a prover meets, written down without the prover's code: at each level the
two points `L`, `R` are computed from the current vectors, absorbed, and answered by a challenge, by
which the vectors are folded.
-/
import Verif.Spec.Bulletproof
import Mathlib.Data.Nat.Log

namespace Verif.Spec

section
variable {F G : Type} [Field F] [AddCommGroup G] [Module F G]

/-- The first `h` entries, each plus `c` times the entry `h` places later (if there is one). -/
def halve (h : Nat) (c : F) (l : List G) : List G :=
  (List.range (min h l.length)).map fun i => l.getD i 0 + c • l.getD (h + i) 0

/-- The challenges of the `m` folding levels of a linear proof for vectors of length `n`, from
transcript state `st` on, with the pairs of coins number `k`, `k+1`, ….  (After a zero challenge,
where the prover stops, the remaining entries mean nothing.) -/
def linLevels (E : Env F G) (coins : Nat → F × F) (Fg : G) :
    Nat → Nat → E.St → Nat → List F → List F → List G → List F
  | 0, _, _, _, _, _, _ => []
  | m + 1, n, st, k, as, bs, gs =>
    let h := 2 ^ m
    let L := (coins k).1 • E.base + mexp (as.take h) (gs.drop h) + dot (as.take h) (bs.drop h) • Fg
    let R := (coins k).2 • E.base + mexp (as.drop h) (gs.take h) + dot (as.drop h) (bs.take h) • Fg
    let ch := E.challenge (E.commit (E.commit st (decBytes n ++ [76]) (E.pointBytes L)) [82] (E.pointBytes R)) [120] 64
    let x := E.scalarReduce ch.1
    x :: linLevels E coins Fg m h ch.2 (k + 1) (halve h x⁻¹ as) (halve h x bs) (halve h x gs)

/-- The same for a quadratic proof. -/
def quadLevels (E : Env F G) (coins : Nat → F × F) (Fg : G) :
    Nat → Nat → E.St → Nat → List F → List F → List G → List G → List F
  | 0, _, _, _, _, _, _, _ => []
  | m + 1, n, st, k, as, bs, gs, hs =>
    let h := 2 ^ m
    let L := (coins k).1 • E.base + mexp (as.take h) (gs.drop h) + mexp (bs.drop h) (hs.take h)
      + dot (as.take h) (bs.drop h) • Fg
    let R := (coins k).2 • E.base + mexp (as.drop h) (gs.take h) + mexp (bs.take h) (hs.drop h)
      + dot (as.drop h) (bs.take h) • Fg
    let ch := E.challenge (E.commit (E.commit st (decBytes n ++ [76]) (E.pointBytes L)) [82] (E.pointBytes R)) [120] 64
    let x := E.scalarReduce ch.1
    x :: quadLevels E coins Fg m h ch.2 (k + 1) (halve h x⁻¹ as) (halve h x bs) (halve h x gs) (halve h x⁻¹ hs)

/-- All folding challenges of an honest linear proof for the commitment `C`: `⌈log₂ n⌉` of them. -/
def linChallenges (E : Env F G) (coins : Nat → F × F) (C : G) (st : E.St) (as bs : List F) (gs : List G)
    (n : Nat) : List F :=
  let f := E.challenge (E.commit st [67] (E.pointBytes C)) [70] 32
  linLevels E coins (E.fromUniform f.1) (Nat.clog 2 n) n f.2 0 as bs gs

/-- All folding challenges of an honest quadratic proof for the commitment `C`. -/
def quadChallenges (E : Env F G) (coins : Nat → F × F) (C : G) (st : E.St) (as bs : List F) (gs hs : List G)
    (n : Nat) : List F :=
  let f := E.challenge (E.commit st [67] (E.pointBytes C)) [70] 32
  quadLevels E coins (E.fromUniform f.1) (Nat.clog 2 n) n f.2 0 as bs gs hs

end

end Verif.Spec
