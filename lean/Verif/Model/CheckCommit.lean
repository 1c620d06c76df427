/-
Model of the debugging checks at the end of /repo/src/regev/regevProofs-utils.cpp, which the tests use: does a
commitment open to the values in the witness?

The generators `ped->getG(i)` and `ped->getH(i)` are functions of the index (see Model/Point.lean for how they are made).
-/
import Verif.Model.Pedersen
import Verif.Model.RegevUtils

namespace Verif
section
variable {F G : Type} [Field F] [AddCommGroup G] [Module F G]

/-- `witness[i]` of a `std::map` (regevProofs-utils.cpp:437 and 449): inserts a zero if there is no such entry.  The
new map and the value. -/
def mapRef (m : PtxtVec F) (i : ℕ) : PtxtVec F × F :=
  match mapFind m i with
  | some x => (m, x)
  | none => (mapPut m i 0, 0)

/-- `w.push_back(witness[i])` in a loop over the indexes, regevProofs-utils.cpp:435-438 and 447-450. -/
def mapRefs : PtxtVec F → List ℕ → PtxtVec F × List F
  | m, [] => (m, [])
  | m, i :: is => ((mapRefs (mapRef m i).1 is).1, (mapRef m i).2 :: (mapRefs (mapRef m i).1 is).2)

/-- `checkQuadCommit`, regevProofs-utils.cpp:427-441: the verdict and the witness, which is changed. -/
def checkQuadCommit [DecidableEq G] (base : G) (getG getH : ℕ → G) (c : QuadConstraint F) (com padCom : G)
    (rnd padRnd : F) (witness : PtxtVec F) : Res (Bool × PtxtVec F) := do
  let comm := com + padCom
  let rand := rnd + padRnd
  let gens := c.indexes.map fun i => getG i + getH i
  let r := mapRefs witness c.indexes
  let b ← verifyCom base comm gens r.2 gens.length rand
  .ok (b, r.1)

/-- `checkLinCommit`, regevProofs-utils.cpp:442-453. -/
def checkLinCommit [DecidableEq G] (base : G) (getG : ℕ → G) (pv : PtxtVec F) (com : G) (rnd : F)
    (witness : PtxtVec F) : Res (Bool × PtxtVec F) := do
  let gs := pv.map fun p => getG p.1
  let r := mapRefs witness (pv.map Prod.fst)
  let b ← verifyCom base com gs r.2 gs.length rnd
  .ok (b, r.1)

end
end Verif
