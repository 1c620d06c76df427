/-
Specification of the bulletproof verification equations, independent of the loops of the
implementation.
-/
import Verif.Spec.Vec
import Verif.Model.Bulletproof

namespace Verif.Spec

section
variable {F G : Type} [Field F] [AddCommGroup G] [Module F G]

/-- The Fiat-Shamir folding challenges of a list of (L,R) pairs: for each level the transcript
absorbs L under the label "<n>L" (n = current vector length) and R under "R", and then yields
the challenge "x".  After the first level the vector length is a power of two, determined by
the number of remaining levels.  Returns the challenges and the transcript state. -/
def foldChallenges (E : Env F G) : Nat → E.St → List G → List G → List F × E.St
  | n, st, L :: Ls, R :: Rs =>
    let st1 := E.commit st (decBytes n ++ [76]) (E.pointBytes L)
    let st2 := E.commit st1 [82] (E.pointBytes R)
    let ch := E.challenge st2 [120] 64
    let rest := foldChallenges E (2 ^ Ls.length) ch.2 Ls Rs
    (E.scalarReduce ch.1 :: rest.1, rest.2)
  | _, st, _, _ => ([], st)

/-- All subset-product combination `Σ_i z_i • g_i`, `z_i` the subset product of the challenges
selected by the bits of `i`. -/
def foldedSum (xs : List F) (gs : List G) : G :=
  mexp ((List.range gs.length).map (subsetProd xs)) gs

/-- Everything a verifier derives from the proof by hashing: the generator F, the folding
challenges, the final challenge and the resulting transcript state. -/
structure Derived (F G St : Type) where
  Fg : G
  xs : List F
  x : F
  st : St

/-- Derivation for a linear proof, starting from transcript state `st`. -/
def deriveLin (E : Env F G) (pf : LinPf F G) (n : Nat) (st : E.St) : Derived F G E.St :=
  let st1 := E.commit st [67] (E.pointBytes pf.C)
  let f := E.challenge st1 [70] 32
  let c := foldChallenges E n f.2 pf.Ls pf.Rs
  let st2 := E.commit c.2 [83] (E.pointBytes pf.S)
  let ch := E.challenge st2 [120] 64
  ⟨E.fromUniform f.1, c.1, E.scalarReduce ch.1, ch.2⟩

/-- The verification equation of a linear proof, with offsets `off` (zeros if absent):
`S + x(C + eq·F + Σ x_i L_i + Σ x_i⁻¹ R_i) = r·base + a·(Σ z_i b_i)·F + Σ (a z_i + x o_i) G_i`. -/
def LinEq (E : Env F G) (pf : LinPf F G) (bs : List F) (gs : List G) (eq : F) (off : List F)
    (d : Derived F G E.St) : Prop :=
  pf.S + d.x • (pf.C + eq • d.Fg + mexp d.xs pf.Ls + mexp (d.xs.map (·⁻¹)) pf.Rs) =
    pf.r • E.base + (pf.a * foldedSum d.xs bs) • d.Fg
      + (pf.a • foldedSum d.xs gs + d.x • mexp off gs)

/-- Derivation for a quadratic proof. -/
def deriveQuad (E : Env F G) (pf : QuadPf F G) (n : Nat) (st : E.St) : Derived F G E.St :=
  let st1 := E.commit st [67] (E.pointBytes pf.C)
  let f := E.challenge st1 [70] 32
  let c := foldChallenges E n f.2 pf.Ls pf.Rs
  let st2 := E.commit c.2 [83, 49] (E.pointBytes pf.S1)
  let st3 := E.commit st2 [83, 50] (E.pointBytes pf.S2)
  let ch := E.challenge st3 [120] 64
  ⟨E.fromUniform f.1, c.1, E.scalarReduce ch.1, ch.2⟩

/-- The verification equation of a quadratic proof with offsets:
`C + eq·F + Σ x_i L_i + Σ x_i⁻¹ R_i + x S1 + x² S2
   = r·base + Σ (a z_i + u_i) G_i + Σ (b z_i' + v_i) H_i + ab·F`,
`z_i'` the subset products of the inverse challenges. -/
def QuadEq (E : Env F G) (pf : QuadPf F G) (gs hs : List G) (eq : F) (uoff voff : List F)
    (d : Derived F G E.St) : Prop :=
  pf.C + eq • d.Fg + mexp d.xs pf.Ls + mexp (d.xs.map (·⁻¹)) pf.Rs + d.x • pf.S1 + (d.x * d.x) • pf.S2 =
    pf.r • E.base + (pf.a • foldedSum d.xs gs + mexp uoff gs)
      + (pf.b • foldedSum (d.xs.map (·⁻¹)) hs + mexp voff hs) + (pf.a * pf.b) • d.Fg

end

end Verif.Spec
