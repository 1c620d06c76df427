/-
Points as bytes: the contract of libsodium for arbitrary bytes, and what the verifiers derive from
a proof whose points are bytes.
-/
import Verif.Spec.Point
import Verif.Spec.Bulletproof
import Verif.Model.PointBytes

namespace Verif.Spec
open Verif.Sc

/-- `K` is the group of all points of the curve, `ι` the inclusion of the main subgroup `G`, `enc`
the canonical encoding and `dec` decoding, which also accepts other encodings.
`crypto_core_ed25519_add` refuses bytes that do not decode, and
`crypto_scalarmult_ed25519_noclamp` refuses everything that is not the canonical encoding of a
point of the main subgroup. -/
structure CurveOk {K G : Type} [AddCommGroup K] [DecidableEq G] [AddCommGroup G] [Module (ZMod order) G]
    (S : Sodium) (enc : K → Bytes) (dec : Bytes → Option K) (ι : G →+ K) (base : G) : Prop
    extends SodiumOk S (fun g => enc (ι g)) base where
  dec_enc : ∀ k, dec (enc k) = some k
  add_any : ∀ p q r, S.add p q = some r → ∃ a b, dec p = some a ∧ dec q = some b ∧ r = enc (a + b)
  mul_any : ∀ n p r, S.mul n p = some r → ∃ g : G, p = enc (ι g)

section
variable {F G : Type}

/-- The folding challenges, from points as bytes. -/
def foldChallengesB (E : Env F G) : Nat → E.St → List Bytes → List Bytes → List F × E.St
  | n, st, L :: Ls, R :: Rs =>
    let st1 := E.commit st (decBytes n ++ [76]) L
    let st2 := E.commit st1 [82] R
    let ch := E.challenge st2 [120] 64
    let rest := foldChallengesB E (2 ^ Ls.length) ch.2 Ls Rs
    (E.scalarReduce ch.1 :: rest.1, rest.2)
  | _, st, _, _ => ([], st)

/-- What the verifier of a linear proof derives by hashing. -/
def deriveLinB (E : Env F G) (pf : LinPfB F) (n : Nat) (st : E.St) : Derived F G E.St :=
  let st1 := E.commit st [67] pf.C
  let f := E.challenge st1 [70] 32
  let c := foldChallengesB E n f.2 pf.Ls pf.Rs
  let st2 := E.commit c.2 [83] pf.S
  let ch := E.challenge st2 [120] 64
  ⟨E.fromUniform f.1, c.1, E.scalarReduce ch.1, ch.2⟩

/-- What the verifier of a quadratic proof derives by hashing. -/
def deriveQuadB (E : Env F G) (pf : QuadPfB F) (n : Nat) (st : E.St) : Derived F G E.St :=
  let st1 := E.commit st [67] pf.C
  let f := E.challenge st1 [70] 32
  let c := foldChallengesB E n f.2 pf.Ls pf.Rs
  let st2 := E.commit c.2 [83, 49] pf.S1
  let st3 := E.commit st2 [83, 50] pf.S2
  let ch := E.challenge st3 [120] 64
  ⟨E.fromUniform f.1, c.1, E.scalarReduce ch.1, ch.2⟩

/-- The proof in bytes. -/
def linBytes (E : Env F G) (pf : LinPf F G) : LinPfB F :=
  ⟨pf.tag, E.pointBytes pf.C, pf.Ls.map E.pointBytes, pf.Rs.map E.pointBytes, E.pointBytes pf.S,
    pf.a, pf.r⟩

/-- The proof in bytes. -/
def quadBytes (E : Env F G) (pf : QuadPf F G) : QuadPfB F :=
  ⟨pf.tag, E.pointBytes pf.C, pf.Ls.map E.pointBytes, pf.Rs.map E.pointBytes, E.pointBytes pf.S1,
    E.pointBytes pf.S2, pf.a, pf.b, pf.r⟩

end

end Verif.Spec
