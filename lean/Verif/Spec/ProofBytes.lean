/-
Scalars as bytes: what a byte string that need not be canonical stands for, and the equations that
accepted bytes satisfy.
-/
import Verif.Spec.PointBytes
import Verif.Model.ProofBytes

namespace Verif.Spec
open Verif.Sc

/-- What `libsodium` documents and does with the top bit of the scalar in
`crypto_scalarmult_ed25519_noclamp`: it is ignored. -/
def IgnoresTopBit (S : Sodium) : Prop :=
  ∀ n m p : Bytes, n.length = 32 → m.length = 32 → number n % 2 ^ 255 = number m % 2 ^ 255 →
    S.mul n p = S.mul m p

/-- 32 bytes that stand for the residue `x`, below `2^255`, and all zero if `x` is zero.  The
canonical encoding of `x` is one of them. -/
def StandsFor (b : Bytes) (x : ZMod order) : Prop :=
  b.length = 32 ∧ number b < 2 ^ 255 ∧ ((number b : ℕ) : ZMod order) = x ∧ (x = 0 → number b = 0)

/-- The error in the coefficient of the first generator when the response is `a` and there are no
offsets: the top bit is lost. -/
def topErr (a : Bytes) : ZMod order := if 2 ^ 255 ≤ number a then -2 ^ 255 else 0

/-- The error in general: if the offset `o` is added, only a carry is lost. -/
def firstErr (a : Bytes) : Option (List (ZMod order)) → ZMod order
  | none => topErr a
  | some o => if 2 ^ 256 ≤ number a + (o.headD 0).val then -2 ^ 256 else 0

section
variable {F G : Type}

/-- A proof with the points of a proof in bytes and the given residues as scalars. -/
abbrev linWith (pf : LinPfR) (a r : F) : LinPfB F := ⟨pf.tag, pf.C, pf.Ls, pf.Rs, pf.S, a, r⟩

abbrev quadWith (pf : QuadPfR) (a b r : F) : QuadPfB F :=
  ⟨pf.tag, pf.C, pf.Ls, pf.Rs, pf.S1, pf.S2, a, b, r⟩

/-- The bytes of a proof with these points and these bytes as scalars. -/
abbrev linRaw (E : Env F G) (pf : LinPf F G) (a r : Bytes) : LinPfR :=
  ⟨pf.tag, E.pointBytes pf.C, pf.Ls.map E.pointBytes, pf.Rs.map E.pointBytes, E.pointBytes pf.S, a, r⟩

abbrev quadRaw (E : Env F G) (pf : QuadPf F G) (a b r : Bytes) : QuadPfR :=
  ⟨pf.tag, E.pointBytes pf.C, pf.Ls.map E.pointBytes, pf.Rs.map E.pointBytes, E.pointBytes pf.S1,
    E.pointBytes pf.S2, a, b, r⟩

variable [Field F] [AddCommGroup G] [Module F G]

/-- The equation of the linear verifier (`LinEq`) with an error in the coefficient of the first
generator. -/
def LinEqErr (E : Env F G) (pf : LinPf F G) (bs : List F) (gs : List G) (eq : F) (off : List F)
    (d : Derived F G E.St) (e : F) : Prop :=
  pf.S + d.x • (pf.C + eq • d.Fg + mexp d.xs pf.Ls + mexp (d.xs.map (·⁻¹)) pf.Rs) =
    pf.r • E.base + (pf.a * foldedSum d.xs bs) • d.Fg
      + (pf.a • foldedSum d.xs gs + d.x • mexp off gs + e • gs.headD 0)

/-- The equation of the quadratic verifier (`QuadEq`) with errors in the coefficients of the first
generators of both kinds. -/
def QuadEqErr (E : Env F G) (pf : QuadPf F G) (gs hs : List G) (eq : F) (uoff voff : List F)
    (d : Derived F G E.St) (e e' : F) : Prop :=
  pf.C + eq • d.Fg + mexp d.xs pf.Ls + mexp (d.xs.map (·⁻¹)) pf.Rs + d.x • pf.S1 + (d.x * d.x) • pf.S2 =
    pf.r • E.base + (pf.a • foldedSum d.xs gs + mexp uoff gs + e • gs.headD 0)
      + (pf.b • foldedSum (d.xs.map (·⁻¹)) hs + mexp voff hs + e' • hs.headD 0) + (pf.a * pf.b) • d.Fg

end

end Verif.Spec
