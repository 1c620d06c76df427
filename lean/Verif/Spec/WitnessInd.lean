/-
Vocabulary for "the proof says nothing about the witness".
-/
import Verif.Spec.Bulletproof

namespace Verif.Spec

/-- The `k` pairs of scalars a prover draws, as the sequence of coins that the model of the
prover reads (it reads no further). -/
def coinSeq {F : Type} [Field F] {k : Nat} (c : Fin k → F × F) : Nat → F × F :=
  fun i => if h : i < k then c ⟨i, h⟩ else (0, 0)

section
variable {F G : Type} [Field F] [AddCommGroup G] [Module F G]

/-- An outcome of the quadratic prover that the hash function makes exceptional: an exception
(a folding challenge was zero), or a proof whose final challenge is zero. -/
def ZeroChallenge (E : Env F G) (n : Nat) (st : E.St) (o : Res (QuadPf F G)) : Prop :=
  o = .throw ∨ ∃ π, o = .ok π ∧ (deriveQuad E π n st).x = 0

end

end Verif.Spec
