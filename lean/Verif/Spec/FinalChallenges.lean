/-
The folding challenges of the two final proofs of a protocol round, in terms of the aggregated
constraints, the witnesses and the generators, without the prover's code.
-/
import Verif.Spec.Honest
import Verif.Model.Protocol

namespace Verif.Spec

section
variable {F G : Type} [Field F] [AddCommGroup G] [Module F G]

/-- The folding challenges that the prover of the two final proofs meets.  The linear proof uses the
generators `G_i` of the indexes `i` of the constraint.  The quadratic one uses `G_i` and `H_i`, where the
last index, that of the aggregated variable, uses the last `H` in use. -/
def finalChallenges (E : Env F G) (coinsL coinsQ : ℕ → F × F) (v : ReadyToProve F G)
    (vd : VerifierData F G E.St) (pd : ProverData F) : List F :=
  linChallenges E coinsL v.linCom (E.processLin vd.mer (str "linear") v.linCnstr)
      (pd.linWitness.map Prod.snd) (v.linCnstr.terms.map Prod.snd)
      (v.linCnstr.terms.map fun t => vd.Gs.getD t.1 0) v.linCnstr.terms.length ++
    quadChallenges E coinsQ v.quadCom (E.processQuad vd.mer (str "quadratic") v.quadCnstr)
      (pd.quadWitnessG.map Prod.snd) (pd.quadWitnessH.map Prod.snd)
      (v.quadCnstr.indexes.map fun i => vd.Gs.getD i 0)
      (v.quadCnstr.indexes.map fun i =>
        vd.Hs.getD (if i = vd.ix.w then v.quadCnstr.indexes.length - 2 else i) 0) v.quadCnstr.indexes.length

end

end Verif.Spec
