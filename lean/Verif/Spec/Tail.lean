/-
Challenge matrices made from given bytes (used by C89).
-/
import Verif.Spec.RegevSetup
import Verif.Spec.Smallness

namespace Verif.Spec

/-- The environment `E`, in which a challenge of `N` bytes with the given label is answered with the bytes `buf`; all
other challenges and the states of the transcript are those of `E`. -/
def answering {F G : Type} (E : Env F G) (label : String) {N : ℕ} (buf : Fin N → Fin 256) : Env F G :=
  { E with
    challenge := fun st l n =>
      if l = str label ∧ n = N then (bufBytes buf, (E.challenge st l n).2) else E.challenge st l n }

end Verif.Spec
