/-
The challenge matrices of a whole round made from given bytes (used by C89).
-/
import Verif.Spec.Tail
import Verif.Spec.Hiding

namespace Verif.Spec
open Regev

variable {q : ℕ} [Fact q.Prime] {G : Type} [AddCommGroup G] [Module (ZMod q) G]

/-- The bytes from which the six challenge matrices of a round are made: one for decryption, three for encryption, two
for key generation. -/
abbrev RoundBytes (gk : GlobalKey q 2) : Type :=
  (Fin (challengeBytes gk.tee 128) → Fin 256) ×
  ((Fin (challengeBytes 128 gk.kay) → Fin 256) × (Fin (challengeBytes 128 gk.enn) → Fin 256) ×
    (Fin (challengeBytes 128 gk.kay) → Fin 256)) ×
  ((Fin (challengeBytes gk.kay 128) → Fin 256) × (Fin (challengeBytes gk.kay 128) → Fin 256))

/-- The environment in which these six challenges are answered with the given bytes. -/
def answeringRound (E : Env (ZMod q) G) {gk : GlobalKey q 2} (x : RoundBytes gk) : Env (ZMod q) G :=
  answering (answering (answering (answering (answering (answering E "RegevDecX" x.1) "RegevEncR1" x.2.1.1)
    "RegevEncR2" x.2.1.2.1) "RegevEncR3" x.2.1.2.2) "RegevKeyGenR1" x.2.2.1) "RegevKeyGenR2" x.2.2.2

end Verif.Spec
