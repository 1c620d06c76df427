/-
Model of `merlin_rng_wipe` (/repo/src/libmerlin/merlin.c:288-294).  Continues `Verif.Model.Merlin`.
-/
import Verif.Model.Merlin

namespace Verif.Merlin
open Verif

/-- `merlin_rng_wipe`, merlin.c:288-294: the bytes of the `merlin_strobe128` are set to zero (both
branches of the `#ifdef`); `finalized` is outside it and stays. -/
def rngWipe (r : Rng) : Rng :=
  { r with sctx := { st := List.replicate 200 0, pos := 0, posBegin := 0, curFlags := 0 } }

end Verif.Merlin
