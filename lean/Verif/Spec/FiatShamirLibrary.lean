/-
Specification vocabulary for C107: histories of Merlin transcripts, and what the sponge has absorbed when bytes are requested.
-/
import Verif.Spec.FiatShamir
import Verif.Spec.Merlin

namespace Verif.Spec
open Verif.Merlin

/-- The history of a transcript with label `tag` after the operations `ops`. -/
def historyOf (tag : Bytes) (ops : List TOp) : List Entry :=
  .started tag :: ops.map fun
    | .commit l m => .absorbed l m
    | .challenge l n => .drawn l n

/-- What the sponge has absorbed when `n` bytes are given out under the label `l`, on a transcript with label `tag` after the operations
`ops`: all that happened before, the label and the number of bytes, and the beginning of the output. -/
def absorbedBefore (tag : Bytes) (ops : List TOp) (l : Bytes) (n : ℕ) : Trace :=
  ((traceOf (transcriptOps tag ops)).op ⟨6, (l ++ le4 n).map .xor⟩).begin 7

end Verif.Spec
