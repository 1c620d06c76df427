/-
What the blinding factors of a proof are computed from.  Uses the sponge of `Verif.Spec.Merlin`.
-/
import Verif.Spec.Merlin

namespace Verif.Spec
open Verif Merlin

/-- The secrets that go into the blinding factors: the first `n` of each array, one array after the
other, numbered from 0 on.  Secret 0 has the caller's label, secret `i` the eight bytes of `i`. -/
def secrets (label : Bytes) (n : Nat) (xes : List Bytes) (ys : Option (List Bytes)) : List (Bytes × Bytes) :=
  (xes.take n ++ (ys.getD []).take n).mapIdx fun i w => (if i = 0 then label else bytesFromInt i, w)

/-- The operations of the sponge from which blinding factors are drawn: the transcript so far; each
secret, overwriting, after its label and length; the entropy, overwriting, after "rng"; and the
number of bytes asked for. -/
def blindingOps (tag : Bytes) (ops : List TOp) (ws : List (Bytes × Bytes)) (entropy : Bytes) : List SOp :=
  transcriptOps tag ops ++
    ws.flatMap (fun w => [⟨6, (w.1 ++ le4 w.2.length).map .xor⟩, ⟨6, w.2.map .over⟩]) ++
    [⟨6, [114, 110, 103].map .xor⟩, ⟨6, entropy.map .over ++ (le4 128).map .xor⟩]

end Verif.Spec
