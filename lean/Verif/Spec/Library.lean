/-
What a verifier of a bulletproof hashes, message by message, independent of the code.
-/
import Verif.Spec.Merlin
import Verif.Spec.Bulletproof

namespace Verif.Spec
open Verif Verif.Merlin

/-- The answer of a Merlin transcript with protocol label `tag`, after the operations `ops`, to a
request for `n` bytes under the label `l`: bytes of the sponge. -/
def answer (tag : Bytes) (ops : List TOp) (l : Bytes) (n : ℕ) : Bytes :=
  outBytes keccakf (st0 keccakf) (((traceOf (transcriptOps tag ops)).op ⟨6, (l ++ le4 n).map .xor⟩).begin 7) n

/-- The messages of the folding levels: `L` under "<n>L" (n the current length), `R` under "R", and
a request for 64 bytes under "x"; from the second level on the length is a power of two. -/
def foldMsgs {G : Type} (pb : G → Bytes) : ℕ → List G → List G → List TOp
  | n, L :: Ls, R :: Rs =>
    .commit (decBytes n ++ [76]) (pb L) :: .commit [82] (pb R) :: .challenge [120] 64 ::
      foldMsgs pb (2 ^ Ls.length) Ls Rs
  | _, _, _ => []

/-- The messages of a linear proof for `n` witnesses: the commitment under "C"; a request for the
generator F, 32 bytes; the levels; `S` under "S"; a request for the last challenge. -/
def linMsgs {F G : Type} (pb : G → Bytes) (n : ℕ) (pf : LinPf F G) : List TOp :=
  .commit [67] (pb pf.C) :: .challenge [70] 32 :: (foldMsgs pb n pf.Ls pf.Rs ++
    [.commit [83] (pb pf.S), .challenge [120] 64])

/-- The messages of a quadratic proof: the same with `S1` and `S2`. -/
def quadMsgs {F G : Type} (pb : G → Bytes) (n : ℕ) (pf : QuadPf F G) : List TOp :=
  .commit [67] (pb pf.C) :: .challenge [70] 32 :: (foldMsgs pb n pf.Ls pf.Rs ++
    [.commit [83, 49] (pb pf.S1), .commit [83, 50] (pb pf.S2), .challenge [120] 64])

/-- Everything that precedes request number `j` (from 0) in a sequence of operations. -/
def before : ℕ → List TOp → List TOp
  | _, [] => []
  | j, .commit l m :: ops => .commit l m :: before j ops
  | 0, .challenge _ _ :: _ => []
  | j + 1, .challenge l n :: ops => .challenge l n :: before j ops

end Verif.Spec
