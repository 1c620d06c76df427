/-
Specification of the fingerprints of keys: what is hashed.
-/
import Verif.Model.RegevEnc
import Verif.Model.Transcript

namespace Verif.Spec
open Regev

variable {q : ℕ}

/-- The 32 bytes of a number, least significant byte first. -/
def le32 (n : ℕ) : Bytes := (List.range 32).map fun i => UInt8.ofNat (n / 256 ^ i % 256)

/-- The bytes of a matrix: row by row, for each element the 32 bytes of its two coefficients. -/
def message (M : EMat q 2) : Bytes := M.flatten.flatMap fun e => le32 (e.c 0).val ++ le32 (e.c 1).val

/-- The hash function with outputs of 32 bytes maps the given keys and messages, which are different, to the same
value.  (That some collision exists is clear; these are collisions that whoever has the two keys can write down.) -/
def Collides (hash : Bytes → ℕ → Bytes → Bytes) (k m k' m' : Bytes) : Prop :=
  (k, m) ≠ (k', m') ∧ hash k 32 m = hash k' 32 m'

/-- The matrix has `n` rows of `m` elements. -/
def Dims (M : EMat q 2) (n m : ℕ) : Prop := M.length = n ∧ ∀ row ∈ M, row.length = m

end Verif.Spec
