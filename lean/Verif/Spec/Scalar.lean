/-
Specification vocabulary for byte encodings: the number a byte string stands for, and canonical
32-byte encodings of residues modulo the group order.
-/
import Verif.Model.Basic
import Mathlib.Data.Nat.Digits.Defs
import Mathlib.Data.ZMod.ValMinAbs

namespace Verif.Spec

/-- The number with these base-256 digits, least significant first. -/
def number (b : Bytes) : ℕ := Nat.ofDigits 256 (b.map UInt8.toNat)

/-- The order of the group of edwards25519: `2^252 + 27742317777372353535851937790883648493`. -/
abbrev order : ℕ := 2 ^ 252 + 27742317777372353535851937790883648493

/-- `b` is the canonical encoding of the residue `s`: 32 bytes that hold the representative of `s`
in `[0, order)`. -/
def IsScalar (b : Bytes) (s : ZMod order) : Prop := b.length = 32 ∧ number b = s.val

end Verif.Spec
