/-
What a decimal number at the beginning of a text is, and which numbers of parties the program can finish with,
independently of the model.
-/
import Verif.Model.Arguments
import Mathlib.Data.Nat.Digits.Defs

namespace Verif.Spec
open Verif

/-- White space: the character codes 9 to 13 and 32. -/
def White (b : UInt8) : Prop := b.toNat = 32 ∨ (9 ≤ b.toNat ∧ b.toNat ≤ 13)

/-- The codes of the characters 0 to 9. -/
def Digit (b : UInt8) : Prop := 48 ≤ b.toNat ∧ b.toNat ≤ 57

/-- The value of decimal digits, most significant first. -/
def decimal (ds : Bytes) : ℕ := Nat.ofDigits 10 (ds.reverse.map fun b => b.toNat - 48)

/-- The text `s` begins with the number `v`: white space, perhaps a sign (43 is `+`, 45 is `-`), at least one digit, and
then something that is not another digit. -/
def StartsWith (s : Bytes) (v : ℤ) : Prop :=
  ∃ ws sg ds rest : Bytes, s = ws ++ sg ++ ds ++ rest ∧ (∀ b ∈ ws, White b) ∧ ds ≠ [] ∧ (∀ b ∈ ds, Digit b) ∧
    (∀ b t, rest = b :: t → ¬ Digit b) ∧
    ((sg = [] ∧ v = decimal ds) ∨ (sg = [43] ∧ v = decimal ds) ∨ (sg = [45] ∧ v = -(decimal ds : ℤ)))

/-- The numbers of parties for which a run of the program can get through its proof functions. -/
def Good (n : ℕ) : Prop :=
  4 ∣ n ∧ ((37 ≤ n ∧ n ≤ 61) ∨ (173 ≤ n ∧ n ≤ 288) ∨ (806 ≤ n ∧ n ≤ 1348))

end Verif.Spec
