/-
Specification vocabulary for the input and output of proofs.
-/
import Verif.Model.Bulletproof

namespace Verif.Spec.IO

/-- White space: tab, newline, vertical tab, form feed, carriage return, blank. -/
def Space (b : UInt8) : Prop := b = 9 ∨ b = 10 ∨ b = 11 ∨ b = 12 ∨ b = 13 ∨ b = 32

/-- The ASCII codes of `0` to `9`. -/
def Digit (b : UInt8) : Prop := 48 ≤ b.toNat ∧ b.toNat ≤ 57

def StartsWithSpace (x : Bytes) : Prop := ∃ b t, x = b :: t ∧ Space b

def StartsWithDigit (x : Bytes) : Prop := ∃ b t, x = b :: t ∧ Digit b

/-- All points and scalars of a proof are 32 bytes. -/
structure LinWf (pf : LinPf Bytes Bytes) : Prop where
  C : pf.C.length = 32
  Ls : ∀ x ∈ pf.Ls, x.length = 32
  Rs : ∀ x ∈ pf.Rs, x.length = 32
  S : pf.S.length = 32
  a : pf.a.length = 32
  r : pf.r.length = 32

structure QuadWf (pf : QuadPf Bytes Bytes) : Prop where
  C : pf.C.length = 32
  Ls : ∀ x ∈ pf.Ls, x.length = 32
  Rs : ∀ x ∈ pf.Rs, x.length = 32
  S1 : pf.S1.length = 32
  S2 : pf.S2.length = 32
  a : pf.a.length = 32
  b : pf.b.length = 32
  r : pf.r.length = 32

/-- When a proof can be read back: its tag is one word, which ends because the bytes of `C` happen to start with
white space; it has an `L`, and the first one does not look like a continuation of the number before it; and
neither do the bytes after the other number. -/
def Readable (tag C : Bytes) (Ls Rs : List Bytes) (S : Bytes) : Prop :=
  tag ≠ [] ∧ (∀ b ∈ tag, ¬ Space b) ∧ StartsWithSpace C ∧
  (∃ L t, Ls = L :: t ∧ ¬ StartsWithDigit L) ∧ (∃ X t, Rs ++ [S] = X :: t ∧ ¬ StartsWithDigit X)

end Verif.Spec.IO
