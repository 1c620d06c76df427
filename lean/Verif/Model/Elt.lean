/-
Model of `Element = NTL::ZZ_pE` (/repo/include/algebra.hpp:53) for the modulus `X^ell + 1` that
the library installs (/repo/src/regev/regevEnc.cpp:48-51): a polynomial of degree below `ell`
over the scalars, kept as its `ell` coefficients, with arithmetic modulo `X^ell + 1`.
-/
import Verif.Model.Basic
import Mathlib.Algebra.BigOperators.Fin
import Mathlib.Algebra.Ring.Defs

namespace Verif

/-- `Element`, algebra.hpp:50: the coefficients of `1, X, .., X^(ell-1)`.  NTL strips leading
zeros; `coeff` returns zero beyond the degree, so the padded vector is what a user sees. -/
@[ext] structure Elt (F : Type) (ell : ℕ) where
  c : Fin ell → F

instance {F : Type} {ell : ℕ} [DecidableEq F] : DecidableEq (Elt F ell) := fun a b =>
  decidable_of_iff (a.c = b.c) (by constructor <;> intro h <;> [exact Elt.ext h; exact h ▸ rfl])

namespace Elt
variable {F : Type} [CommRing F] {ell : ℕ}

/-- `coeff(e, idx)`, algebra.hpp:103-105: zero beyond the degree. -/
def coeff (e : Elt F ell) (i : ℕ) : F := if h : i < ell then e.c ⟨i, h⟩ else 0

/-- Zero-initialised element (NTL library). -/
instance : Zero (Elt F ell) := ⟨⟨fun _ => 0⟩⟩
/-- `conv(e, 1)` (NTL library). -/
instance : One (Elt F ell) := ⟨⟨fun i => if i.val = 0 then 1 else 0⟩⟩
/-- `ZZ_pE` addition (NTL library). -/
instance : Add (Elt F ell) := ⟨fun a b => ⟨fun i => a.c i + b.c i⟩⟩
/-- `ZZ_pE` subtraction (NTL library). -/
instance : Sub (Elt F ell) := ⟨fun a b => ⟨fun i => a.c i - b.c i⟩⟩
/-- `ZZ_pE` negation (NTL library). -/
instance : Neg (Elt F ell) := ⟨fun a => ⟨fun i => - a.c i⟩⟩
/-- `ZZ_pE` multiplication modulo `X^ell + 1` (NTL library; modulus set in
regevEnc.cpp:48-51): products of degree `ell` or more wrap around with a sign. -/
instance : Mul (Elt F ell) := ⟨fun a b => ⟨fun k =>
  ∑ i : Fin ell, ∑ j : Fin ell,
    if i.val + j.val = k.val then a.c i * b.c j
    else if i.val + j.val = k.val + ell then - (a.c i * b.c j) else 0⟩⟩
/-- `Element * Scalar` (NTL library), used e.g. in algebra.hpp:157 and regevEnc.cpp:265. -/
instance : SMul F (Elt F ell) := ⟨fun s a => ⟨fun i => s * a.c i⟩⟩
instance : SMul ℕ (Elt F ell) := ⟨fun n a => ⟨fun i => n • a.c i⟩⟩
instance : SMul ℤ (Elt F ell) := ⟨fun n a => ⟨fun i => n • a.c i⟩⟩
instance : NatCast (Elt F ell) := ⟨fun n => ⟨fun i => if i.val = 0 then (n : F) else 0⟩⟩
instance : IntCast (Elt F ell) := ⟨fun n => ⟨fun i => if i.val = 0 then (n : F) else 0⟩⟩

/-- Powers by repeated multiplication. -/
def pow (a : Elt F ell) : ℕ → Elt F ell
  | 0 => 1
  | n + 1 => pow a n * a
instance : Pow (Elt F ell) ℕ := ⟨pow⟩

end Elt
end Verif
