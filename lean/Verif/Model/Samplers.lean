/-
Model of the samplers of /repo/include/regevEnc.hpp that Model/RegevEnc.lean leaves out.
-/
import Verif.Model.RegevEnc

namespace Verif.Regev
variable {q : ℕ}

/-- `a-b` in `size_t` arithmetic (64 bits). -/
def sub64 (a b : ℕ) : ℕ := (a + 2 ^ 64 - b) % 2 ^ 64

/-- The conversion of a `size_t` to the `long` argument of `NTL::conv(ZZ_p&,long)`. -/
def toLong (n : ℕ) : ℤ := if n < 2 ^ 63 then n else (n : ℤ) - 2 ^ 64

/-- `ZeroOneScalar::randomize`, regevEnc.hpp:152-164; `x` are the two random bits. -/
def zeroOneScalar (x : ℕ) : ZMod q := (toLong (sub64 (x % 2) (x / 2)) : ZMod q)

/-- The loop of `ZeroOneElement::randomize`, regevEnc.hpp:173-176, for the remaining coefficients. -/
def zeroOneLoop : ℕ → ℕ → List (ZMod q)
  | 0, _ => []
  | k + 1, x => (toLong (sub64 (x % 2) (x / 2 % 2)) : ZMod q) :: zeroOneLoop k (x / 4)

/-- `ZeroOneElement::randomize`, regevEnc.hpp:167-184; `x` are the `2*ell` random bits. -/
def zeroOneElement (ell x : ℕ) : Elt (ZMod q) ell := ⟨fun i => (zeroOneLoop ell x).getD i 0⟩

end Verif.Regev
