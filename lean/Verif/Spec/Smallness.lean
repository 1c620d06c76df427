/-
Specification vocabulary for the smallness test: how the reply depends on the challenge bytes.
-/
import Verif.Model.RegevProofs

namespace Verif.Spec
open Regev

/-- A buffer of `N` challenge bytes. -/
def bufBytes {N : ℕ} (buf : Fin N → Fin 256) : Bytes := List.ofFn fun k => UInt8.ofFin (buf k)

/-- The number of bytes that are drawn for an `n×m` challenge matrix of ring elements. -/
def challengeBytes (n m : ℕ) : ℕ := 2 * ((n * m + 3) / 4)

/-- The reply `x·R+y` to the `n×m` challenge matrix `R` that the library makes from the bytes `buf` has
entries of absolute value at most `B`. -/
def ReplyShort {q : ℕ} [Fact q.Prime] (n m : ℕ) (x y : EVec q 2) (B : ℤ) (buf : Bytes) : Prop :=
  ∃ R u z, newTernaryEMatrix 2 (fun _ => buf) [] n m = .ok R ∧ leftVecMultE 2 (eltX (ZMod q)) x R = .ok u ∧
    vecAdd u y = .ok z ∧ lInftyNorm z ≤ B

end Verif.Spec
