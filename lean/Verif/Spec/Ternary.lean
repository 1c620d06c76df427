/-
Specification of matrices with entries in {-1,0,1}, in terms of Mathlib matrices.
-/
import Verif.Model.Ternary
import Mathlib.Data.Matrix.Mul
import Mathlib.Algebra.BigOperators.Fin

namespace Verif.Spec

/-- The stored matrix `T` reports `n` rows and `m` columns and reading entry `(i,j)`
(`T[i][j]` in C++) gives `M i j`. -/
def Holds (T : TMat) {n m : Nat} (M : Matrix (Fin n) (Fin m) ℤ) : Prop :=
  T.length = n ∧ T.numCols = m ∧ ∀ (i : Fin n) (j : Fin m), T.get i j = .ok (M i j)

/-- The meaning of two random bits `lo`, `hi`: `01 ↦ 1`, `10 ↦ -1`, `00, 11 ↦ 0`. -/
def ofBits (lo hi : Bool) : ℤ :=
  match lo, hi with
  | true, false => 1
  | false, true => -1
  | _, _ => 0

/-- The documented decoding: entry `(r,c)` of an `n×m` matrix comes from bits `2(c mod 4)` and
`2(c mod 4)+1` of byte `r·⌈m/4⌉ + ⌊c/4⌋` (missing bytes count as 0). -/
def decoded (bytes : Bytes) (n m : Nat) : Matrix (Fin n) (Fin m) ℤ := fun r c =>
  let b := (bytes.getD (r * ((m + 3) / 4) + c / 4) 0).toNat
  ofBits (b.testBit (2 * (c % 4))) (b.testBit (2 * (c % 4) + 1))

/-- A Mathlib matrix as an NTL matrix. -/
def toNMat {R : Type} {n m : Nat} (A : Matrix (Fin n) (Fin m) R) : NMat R :=
  ⟨m, List.ofFn fun i => List.ofFn fun j => A i j⟩

/-- The integer matrix seen over a ring. -/
def castMat (R : Type) [Ring R] {n m : Nat} (M : Matrix (Fin n) (Fin m) ℤ) :
    Matrix (Fin n) (Fin m) R := fun i j => (M i j : R)

/-- `Ms` holds one integer matrix for each power `0,..,e-1` of `X`. -/
def EHolds (Ms : List TMat) {e n m : Nat} (M : Fin e → Matrix (Fin n) (Fin m) ℤ) : Prop :=
  Ms.length = e ∧ ∀ (k : Fin e) (T : TMat), Ms[k.1]? = some T → Holds T (M k)

/-- The matrix of ring elements `Σ_k M_k X^k`. -/
def polyMat {R : Type} [CommRing R] (X : R) {e n m : Nat} (M : Fin e → Matrix (Fin n) (Fin m) ℤ) :
    Matrix (Fin n) (Fin m) R := fun i j => ∑ k : Fin e, X ^ k.1 * (M k i j : R)

end Verif.Spec
