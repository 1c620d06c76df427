/-
Specification vocabulary for the constraints recorded by the Regev proofs: the challenges that come
out of the transcript, and how an assignment of the variables is read as vectors of ring elements.
-/
import Verif.Spec.Opened
import Verif.Spec.Ternary
import Verif.Spec.Regev
import Verif.Model.Scalar25519
import Verif.Model.RegevEnc
import Verif.Lemmas.Elt
import Mathlib.Algebra.BigOperators.Group.Finset.Basic

namespace Verif.Spec
open scoped BigOperators

/-- Entry `(r,c)` of a matrix with `m` columns in the documented decoding (the same as `decoded`,
without bounds on the indexes). -/
def ternEntry (bytes : Bytes) (m r c : ℕ) : ℤ :=
  let b := (bytes.getD (r * ((m + 3) / 4) + c / 4) 0).toNat
  ofBits (b.testBit (2 * (c % 4))) (b.testBit (2 * (c % 4) + 1))

/-- Entry `(i,j)` of the `n×m` challenge matrix of ring elements with coefficients in {-1,0,1}: the
bytes hold the matrix of the constant coefficients, then that of the coefficients of `X`. -/
def ternaryOf {q : ℕ} (bytes : Bytes) (n m i j : ℕ) : Elt (ZMod q) 2 :=
  ⟨fun k => (ternEntry (bytes.drop (k.val * (n * ((m + 3) / 4)))) m i j : ZMod q)⟩

/-- The ring element whose coefficients are the little-endian numbers in bytes 0-31 and 32-63. -/
def elementOf {q : ℕ} (bytes : Bytes) : Elt (ZMod q) 2 :=
  ⟨fun k => ((Sc.leVal ((bytes.drop (32 * k.val)).take 32) : ℕ) : ZMod q)⟩

/-- The `i`-th ring element of the vector whose variables start at `idx`. -/
def eltAt {q : ℕ} (x : ℕ → ZMod q) (idx i : ℕ) : Elt (ZMod q) 2 := ⟨fun j => x (idx + 2 * i + j)⟩

/-- The variables from `off` on have the values `v`. -/
def Reads {F : Type} (x : ℕ → F) (off : ℕ) (v : List F) : Prop :=
  ∀ i a, v[i]? = some a → x (off + i) = a

/-- The assignment `x` gives the variables in the map `m` the values they have there. -/
def Agrees {F : Type} [Field F] (m : PtxtVec F) (x : ℕ → F) : Prop := ∀ k ∈ keys m, x k = coef m k

/-- Constraints `s` and `s+1` are there and hold for `x`. -/
def SlotSat {F : Type} [Field F] (cs : List (LinConstraint F)) (s : ℕ) (x : ℕ → F) : Prop :=
  ∃ c d, cs[s]? = some c ∧ cs[s + 1]? = some d ∧ LinSat c x ∧ LinSat d x

section
variable {q : ℕ}

/-- Entry `(k,i)` of a matrix of ring elements. -/
def entry (M : List (List (Elt (ZMod q) 2))) (k i : ℕ) : Elt (ZMod q) 2 := (M.getD k []).getD i 0

/-- The matrix has `n` rows of `m` entries. -/
def HasShape (M : List (List (Elt (ZMod q) 2))) (n m : ℕ) : Prop :=
  M.length = n ∧ ∀ row ∈ M, row.length = m

variable [Fact q.Prime]

/-- `Σ_{j<m} ξ^j·d_j`: `m` equations batched with the powers of a challenge. -/
noncomputable def batch (m : ℕ) (ξ : Elt (ZMod q) 2) (d : ℕ → Elt (ZMod q) 2) : Elt (ZMod q) 2 :=
  ∑ j ∈ Finset.range m, ξ ^ j * d j

/-- The two digits of entry `j` put together: `lo_j + radix·hi_j`. -/
def digits (x : ℕ → ZMod q) (lo hi : ℕ) (radix : ℤ) (j : ℕ) : Elt (ZMod q) 2 :=
  eltAt x lo j + (radix : ZMod q) • eltAt x hi j

/-- The noise that the values `x` of the variables give to ciphertext `i`. -/
noncomputable def decNoise (delta kay : ℕ) (ctMat : Regev.EMat q 2) (ctVec : Regev.EVec q 2) (skIdx ptIdx : ℕ)
    (x : ℕ → ZMod q) (i : ℕ) : Elt (ZMod q) 2 :=
  ctVec.getD i 0 - (∑ k ∈ Finset.range kay, eltAt x skIdx k * entry ctMat k i)
    - x (ptIdx + i) • Regev.g q 2 delta

/-- The noise that the values `x` give to entry `i` of the first part of the ciphertext. -/
noncomputable def encNoise1 (kay : ℕ) (A : Regev.EMat q 2) (ct1 : Regev.EVec q 2) (rIdx : ℕ)
    (x : ℕ → ZMod q) (i : ℕ) : Elt (ZMod q) 2 :=
  ct1.getD i 0 - ∑ k ∈ Finset.range kay, entry A i k * eltAt x rIdx k

/-- The noise that the values `x` give to entry `i` of the second part of the ciphertext. -/
noncomputable def encNoise2 (delta kay : ℕ) (B : Regev.EMat q 2) (ct2 : Regev.EVec q 2) (rIdx ptIdx : ℕ)
    (x : ℕ → ZMod q) (i : ℕ) : Elt (ZMod q) 2 :=
  ct2.getD i 0 - (∑ k ∈ Finset.range kay, entry B i k * eltAt x rIdx k) - x (ptIdx + i) • Regev.g q 2 delta

/-- The noise that the values `x` give to entry `i` of the public key. -/
noncomputable def keyNoise (kay : ℕ) (A : Regev.EMat q 2) (pk : Regev.EVec q 2) (skIdx : ℕ)
    (x : ℕ → ZMod q) (i : ℕ) : Elt (ZMod q) 2 :=
  pk.getD i 0 - ∑ k ∈ Finset.range kay, eltAt x skIdx k * entry A k i

/-- The secret `Σ lagrange_i·x_i` reconstructed from the shares in variables `pt1, pt1+1, …`, followed by
the `enn` values in variables `pt2, pt2+1, …`. -/
def resharing (lagrange : List (ZMod q)) (pt1 pt2 enn : ℕ) (x : ℕ → ZMod q) : List (ZMod q) :=
  (∑ i ∈ Finset.range lagrange.length, lagrange.getD i 0 * x (pt1 + i)) :: (List.range' pt2 enn).map x

end
end Verif.Spec
