/-
Model of the printing functions of /repo/include/utils.hpp, /repo/include/algebra.hpp and /repo/src/dlproofs/constraints.cpp.  A scalar of libsodium is its 32 bytes; `operator<<` for `int`, `size_t` and NTL's `ZZ`
writes decimal numbers (the stream has its default flags, and writing does not fail).
-/
import Verif.Model.RegevUtils
import Verif.Model.Scalar25519
import Verif.Model.Elt

namespace Verif.Print
open Verif

/-- `os << z` for an integer `z`, in decimal. -/
def intBytes (z : ℤ) : Bytes := if z < 0 then 45 :: decBytes z.natAbs else decBytes z.natAbs

/-- `balanced(CRV25519::Scalar)`, utils.hpp:67-71: the bytes as a number modulo the order (`scalarFromBytes`, algebra.hpp:127-131), then
`balanced` of algebra.hpp:220-226. -/
noncomputable def balancedBytes (b : Bytes) : ℤ := balanced ((Sc.leVal b : ℕ) : ZMod Regev.P)

/-- The loop of `prettyPrint(PtxtVec)`, utils.hpp:75-77: `x.first << "->" << balanced(x.second) << ", "`. -/
noncomputable def ppEntries (v : List (ℕ × Bytes)) : Bytes :=
  v.flatMap fun x => decBytes x.1 ++ [45, 62] ++ intBytes (balancedBytes x.2) ++ [44, 32]

/-- `prettyPrint(PtxtVec)`, utils.hpp:73-79. -/
noncomputable def ppPtxtVec (v : List (ℕ × Bytes)) : Bytes := [91] ++ ppEntries v ++ [93]

/-- `prettyPrint(LinConstraint)`, utils.hpp:80-83. -/
noncomputable def ppLin (c : LinConstraint Bytes) : Bytes :=
  [123] ++ ppPtxtVec c.terms ++ [44, 32] ++ intBytes (balancedBytes c.equalsTo) ++ [125]

/-- `prettyPrint(QuadConstraint)`, utils.hpp:84-89. -/
noncomputable def ppQuad (c : QuadConstraint Bytes) : Bytes :=
  [123, 91] ++ (c.indexes.flatMap fun i => decBytes i ++ [32]) ++ [93, 44, 32] ++ intBytes (balancedBytes c.equalsTo) ++ [125]

/-- `operator<<(std::set<int>)`, utils.hpp:120-124; the elements in the order of the set. -/
def ppInts (s : List ℤ) : Bytes := [123] ++ (s.flatMap fun i => intBytes i ++ [32]) ++ [125]

/-- `operator<<(std::set<size_t>)`, utils.hpp:125-129. -/
def ppSizes (s : List ℕ) : Bytes := [123] ++ (s.flatMap fun i => decBytes i ++ [32]) ++ [125]

/-- `printScalar`, algebra.hpp:265-273 (`q` is the modulus): `szz > q/2 ? szz-q : szz`. -/
def printScalar {q : ℕ} (s : ZMod q) : Bytes :=
  if (s.val : ℤ) > (q : ℤ) / 2 then intBytes ((s.val : ℤ) - q) else intBytes s.val

/-- `sv.length()-1` compared with a `size_t`, algebra.hpp:276 and 290: a `long`, converted to 64 bits without sign. -/
def lastIndex (len : ℕ) : ℕ := (len + (2 ^ 64 - 1)) % 2 ^ 64

/-- The loops of algebra.hpp:276-277 and 290-291, `k` rounds from `i` on: `print(st, v[i]) << " "`; reading outside the vector is undefined. -/
def printLoop {α : Type} (f : α → Bytes) (v : List α) : ℕ → ℕ → Res Bytes
  | 0, _ => .ok []
  | k + 1, i => do
    let x ← rd v i
    let r ← printLoop f v k (i + 1)
    .ok (f x ++ [32] ++ r)

/-- What `printSvec` and `printEvec` do with the entries. -/
def printVec {α : Type} (f : α → Bytes) (v : List α) : Res Bytes := do
  let b ← printLoop f v (lastIndex v.length) 0
  let x ← rd v (lastIndex v.length)
  .ok ([91] ++ b ++ f x ++ [93])

/-- `printSvec`, algebra.hpp:274-279. -/
def printSvec {q : ℕ} (v : List (ZMod q)) : Res Bytes := printVec printScalar v

/-- `printElement`, algebra.hpp:280-287: the coefficients, `ell-1` of them followed by a space. -/
def printElement {q ell : ℕ} (e : Elt (ZMod q) ell) : Bytes :=
  [91] ++ ((List.ofFn e.c).take (ell - 1)).flatMap (fun s => printScalar s ++ [32]) ++
    ((List.ofFn e.c).drop (ell - 1)).flatMap printScalar ++ [93]

/-- `printEvec`, algebra.hpp:288-293. -/
def printEvec {q ell : ℕ} (v : List (Elt (ZMod q) ell)) : Res Bytes := printVec printElement v

/-- `LinConstraint::debugPrint`, constraints.cpp:389-395: of each scalar the first byte. -/
def debugLin (c : LinConstraint Bytes) : Bytes :=
  [123, 91, 10] ++ (c.terms.flatMap fun t => [32, 32] ++ decBytes t.1 ++ [45, 62] ++ decBytes (t.2.getD 0 0).toNat ++ [46, 46, 46, 10]) ++
    [93, 44, 32] ++ decBytes (c.equalsTo.getD 0 0).toNat ++ [46, 46, 46, 32, 125, 10]

/-- `QuadConstraint::debugPrint`, constraints.cpp:396-402: the first two bytes. -/
def debugQuad (c : QuadConstraint Bytes) : Bytes :=
  [123, 91] ++ (c.indexes.flatMap fun i => [32] ++ decBytes i) ++ [32, 93, 44, 32] ++ decBytes (c.equalsTo.getD 0 0).toNat ++ [32] ++
    decBytes (c.equalsTo.getD 1 0).toNat ++ [46, 46, 46, 32, 125, 10]

end Verif.Print
