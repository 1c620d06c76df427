/-
Model of /repo/include/ternaryMatrix.hpp and /repo/src/algebra/ternaryMatrix.cpp, and of
the challenge matrices of /repo/include/regevProofs.hpp (newTernaryMatrix,
newTernaryEMatrix).  Scalars/elements are a commutative ring `R`.
-/
import Verif.Model.Basic
import Mathlib.Algebra.Ring.Defs
import Mathlib.Algebra.BigOperators.Group.List.Defs

namespace Verif

/-- `TernaryMatrix::TrenaryRow`, ternaryMatrix.hpp:42-66. -/
structure TRow where
  len : Nat
  rep : Bytes
  deriving DecidableEq

/-- `std::vector<unsigned char>::resize` (new bytes are zero); C++ library, used in
ternaryMatrix.hpp:50. -/
def bytesResize (b : Bytes) (n : Nat) : Bytes := b.take n ++ List.replicate (n - b.length) 0

/-- `TrenaryRow::resize`, ternaryMatrix.hpp:48-51. -/
def TRow.resize (r : TRow) (m : Nat) : TRow := { len := m, rep := bytesResize r.rep ((m + 3) / 4) }

/-- The value of the two bits at position `j` (0..3) of a byte, ternaryMatrix.hpp:54-55:
`theByte = rep >> 2j; (theByte&1) - ((theByte>>1)&1)`, in `int`. -/
def twoBits (b : UInt8) (j : Nat) : Int :=
  let theByte : Nat := b.toNat / 2 ^ (2 * j)
  ((theByte % 2 : Nat) : Int) - ((theByte / 2 % 2 : Nat) : Int)

/-- `TrenaryRow::operator[]`, ternaryMatrix.hpp:52-57 (no range check on `len`). -/
def TRow.get (r : TRow) (i : Nat) : Res Int := do
  let b ← rd r.rep (i / 4)
  pure (twoBits b (i % 4))

/-- `TrenaryRow::at`, ternaryMatrix.hpp:58-65. -/
def TRow.at (r : TRow) (i : Nat) : Res Int := if i ≥ r.len then .throw else r.get i

/-- `TernaryMatrix`, ternaryMatrix.hpp:41-99: an array of rows. -/
abbrev TMat := List TRow

/-- `NumCols()`, ternaryMatrix.hpp:70-73: that of the first row. -/
def TMat.numCols (M : TMat) : Nat :=
  match M with
  | [] => 0
  | r :: _ => r.len

/-- `TernaryMatrix::resize`, ternaryMatrix.hpp:75-79. -/
def TMat.resize (M : TMat) (n m : Nat) : TMat :=
  (M.take n ++ List.replicate (n - M.length) (⟨0, []⟩ : TRow)).map fun (r : TRow) => r.resize m

/-- `TernaryMatrix::at(i).at(j)`, ternaryMatrix.hpp:83 and 58-66. -/
def TMat.at (M : TMat) (i j : Nat) : Res Int :=
  match M[i]? with
  | none => .throw
  | some r => r.at j

/-- `M[i][j]`, ternaryMatrix.hpp:82 and 52-57. -/
def TMat.get (M : TMat) (i j : Nat) : Res Int := do
  let r ← rd M i
  r.get j

/-- The byte transformation of `setFromBytes`, ternaryMatrix.cpp:52-56: pairs `11` become
`00`. -/
def maskByte (theByte : UInt8) : UInt8 :=
  let mask1 := theByte ^^^ ((theByte &&& 0xaa) >>> 1)
  let mask2 := (mask1 <<< 1) ||| 0x55
  theByte &&& mask1 &&& mask2

/-- Writing `p[i] = x`; undefined when out of bounds. -/
def wr {α : Type} (p : List α) (i : Nat) (x : α) : Res (List α) :=
  if i < p.length then .ok (p.set i x) else .ub

/-- The inner loop of `setFromBytes` for one row, ternaryMatrix.cpp:50-57; `i` counts up to
`bytesInRow`, `k` iterations are left. -/
def setRowLoop (bytes : Bytes) (rowByteIdx : Nat) : Nat → Nat → Bytes → Res Bytes
  | 0, _, rep => .ok rep
  | k + 1, i, rep => do
    let b ← rd bytes (rowByteIdx + i)
    let rep' ← wr rep i (maskByte b)
    setRowLoop bytes rowByteIdx k (i + 1) rep'

/-- The outer loop of `setFromBytes`, ternaryMatrix.cpp:49-58. -/
def setMatLoop (bytes : Bytes) (bytesInRow : Nat) : Nat → TMat → Res TMat
  | _, [] => .ok []
  | rowByteIdx, r :: rows => do
    let rep ← setRowLoop bytes rowByteIdx bytesInRow 0 r.rep
    let rows' ← setMatLoop bytes bytesInRow (rowByteIdx + bytesInRow) rows
    pure ({ r with rep := rep } :: rows')

/-- `TernaryMatrix::setFromBytes(bytes)`, ternaryMatrix.cpp:45-60. -/
def TMat.setFromBytes (M : TMat) (bytes : Bytes) : Res TMat :=
  setMatLoop bytes ((M.numCols + 3) / 4) 0 M

/-- `TernaryMatrix::setFromBytes(bytes,n,m)`, ternaryMatrix.hpp:95-98. -/
def TMat.setFromBytesNM (M : TMat) (bytes : Bytes) (n m : Nat) : Res TMat :=
  (M.resize n m).setFromBytes bytes

section
variable {R : Type} [CommRing R]

/-- `*(vals[m+1])` with `vals = {-v, 0, v}`, ternaryMatrix.cpp:74-78. -/
def pick (v : R) (m : Int) : Res R :=
  if m + 1 = 0 then .ok (-v) else if m + 1 = 1 then .ok 0 else if m + 1 = 2 then .ok v else .ub

/-- Inner loop of `leftVecMult`, ternaryMatrix.cpp:75-78: `result[j] += vals[M[i][j]+1]`. -/
def addRow (row : TRow) (vi : R) : Nat → List R → Res (List R)
  | _, [] => .ok []
  | j, r :: rs => do
    let m ← row.get j
    let x ← pick vi m
    let rest ← addRow row vi (j + 1) rs
    pure ((r + x) :: rest)

/-- Outer loop of `leftVecMult`, ternaryMatrix.cpp:73-79. -/
def leftLoop (M : TMat) : Nat → List R → List R → Res (List R)
  | _, [], result => .ok result
  | i, vi :: vs, result => do
    let row ← rd M i
    let result' ← addRow row vi 0 result
    leftLoop M (i + 1) vs result'

/-- `leftVecMult(result,v,M)`, ternaryMatrix.cpp:62-80: `v·M`. -/
def leftVecMult (v : List R) (M : TMat) : Res (List R) :=
  if v.length ≠ M.length then .throw
  else leftLoop M 0 v (List.replicate M.numCols 0)

/-- Inner loop of `rightVecMult`, ternaryMatrix.cpp:102-105: `result[j] += vals[M[j][i]+1]`. -/
def addCol (M : TMat) (i : Nat) (vi : R) : Nat → List R → Res (List R)
  | _, [] => .ok []
  | j, r :: rs => do
    let m ← M.get j i
    let x ← pick vi m
    let rest ← addCol M i vi (j + 1) rs
    pure ((r + x) :: rest)

/-- Outer loop of `rightVecMult`, ternaryMatrix.cpp:100-106. -/
def rightLoop (M : TMat) : Nat → List R → List R → Res (List R)
  | _, [], result => .ok result
  | i, vi :: vs, result => do
    let result' ← addCol M i vi 0 result
    rightLoop M (i + 1) vs result'

/-- `rightVecMult(result,M,v)`, ternaryMatrix.cpp:89-107: `M·v`. -/
def rightVecMult (M : TMat) (v : List R) : Res (List R) :=
  if v.length ≠ M.numCols then .throw
  else rightLoop M 0 v (List.replicate M.length 0)

/-- An NTL matrix: number of columns and rows (the number of columns is stored even when
there are no rows). -/
structure NMat (R : Type) where
  ncols : Nat
  rows : List (List R)

/-- sequential application of a fallible function to a list (a `for` loop filling a vector) -/
def mapRes {α β : Type} (f : α → Res β) : List α → Res (List β)
  | [] => .ok []
  | a :: l => do
    let b ← f a
    let bs ← mapRes f l
    pure (b :: bs)

/-- `leftMatMult(result,A,M)`, ternaryMatrix.cpp:116-125: `A·M`, row by row. -/
def leftMatMult (A : NMat R) (M : TMat) : Res (NMat R) :=
  if A.ncols ≠ M.length then .throw
  else do
    let rows ← mapRes (fun row => leftVecMult row M) A.rows
    pure ⟨M.numCols, rows⟩

/-- `rightMatMult(result,M,A)`, ternaryMatrix.cpp:133-149: `M·A`, column by column: column
`j` of `A` is copied out (`inTmp[i] = A[i][j]`), multiplied, and copied into column `j` of
the result. -/
def rightMatMult (M : TMat) (A : NMat R) : Res (NMat R) :=
  if M.numCols ≠ A.rows.length then .throw
  else do
    let cols ← mapRes (fun j => do
      let inTmp ← mapRes (fun row => rd row j) A.rows
      rightVecMult M inTmp) (List.range A.ncols)
    let rows ← mapRes (fun i => mapRes (fun col => rd col i) cols) (List.range M.length)
    pure ⟨A.ncols, rows⟩

/-! ### TernaryEMatrix, ternaryMatrix.hpp:142-190 and ternaryMatrix.cpp:156-259

`Ms` is the list of coefficient matrices, `degree` the static extension degree and `X` the
static element `X`. -/

/-- NTL's `vec *= scalar`. -/
def vecScale (x : R) (v : List R) : List R := v.map fun a => a * x

/-- NTL's `vec += vec` (error on different lengths). -/
def vecAdd (a b : List R) : Res (List R) :=
  if a.length ≠ b.length then .throw else .ok (List.zipWith (· + ·) a b)

/-- The loop `for (i=degree-2; i>=0; --i) result = result*X + v·Ms[i]` of the products with
a `TernaryEMatrix`, ternaryMatrix.cpp:214-219 etc.; `f` is the product with one coefficient
matrix, `below` are the matrices with smaller index, from the largest index down. -/
def hornerLoop (X : R) (f : TMat → Res (List R)) : List TMat → List R → Res (List R)
  | [], result => .ok result
  | M :: below, result => do
    let tmp ← f M
    let s ← vecAdd (vecScale X result) tmp
    hornerLoop X f below s

/-- `leftVecMult(result,v,TernaryEMatrix)`, ternaryMatrix.cpp:209-220. -/
def leftVecMultE (degree : Nat) (X : R) (v : List R) (Ms : List TMat) : Res (List R) :=
  if Ms.length ≠ degree ∨ degree = 0 then .throw
  else match Ms.reverse with
    | [] => .ub
    | top :: below => do
      let result ← leftVecMult v top
      hornerLoop X (leftVecMult v) below result

/-- `rightVecMult(result,TernaryEMatrix,v)`, ternaryMatrix.cpp:222-233. -/
def rightVecMultE (degree : Nat) (X : R) (Ms : List TMat) (v : List R) : Res (List R) :=
  if Ms.length ≠ degree ∨ degree = 0 then .throw
  else match Ms.reverse with
    | [] => .ub
    | top :: below => do
      let result ← rightVecMult top v
      hornerLoop X (fun M => rightVecMult M v) below result

/-- NTL's `mat *= scalar`. -/
def nmScale (x : R) (A : NMat R) : NMat R := ⟨A.ncols, A.rows.map (vecScale x)⟩

/-- NTL's `mat += mat` (error on different dimensions). -/
def nmAdd (A B : NMat R) : Res (NMat R) :=
  if A.ncols ≠ B.ncols ∨ A.rows.length ≠ B.rows.length then .throw
  else .ok ⟨A.ncols, List.zipWith (List.zipWith (· + ·)) A.rows B.rows⟩

/-- The loop of the matrix products, ternaryMatrix.cpp:240-245 and 253-258; as
`hornerLoop`. -/
def hornerLoopM (X : R) (f : TMat → Res (NMat R)) : List TMat → NMat R → Res (NMat R)
  | [], result => .ok result
  | M :: below, result => do
    let tmp ← f M
    let s ← nmAdd (nmScale X result) tmp
    hornerLoopM X f below s

/-- `leftMatMult(result,A,TernaryEMatrix)`, ternaryMatrix.cpp:235-246. -/
def leftMatMultE (degree : Nat) (X : R) (A : NMat R) (Ms : List TMat) : Res (NMat R) :=
  if Ms.length ≠ degree ∨ degree = 0 then .throw
  else match Ms.reverse with
    | [] => .ub
    | top :: below => do
      let result ← leftMatMult A top
      hornerLoopM X (leftMatMult A) below result

/-- `rightMatMult(result,TernaryEMatrix,A)`, ternaryMatrix.cpp:248-259. -/
def rightMatMultE (degree : Nat) (X : R) (Ms : List TMat) (A : NMat R) : Res (NMat R) :=
  if Ms.length ≠ degree ∨ degree = 0 then .throw
  else match Ms.reverse with
    | [] => .ub
    | top :: below => do
      let result ← rightMatMult top A
      hornerLoopM X (fun M => rightMatMult M A) below result

/-- `TernaryEMatrix::resize`, ternaryMatrix.hpp:153-158. -/
def eResize (degree : Nat) (Ms : List TMat) (n m : Nat) : List TMat :=
  (Ms.take degree ++ List.replicate (degree - Ms.length) []).map fun (M : TMat) => M.resize n m

/-- The loop of `TernaryEMatrix::setFromBytes`, ternaryMatrix.cpp:192-197: matrix `i` is
read at offset `i*bytesPerMat`. -/
def eSetLoop (bytes : Bytes) (bytesPerMat : Nat) : Nat → List TMat → Res (List TMat)
  | _, [] => .ok []
  | i, M :: Ms => do
    let M' ← M.setFromBytes (bytes.drop (i * bytesPerMat))
    let Ms' ← eSetLoop bytes bytesPerMat (i + 1) Ms
    pure (M' :: Ms')

/-- `NumRows()`/`NumCols()` of a `TernaryEMatrix`, ternaryMatrix.hpp:151-152. -/
def eNumRows (Ms : List TMat) : Nat := match Ms with | [] => 0 | M :: _ => M.length
/-- see `eNumRows` -/
def eNumCols (Ms : List TMat) : Nat := match Ms with | [] => 0 | M :: _ => M.numCols

/-- `TernaryEMatrix::setFromBytes(bytes,n,m)`, ternaryMatrix.hpp:187-190. -/
def eSetFromBytesNM (degree : Nat) (Ms : List TMat) (bytes : Bytes) (n m : Nat) : Res (List TMat) :=
  let Ms' := eResize degree Ms n m
  eSetLoop bytes (eNumRows Ms' * ((eNumCols Ms' + 3) / 4)) 0 Ms'

/-- `TernaryEMatrix::operator()`, ternaryMatrix.cpp:170-179: `Σ_n Ms[n][i][j]·X^n`.  The
vector of coefficients has `degree` entries, so more matrices than that write out of
bounds. -/
def eGetLoop (X : R) (i j : Nat) : List TMat → Res R
  | [] => .ok 0
  | M :: Ms => do
    let m ← M.get i j
    let rest ← eGetLoop X i j Ms
    pure ((m : R) + X * rest)

/-- see `eGetLoop` -/
def eGet (degree : Nat) (X : R) (Ms : List TMat) (i j : Nat) : Res R :=
  if Ms.length > degree then .ub else eGetLoop X i j Ms

end

/-! ### challenge matrices, regevProofs.hpp:110-131 -/

/-- `MerlinRegev::newTernaryMatrix`, regevProofs.hpp:110-120.  `challenge k` are the `k`
bytes that the transcript returns. -/
def newTernaryMatrix (challenge : Nat → Bytes) (M : TMat) (n m : Nat) : Res TMat :=
  let n := if n = 0 then M.length else n
  let m := if m = 0 then M.numCols else m
  if n = 0 ∨ m = 0 then .ok M
  else M.setFromBytesNM (challenge ((n * m + 3) / 4)) n m

/-- `MerlinRegev::newTernaryEMatrix`, regevProofs.hpp:121-131. -/
def newTernaryEMatrix (degree : Nat) (challenge : Nat → Bytes) (Ms : List TMat) (n m : Nat) :
    Res (List TMat) :=
  let n := if n = 0 then eNumRows Ms else n
  let m := if m = 0 then eNumCols Ms else m
  if n = 0 ∨ m = 0 then .ok Ms
  else eSetFromBytesNM degree Ms (challenge (degree * ((n * m + 3) / 4))) n m

end Verif
