/-
The products of /repo/src/algebra/ternaryMatrix.cpp once more, this time with the memory of
the result: `result` may be the same object as the vector or matrix that is multiplied.
`Model/Ternary.lean` models the calls in which they are different objects.
-/
import Verif.Model.Ternary

namespace Verif

section
variable {R : Type} [CommRing R]

/-- What the reference `v` refers to at some point of the execution: `shared` says that the
caller passed the same object as `result` and as `v` (C++ references; not a function of the
repository). -/
def nowAt {α : Type} (shared : Bool) (result v : α) : α := if shared then result else v

/-- `*(vals[m_ij+1])` with `vals = {&minusV[i], &zero, &v[i]}`, ternaryMatrix.cpp:74-77 and
101-104: pointers, so the entry of `v` is read when it is added. -/
def pickNow (minusV v : List R) (i : Nat) (m : Int) : Res R :=
  if m + 1 = 0 then rd minusV i else if m + 1 = 1 then .ok 0
  else if m + 1 = 2 then rd v i else .ub

/-- Inner loop of `leftVecMult` and `rightVecMult`, ternaryMatrix.cpp:75-78 and 102-105, with
`entry j` the matrix entry that is used for `result[j]`; `k` iterations are left. -/
def innerNow (shared : Bool) (entry : Nat → Res Int) (minusV v : List R) (i : Nat) :
    Nat → Nat → List R → Res (List R)
  | 0, _, result => .ok result
  | k + 1, j, result => do
    let m ← entry j
    let x ← pickNow minusV (nowAt shared result v) i m
    let old ← rd result j
    let result' ← wr result j (old + x)
    innerNow shared entry minusV v i k (j + 1) result'

/-- Outer loop, ternaryMatrix.cpp:73-79 and 100-106; `entry i j` is the matrix entry that is
multiplied with `v[i]` and added to `result[j]`; `k` iterations are left. -/
def outerNow (shared : Bool) (entry : Nat → Nat → Res Int) (minusV v : List R) :
    Nat → Nat → List R → Res (List R)
  | 0, _, result => .ok result
  | k + 1, i, result => do
    let result' ← innerNow shared (entry i) minusV v i result.length 0 result
    outerNow shared entry minusV v k (i + 1) result'

/-- NTL's `vec.SetLength(n)` (algebra.hpp:78-79): entries are kept, new ones are zero. -/
def vecResize (v : List R) (n : Nat) : List R := v.take n ++ List.replicate (n - v.length) 0

/-- `leftVecMult(result,v,M)`, ternaryMatrix.cpp:62-80.  `result` is the previous contents of
the result, equal to `v` if `shared`; the outcome is the final contents of the result. -/
def leftVecMultMem (shared : Bool) (result v : List R) (M : TMat) : Res (List R) :=
  if (nowAt shared result v).length ≠ M.length then .throw
  else
    let result := (vecResize result M.numCols).map fun _ => 0
    let minusV := (nowAt shared result v).map fun a => -a
    outerNow shared (fun i j => M.get i j) minusV v (nowAt shared result v).length 0 result

/-- `rightVecMult(result,M,v)`, ternaryMatrix.cpp:89-107; as `leftVecMultMem`. -/
def rightVecMultMem (shared : Bool) (result : List R) (M : TMat) (v : List R) : Res (List R) :=
  if (nowAt shared result v).length ≠ M.numCols then .throw
  else
    let result := (vecResize result M.length).map fun _ => 0
    let minusV := (nowAt shared result v).map fun a => -a
    outerNow shared (fun i j => M.get j i) minusV v (nowAt shared result v).length 0 result

/-- NTL's `mat.SetDims(n,m)` (algebra.hpp:80-85): with another number of columns the matrix is
replaced by a new one, otherwise rows are kept.  `spare` are the rows that were allocated
earlier and are not in use (NTL keeps them with their contents); rows never allocated are
zero. -/
def matResize (spare : List (List R)) (A : NMat R) (n m : Nat) : NMat R :=
  if m ≠ A.ncols then ⟨m, List.replicate n (List.replicate m 0)⟩
  else
    let all := A.rows ++ spare
    ⟨m, all.take n ++ List.replicate (n - all.length) (List.replicate m 0)⟩

/-- Loop of `leftMatMult`, ternaryMatrix.cpp:123-124; `k` rows are left. -/
def leftMatLoop (shared : Bool) (A : NMat R) (M : TMat) : Nat → Nat → NMat R → Res (NMat R)
  | 0, _, result => .ok result
  | k + 1, i, result => do
    let ri ← rd result.rows i
    let ai ← rd (nowAt shared result A).rows i
    let ri' ← leftVecMultMem shared ri ai M
    let rows ← wr result.rows i ri'
    leftMatLoop shared A M k (i + 1) ⟨result.ncols, rows⟩

/-- `leftMatMult(result,A,M)`, ternaryMatrix.cpp:116-125.  `result` is the previous contents of
the result (with `spare` rows), equal to `A` if `shared`. -/
def leftMatMultMem (shared : Bool) (spare : List (List R)) (result A : NMat R) (M : TMat) :
    Res (NMat R) :=
  if (nowAt shared result A).ncols ≠ M.length then .throw
  else
    let result := matResize spare result (nowAt shared result A).rows.length M.numCols
    leftMatLoop shared A M result.rows.length 0 result

/-- `for i: result[i][j] = outTmp[i]`, ternaryMatrix.cpp:146-147; `k` rows are left. -/
def putCol (outTmp : List R) (j : Nat) : Nat → Nat → List (List R) → Res (List (List R))
  | 0, _, rows => .ok rows
  | k + 1, i, rows => do
    let x ← rd outTmp i
    let row ← rd rows i
    let row' ← wr row j x
    let rows' ← wr rows i row'
    putCol outTmp j k (i + 1) rows'

/-- Loop of `rightMatMult`, ternaryMatrix.cpp:142-148; `len` is the length of `inTmp`, `outTmp`
keeps its contents between iterations, and `k` columns are left. -/
def rightMatLoop (shared : Bool) (M : TMat) (A : NMat R) (len : Nat) :
    Nat → Nat → List R → NMat R → Res (NMat R)
  | 0, _, _, result => .ok result
  | k + 1, j, outTmp, result => do
    let inTmp ← mapRes (fun i => do
      let row ← rd (nowAt shared result A).rows i
      rd row j) (List.range len)
    let outTmp' ← rightVecMultMem false outTmp M inTmp
    let rows ← putCol outTmp' j outTmp'.length 0 result.rows
    rightMatLoop shared M A len k (j + 1) outTmp' ⟨result.ncols, rows⟩

/-- `rightMatMult(result,M,A)`, ternaryMatrix.cpp:133-149; as `leftMatMultMem`. -/
def rightMatMultMem (shared : Bool) (spare : List (List R)) (result : NMat R) (M : TMat)
    (A : NMat R) : Res (NMat R) :=
  if M.numCols ≠ (nowAt shared result A).rows.length then .throw
  else
    let result := matResize spare result M.length (nowAt shared result A).ncols
    rightMatLoop shared M A (nowAt shared result A).rows.length result.ncols 0 [] result

/-- The loop of the vector products with a `TernaryEMatrix`, ternaryMatrix.cpp:214-219 and
227-232; `f M v` is the product of `v` with one coefficient matrix into the new vector `tmp`. -/
def hornerNow (shared : Bool) (X : R) (f : TMat → List R → Res (List R)) (v : List R) :
    List TMat → List R → Res (List R)
  | [], result => .ok result
  | M :: below, result => do
    let tmp ← f M (nowAt shared result v)
    let s ← vecAdd (vecScale X result) tmp
    hornerNow shared X f v below s

/-- `leftVecMult(result,v,TernaryEMatrix)`, ternaryMatrix.cpp:209-220. -/
def leftVecMultEMem (shared : Bool) (degree : Nat) (X : R) (result v : List R)
    (Ms : List TMat) : Res (List R) :=
  if Ms.length ≠ degree ∨ degree = 0 then .throw
  else match Ms.reverse with
    | [] => .ub
    | top :: below => do
      let result ← leftVecMultMem shared result v top
      hornerNow shared X (fun M w => leftVecMultMem false [] w M) v below result

/-- `rightVecMult(result,TernaryEMatrix,v)`, ternaryMatrix.cpp:222-233. -/
def rightVecMultEMem (shared : Bool) (degree : Nat) (X : R) (result : List R) (Ms : List TMat)
    (v : List R) : Res (List R) :=
  if Ms.length ≠ degree ∨ degree = 0 then .throw
  else match Ms.reverse with
    | [] => .ub
    | top :: below => do
      let result ← rightVecMultMem shared result top v
      hornerNow shared X (fun M w => rightVecMultMem false [] M w) v below result

/-- The loop of the matrix products, ternaryMatrix.cpp:240-245 and 253-258; as `hornerNow`. -/
def hornerNowM (shared : Bool) (X : R) (f : TMat → NMat R → Res (NMat R)) (A : NMat R) :
    List TMat → NMat R → Res (NMat R)
  | [], result => .ok result
  | M :: below, result => do
    let tmp ← f M (nowAt shared result A)
    let s ← nmAdd (nmScale X result) tmp
    hornerNowM shared X f A below s

/-- `leftMatMult(result,A,TernaryEMatrix)`, ternaryMatrix.cpp:235-246. -/
def leftMatMultEMem (shared : Bool) (degree : Nat) (X : R) (spare : List (List R))
    (result A : NMat R) (Ms : List TMat) : Res (NMat R) :=
  if Ms.length ≠ degree ∨ degree = 0 then .throw
  else match Ms.reverse with
    | [] => .ub
    | top :: below => do
      let result ← leftMatMultMem shared spare result A top
      hornerNowM shared X (fun M B => leftMatMultMem false [] ⟨0, []⟩ B M) A below result

/-- `rightMatMult(result,TernaryEMatrix,A)`, ternaryMatrix.cpp:248-259. -/
def rightMatMultEMem (shared : Bool) (degree : Nat) (X : R) (spare : List (List R))
    (result : NMat R) (Ms : List TMat) (A : NMat R) : Res (NMat R) :=
  if Ms.length ≠ degree ∨ degree = 0 then .throw
  else match Ms.reverse with
    | [] => .ub
    | top :: below => do
      let result ← rightMatMultMem shared spare result top A
      hornerNowM shared X (fun M B => rightMatMultMem false [] ⟨0, []⟩ M B) A below result

end

end Verif
