/-
Model of the remaining utilities of /repo/include/algebra.hpp: `divCeil`, `log2roundUp(BigInt)`, the conversions between
elements and vectors of scalars, the mixed inner products, and the overloads of `balanced` with their static variable.
-/
import Verif.Model.RegevUtils
import Mathlib.Data.Nat.Size

namespace Verif

/-- `divCeil(x,y)`, algebra.hpp:57-62: NTL's `/` rounds towards minus infinity and fails for a zero divisor. -/
def divCeil (x y : ℤ) : Res ℤ := if y = 0 then .throw else .ok ((x + y - 1).fdiv y)

/-- `NumBits` (NTL library): the number of bits of the absolute value. -/
def numBits (n : ℤ) : ℕ := Nat.size n.natAbs

/-- `log2roundUp(BigInt)`, algebra.hpp:90-94. -/
def log2roundUpBI (n : ℤ) : ℕ := if n = 0 then 0 else numBits (n - 1)

/-- `SetCoeff(px, i, s)` on the representation of an element (NTL library). -/
def setCoeff {F : Type} {ell : ℕ} (e : Elt F ell) (i : ℕ) (s : F) : Elt F ell :=
  ⟨fun j => if j.val = i then s else e.c j⟩

/-- The loop of `conv(Element&,SVector)`, algebra.hpp:179-181, from index `i`, `k` iterations left. -/
def convLoop {F : Type} {ell : ℕ} (v : List F) : ℕ → ℕ → Elt F ell → Res (Elt F ell)
  | 0, _, e => .ok e
  | k + 1, i, e => do
    let s ← rd v i
    convLoop v k (i + 1) (setCoeff e i s)

/-- `conv(Element& e, const SVector& v)`, algebra.hpp:176-182; `e` is the old value, which is overwritten in place. -/
def convElement {F : Type} {ell : ℕ} (e : Elt F ell) (v : List F) : Res (Elt F ell) := convLoop v (min ell v.length) 0 e

section
variable {F : Type} [CommRing F] {ell : ℕ}

/-- The loop of `innerProduct(EVector,SVector)`, algebra.hpp:156-157, from index `i`, `k` iterations left. -/
def innerESLoop (v1 : List (Elt F ell)) (v2 : List F) : ℕ → ℕ → Elt F ell → Res (Elt F ell)
  | 0, _, e => .ok e
  | k + 1, i, e => do
    let a ← rd v1 i
    let s ← rd v2 i
    innerESLoop v1 v2 k (i + 1) (e + s • a)

/-- `innerProduct(EVector,SVector)`, algebra.hpp:153-159. -/
def innerES (v1 : List (Elt F ell)) (v2 : List F) : Res (Elt F ell) :=
  innerESLoop v1 v2 (min v1.length v2.length) 0 0

/-- `innerProduct(SVector,EVector)`, algebra.hpp:160-162. -/
def innerSE (v1 : List F) (v2 : List (Elt F ell)) : Res (Elt F ell) := innerES v2 v1

end

/-- The modulus of NTL's scalars when a function is called, and what its static variable `Pover2` holds (`none` before the
first call, algebra.hpp:221 and 245). -/
structure Half where
  q : ℕ
  half : Option ℤ

/-- The initialisation of the static variable: at the first call only. -/
def Half.enter (h : Half) : Half := { h with half := some (h.half.getD ((h.q : ℤ) / 2)) }

/-- `balanced(Scalar)`, algebra.hpp:220-226, with the static variable; `rep` is the representative in `[0,q)`. -/
def balancedAt (h : Half) (rep : ℕ) : Half × ℤ :=
  let h := h.enter
  (h, if (rep : ℤ) > h.half.getD 0 then (rep : ℤ) - h.q else rep)

/-- The loop of `balanced(SVector)`, algebra.hpp:229-230. -/
def balancedVec (h : Half) : List ℕ → Half × List ℤ
  | [] => (h, [])
  | s :: v =>
    let (h, x) := balancedAt h s
    let (h, xs) := balancedVec h v
    (h, x :: xs)

/-- `balanced(Element)`, algebra.hpp:233-236. -/
def balancedElt {ell : ℕ} (h : Half) (e : Elt ℕ ell) : Half × List ℤ := balancedVec h (List.ofFn e.c)

/-- The loops of `balanced(EVector)`, algebra.hpp:237-243. -/
def balancedEVec {ell : ℕ} (h : Half) : List (Elt ℕ ell) → Half × List (List ℤ)
  | [] => (h, [])
  | e :: v =>
    let (h, x) := balancedElt h e
    let (h, xs) := balancedEVec h v
    (h, x :: xs)

/-- `balanced(SMatrix)`, algebra.hpp:244-253, with its own static variable. -/
def balancedMat (h : Half) (m : List (List ℕ)) : Half × List (List ℤ) :=
  let h := h.enter
  (h, m.map fun r => r.map fun (x : ℕ) => if (x : ℤ) > h.half.getD 0 then (x : ℤ) - h.q else x)

/-- `balanced(EMatrix)`, algebra.hpp:254-261. -/
def balancedEMat {ell : ℕ} (h : Half) : List (List (Elt ℕ ell)) → Half × List (List (List ℤ))
  | [] => (h, [])
  | r :: m =>
    let (h, x) := balancedEVec h r
    let (h, xs) := balancedEMat h m
    (h, x :: xs)

end Verif
