/-
Model of /repo/include/pedersen.hpp and /repo/src/dlproofs/naive.cpp.

Scalars are elements of a field `F`, points are elements of an `F`-module `G`.
`Point * Scalar` in C++ (point25519.hpp:93-110) is `•`.
-/
import Mathlib.Algebra.Module.Basic
import Mathlib.Algebra.Field.Basic
import Verif.Model.Basic

namespace Verif

/-! ### Power-of-two helpers on `size_t` (64-bit) -/

/-- `next2power`, pedersen.hpp:75-80.  A `size_t` is a `Nat` below `2^64`; `v--` and
`v+1` wrap.  The loop `for (i=1; i<64; i*=2)` runs for i = 1,2,4,8,16,32 and is
written as a fold over these values. -/
def next2power (v : Nat) : Nat :=
  ([1, 2, 4, 8, 16, 32].foldl (fun v i => v ||| (v >>> i)) ((v + (2 ^ 64 - 1)) % 2 ^ 64) + 1) % 2 ^ 64

/-- The search loop of `log2roundUp`, pedersen.hpp:84-87, from `ell` for `k` more steps. -/
def log2roundUpFrom (n : Nat) : Nat → Nat → Nat
  | _, 0 => 64
  | ell, k + 1 => if n ≤ 2 ^ ell then ell else log2roundUpFrom n (ell + 1) k

/-- `log2roundUp`, pedersen.hpp:82-89: the smallest `ell < 64` with `1UL << ell >= n`,
else 64. -/
def log2roundUp (n : Nat) : Nat := log2roundUpFrom n 0 64

section
variable {F G : Type} [Field F] [AddCommGroup G] [Module F G]

/-! ### Multi-exponentiations -/

/-- The accumulation loop of `multiExp`, naive.cpp:33-36: `c += Gs[i]*xes[i]`. -/
def multiExpAcc : G → List G → List F → G
  | c, g :: gs, x :: xs => multiExpAcc (c + x • g) gs xs
  | c, _, _ => c

/-- `multiExp`, naive.cpp:32-37 (and pedersen.hpp:92). -/
def multiExp (Gs : List G) (n : Nat) (xes : List F) : Res G := do
  let gs ← rdN Gs n
  let xs ← rdN xes n
  .ok (multiExpAcc 0 gs xs)

/-- The accumulation loop of `innerProduct`, curve25519.cpp:65-69. -/
def innerProductAcc : F → List F → List F → F
  | c, a :: as, b :: bs => innerProductAcc (c + a * b) as bs
  | c, _, _ => c

/-- `innerProduct` on arrays, curve25519.cpp:64-70. -/
def innerProduct (a b : List F) (n : Nat) : Res F := do
  let as ← rdN a n
  let bs ← rdN b n
  .ok (innerProductAcc 0 as bs)

/-- `multiBaseOneExp`, naive.cpp:40-43, on an array of exactly the `n` points. -/
def multiBaseOneExp (Gs : List G) (x : F) : List G := Gs.map (fun g => x • g)

/-- In-place `p[j] += q[j]` for all `j < |q|`, in increasing order of `j`
(the loops of naive.cpp:51-53, bulletproof.cpp:159-162). -/
def addInto {α : Type} [Add α] : List α → List α → List α
  | p :: ps, q :: qs => (p + q) :: addInto ps qs
  | ps, _ => ps

/-- `foldGenerators`, naive.cpp:46-54: scales `Gs[nOver2..n-1]` by `x` in place, then
`Gs[j] += Gs[j+nOver2]` for `j < n-nOver2`.  Returns the new contents of the first `n`
entries.  As `j` increases, `Gs[j+nOver2]` is always read before it is changed. -/
def foldGenerators (Gs : List G) (n : Nat) (x : F) (nOver2 : Nat) : Res (List G) := do
  let gs ← rdN Gs n
  if n < nOver2 then .ub else
    let s := gs.take nOver2 ++ multiBaseOneExp (gs.drop nOver2) x
    .ok (addInto s (s.drop nOver2))

/-- The loop of `expSubsetProduct2`, naive.cpp:61-65, over the first `logn` scalars. -/
def expSubsetProduct2Loop : List G → Nat → Nat → List F → Res (List G)
  | Gs, _, _, [] => .ok Gs
  | Gs, n, nOver2, x :: xs => do
    let gs ← foldGenerators Gs n x nOver2
    expSubsetProduct2Loop (gs.take nOver2) nOver2 (nOver2 / 2) xs

/-- `expSubsetProduct2`, naive.cpp:58-66; the result is in `Gs[0]`.
For `n <= 1` the shift `1UL << (logn-1)` has a huge shift count: undefined. -/
def expSubsetProduct2 (Gs : List G) (n : Nat) (xes : List F) : Res G := do
  let logn := log2roundUp n
  if logn = 0 then .ub else
    let xs ← rdN xes logn
    let gs ← expSubsetProduct2Loop Gs n (2 ^ (logn - 1)) xs
    rd gs 0

theorem log2roundUpFrom_spec (n : Nat) : ∀ k ell, (∀ j, j < ell → 2 ^ j < n) → ell + k = 64 →
    (log2roundUpFrom n ell k < 64 ∧ n ≤ 2 ^ log2roundUpFrom n ell k ∨ log2roundUpFrom n ell k = 64) ∧
    ∀ j, j < log2roundUpFrom n ell k → 2 ^ j < n := by
  intro k
  induction k with
  | zero =>
    intro ell h1 h2
    have : ell = 64 := by omega
    subst this
    exact ⟨Or.inr rfl, h1⟩
  | succ k ih =>
    intro ell h1 h2
    unfold log2roundUpFrom
    split
    · exact ⟨Or.inl ⟨by omega, by assumption⟩, h1⟩
    · apply ih (ell + 1) _ (by omega)
      intro j hj
      rcases Nat.lt_succ_iff_lt_or_eq.mp hj with h | h
      · exact h1 j h
      · subst h; omega

/-- `2^(log2roundUp n - 1) < n` for `n ≥ 2` (used for the termination of
`subsetProdRecurse`). -/
theorem log2roundUp_half_lt {n : Nat} (h : 1 < n) : 0 < log2roundUp n ∧ 2 ^ (log2roundUp n - 1) < n := by
  have hs := log2roundUpFrom_spec n 64 0 (by intro j hj; omega) (by omega)
  have hpos : 0 < log2roundUp n := by
    rcases Nat.eq_zero_or_pos (log2roundUp n) with h0 | h0
    · rcases hs.1 with ⟨_, h2⟩ | h2
      · change n ≤ 2 ^ log2roundUp n at h2
        rw [h0] at h2; simp at h2; omega
      · change log2roundUp n = 64 at h2; omega
    · exact h0
  exact ⟨hpos, hs.2 _ (by change log2roundUp n - 1 < log2roundUp n; omega)⟩

/-- `subsetProdRecurse`, naive.cpp:68-77, on an array `vec` of length `n`.  The halves
`vec[0..nOver2-1]` and `vec[nOver2..n-1]` are updated in place. -/
def subsetProdRecurse (vec : List F) (basis : List F) (basisLen : Nat) : Res (List F) :=
  if hn : vec.length ≤ 1 then .ok vec
  else
    let logn := log2roundUp vec.length
    let nOver2 := 2 ^ (logn - 1)
    if basisLen < logn then .ub
    else do
      let b ← rd basis (basisLen - logn)
      let hi ← subsetProdRecurse ((vec.drop nOver2).map (fun v => v * b)) basis basisLen
      let lo ← subsetProdRecurse (vec.take nOver2) basis basisLen
      .ok (lo ++ hi)
termination_by vec.length
decreasing_by
  · have := log2roundUp_half_lt (n := vec.length) (by omega)
    simp only [List.length_map, List.length_drop]
    have : 0 < 2 ^ (log2roundUp vec.length - 1) := Nat.two_pow_pos _
    omega
  · have := log2roundUp_half_lt (n := vec.length) (by omega)
    simp only [List.length_take]
    omega

/-- `subsetProduct`, naive.cpp:80-85. -/
def subsetProduct (n : Nat) (basis : List F) (basisLen : Nat) (a : F) : Res (List F) :=
  subsetProdRecurse (List.replicate n a) basis basisLen

/-- `expSubsetProduct`, naive.cpp:89-98.  `offsets = none` is the null pointer. -/
def expSubsetProduct (Gs : List G) (n : Nat) (xes : List F) (a : F) (offsets : Option (List F)) :
    Res G := do
  let logn := log2roundUp n
  let prods ← subsetProduct n xes logn a
  match offsets with
  | none => multiExp Gs n prods
  | some off => do
    let off' ← rdN off n
    multiExp Gs n (addInto prods off')

/-! ### Commitments -/

/-- `commit`, pedersen.hpp:114-117.  `base` is `Point::base()`. -/
def commit (base : G) (Gs : List G) (xes : List F) (n : Nat) (r : F) (Fg : G := 0) (alpha : F := 0) :
    Res G := do
  let m ← multiExp Gs n xes
  .ok (r • base + alpha • Fg + m)

/-- `verifyCom`, pedersen.hpp:118-121. -/
def verifyCom [DecidableEq G] (base : G) (c : G) (Gs : List G) (xes : List F) (n : Nat) (r : F)
    (Fg : G := 0) (alpha : F := 0) : Res Bool := do
  let c' ← commit base Gs xes n r Fg alpha
  .ok (decide (c' = c))

/-- `commit2`, pedersen.hpp:123-127. -/
def commit2 (base : G) (Gs : List G) (xes : List F) (Hs : List G) (ys : List F) (n : Nat) (r : F)
    (Fg : G := 0) (alpha : F := 0) : Res G := do
  let m1 ← multiExp Gs n xes
  let m2 ← multiExp Hs n ys
  .ok (r • base + alpha • Fg + m1 + m2)

/-- `verifyCom2`, pedersen.hpp:128-132. -/
def verifyCom2 [DecidableEq G] (base : G) (c : G) (Gs : List G) (xes : List F) (Hs : List G)
    (ys : List F) (n : Nat) (r : F) (Fg : G := 0) (alpha : F := 0) : Res Bool := do
  let c' ← commit2 base Gs xes Hs ys n r Fg alpha
  .ok (decide (c' = c))

end

end Verif
