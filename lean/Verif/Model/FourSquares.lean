/-
Model of /repo/src/algebra/foursquares.cpp: decompositions into sums of two and of four
squares.

`NTL::ZZ` is modelled by `Int` (or `Nat` where the value is known not to be negative).  NTL's
`SqrRoot`, `PowerMod`, `Jacobi` and `PrimeSeq` are modelled by their mathematical contract;
`NTL::ProbPrime` is a parameter (`probPrime`), because it is a randomized test that may accept
a composite number.  `NTL::ZZ::SinglePrecision` is the parameter `single`.
-/
import Verif.Model.Basic
import Mathlib.NumberTheory.LegendreSymbol.JacobiSymbol
import Mathlib.Data.Nat.Sqrt

namespace Verif.FourSq

/-- foursquares.cpp:43 -/
def magicN : Nat := 10080

/-- `squaresModMagic.find(residue) != end`, foursquares.cpp:44-52 and 62-64: the set holds
`i*i mod magicN` for `0 ≤ i ≤ magicN/2`. -/
def inSquaresModMagic (residue : Nat) : Bool :=
  (List.range (magicN / 2 + 1)).any fun i => (i * i) % magicN == residue

/-- The ten primes of foursquares.cpp:67. -/
def tenPrimes : List Nat := [11, 13, 17, 19, 23, 29, 31, 37, 41, 43]

/-- `maybeSquare`, foursquares.cpp:57-72. -/
def maybeSquare (single : Nat → Bool) (n : Nat) : Bool :=
  if single n then Nat.sqrt n * Nat.sqrt n == n
  else if !inSquaresModMagic (n % magicN) then false
  else if tenPrimes.any fun p => jacobiSym n p == -1 then false
  else true

/-- The loop of `iunit_small`, foursquares.cpp:78-80: `k` iterations left, current `i`. -/
def iunitSmallLoop (p : Nat) : Nat → Nat → Nat
  | 0, _ => 0
  | k + 1, i => if (i * i) % p = p - 1 then i else iunitSmallLoop p k (i + 1)

/-- `iunit_small`, foursquares.cpp:76-83 (`i` runs from 2 to `p/2`). -/
def iunitSmall (p : Nat) : Nat :=
  if p < 281 ∧ p % 4 = 1 then iunitSmallLoop p (p / 2 - 1) 2 else 0

/-- The primes produced by `NTL::PrimeSeq` from 2 on, below 281, foursquares.cpp:102-104 (despite its comment `reset(2)` starts at 2). -/
def smallPrimes : List Nat :=
  [2, 3, 5, 7, 11, 13, 17, 19, 23, 29, 31, 37, 41, 43, 47, 53, 59, 61, 67, 71, 73, 79, 83, 89, 97,
   101, 103, 107, 109, 113, 127, 131, 137, 139, 149, 151, 157, 163, 167, 173, 179, 181, 191, 193,
   197, 199, 211, 223, 227, 229, 233, 239, 241, 251, 257, 263, 269, 271, 277]

/-- The loop of foursquares.cpp:104-109 (there is no `break`, the last hit wins). -/
def jacobiLoop (p : Nat) : List Nat → Nat → Nat
  | [], ret => ret
  | q :: qs, ret => jacobiLoop p qs (if jacobiSym q p = -1 then q ^ ((p - 1) / 4) % p else ret)

/-- `iunit`, foursquares.cpp:90-112: a root of `-1` (0 if none was found), or the square root
of `p` and `true`. -/
def iunit (single : Nat → Bool) (p : Nat) : Nat × Bool :=
  if maybeSquare single p = true ∧ Nat.sqrt p * Nat.sqrt p = p then (Nat.sqrt p, true)
  else if p % 8 = 5 then (2 ^ (p / 4) % p, false)
  else if p < 281 then (iunitSmall p, false)
  else if p % 4 = 1 then (jacobiLoop p smallPrimes 0, false)
  else (0, false)

/-- The loop of `decomposeProbablePrime`, foursquares.cpp:132-136:
`while (b*b > p) (a,b) = (b, a % b)`. -/
def cornacchia (p a b : Nat) : Nat × Nat :=
  if h : p < b * b then cornacchia p b (a % b) else (a, b)
termination_by b
decreasing_by
  apply Nat.mod_lt
  rcases Nat.eq_zero_or_pos b with rfl | h'
  · simp at h
  · exact h'

/-- `a % b` of `NTL::ZZ`; dividing by zero aborts. -/
def zmod (a b : Nat) : Res Nat := if b = 0 then .ub else .ok (a % b)

/-- `decomposeProbablePrime`, foursquares.cpp:119-138.  Arguments that are negative and 1 mod 4
are outside its contract (NTL's behaviour is not modelled): undefined. -/
def decomposeProbablePrime (single : Nat → Bool) (p : Int) : Res (Int × Int) :=
  if p % 4 ≠ 1 then .throw
  else if p < 0 then .ub
  else
    let q := p.toNat
    let (b, issqr) := iunit single q
    if issqr then .ok (0, (b : Int))
    else if b = 0 then .ok (0, 0)
    else do
      let (a, b) := cornacchia q q b
      let r ← zmod a b
      pure ((b : Int), (r : Int))

/-- `decomposeExceptions`, foursquares.cpp:143-150. -/
def exceptions : List (Int × (Int × Int × Int)) :=
  [(2, 0, 1, 1), (3, 1, 1, 1), (10, 0, 1, 3), (34, 3, 3, 4), (58, 0, 3, 7), (85, 0, 6, 7),
   (130, 0, 3, 11), (214, 3, 6, 13), (226, 8, 9, 9), (370, 8, 9, 15), (526, 6, 7, 21),
   (706, 15, 15, 16), (730, 0, 1, 27), (1414, 6, 17, 33), (1906, 13, 21, 36), (2986, 21, 32, 39),
   (9634, 56, 57, 57)]

/-- `sortScaled`, foursquares.cpp:152-156. -/
def sortScaled (l : List Int) (v : Int) : List Int :=
  (l.mergeSort (fun a b => decide (a ≤ b))).map fun x => x * v

/-- The loop that removes powers of 4, foursquares.cpp:171-175; from `(n, v)`.  The C++ loop does
not terminate for `n = 0`, which is excluded before (the model stops there). -/
def removeFours (n : Nat) (v : Nat) : Nat × Nat :=
  if h : n % 4 = 0 ∧ n ≠ 0 then removeFours (n / 4) (v * 2) else (n, v)
termination_by n
decreasing_by omega

/-- The value that signifies failure, foursquares.cpp:185. -/
def failed : List Int := [-1, -1, -1, -1]

/-- The search of case 1, foursquares.cpp:243-256: `n = sq² + 2p`. -/
def search3 (single : Nat → Bool) (probPrime : Int → Bool) (delta v : Int) (sq p : Int) :
    Res (List Int) := do
  let found ← (if probPrime p then do
      let (y, z) ← decomposeProbablePrime single p
      pure (if z ≠ 0 then some [delta, sq, y + z, |y - z|] else none)
    else pure none)
  match found with
  | some ret => pure (sortScaled ret v)
  | none =>
    if h : sq - 2 < 0 then pure failed
    else search3 single probPrime delta v (sq - 2) (p + ((sq - 2) * 2 + 2))
termination_by sq.toNat
decreasing_by omega

/-- The search of case 2, foursquares.cpp:265-277: `n = sq² + p`. -/
def search12 (single : Nat → Bool) (probPrime : Int → Bool) (delta v : Int) (sq p : Int) :
    Res (List Int) := do
  let found ← (if probPrime p then do
      let (y, z) ← decomposeProbablePrime single p
      pure (if z ≠ 0 then some [delta, sq, y, z] else none)
    else pure none)
  match found with
  | some ret => pure (sortScaled ret v)
  | none =>
    if h : sq - 2 < 0 then pure failed
    else search12 single probPrime delta v (sq - 2) (p + ((sq - 2 + 1) * 4))
termination_by sq.toNat
decreasing_by omega

/-- `NTL::SqrRoot` on a `ZZ` known not to be negative. -/
def sqrRoot (n : Int) : Int := (Nat.sqrt n.toNat : Nat)

/-- The part of `decompose4` after the prime shortcut, from foursquares.cpp:219 on:
`original n = v²(n + delta²)`, `n = sq² + p`. -/
def decompose4Search (single : Nat → Bool) (probPrime : Int → Bool) (delta v n sq p : Int) :
    Res (List Int) :=
  -- lines 225-232
  match (if n ≤ 9634 then exceptions.lookup n else none) with
  | some (x, y, z) => .ok (sortScaled [delta, x, y, z] v)
  | none =>
    if n % 4 = 3 then
      -- lines 237-242
      let (sq, p) := if sq % 2 = 0 then (sq - 1, p + ((sq - 1) * 2 + 1)) else (sq, p)
      search3 single probPrime delta v sq (p / 2)
    else
      -- lines 261-264
      let (sq, p) := if (n - sq) % 2 = 0 then (sq - 1, p + ((sq - 1) * 2 + 1)) else (sq, p)
      search12 single probPrime delta v sq p

/-- `decompose4`, foursquares.cpp:163-278. -/
def decompose4 (single : Nat → Bool) (probPrime : Int → Bool) (n : Int) : Res (List Int) :=
  if n < 0 then .throw
  else if n ≤ 1 then .ok [0, 0, 0, n]
  else do
    let (n', v') := removeFours n.toNat 1
    let n : Int := (n' : Int)
    let v : Int := (v' : Int)
    let sq := sqrRoot n
    let p := n - sq * sq
    if p = 0 then pure [p, p, p, sq * v]
    else do
      let early ← (if n % 4 = 1 ∧ probPrime n = true then do
          let (s, r) ← decomposeProbablePrime single n
          pure (if r ≠ 0 then some [0, 0, s, r] else none)
        else pure none)
      match early with
      | some ret => pure (sortScaled ret v)
      | none =>
        if n % 8 = 7 then
          -- lines 199-217
          let (delta, n) := if sq % 4 = 0 then (sq - 1, p + ((sq - 1) * 2 + 1)) else (sq, p)
          let sq := sqrRoot p
          let p := n - sq * sq
          decompose4Search single probPrime delta v n sq p
        else decompose4Search single probPrime 0 v n sq p

end Verif.FourSq
