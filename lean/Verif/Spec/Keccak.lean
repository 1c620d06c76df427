/-
Keccak-f[1600] as in FIPS 202: the state is an array of bits `A[x,y,z]`, and the permutation is 24
rounds of five step mappings.  Coordinates are taken modulo 5 and 64, as in the standard.
-/
import Verif.Model.Basic
import Mathlib.Logic.Function.Iterate

namespace Verif.Spec.Keccak

/-- `A[x,y,z]`, FIPS 202, 3.1. -/
abbrev State := Fin 5 → Fin 5 → Fin 64 → Bool

/-- `C[x,z]`, the parity of a column, FIPS 202, algorithm 1. -/
def parity (A : State) (x : Fin 5) (z : Fin 64) : Bool :=
  A x 0 z ^^ A x 1 z ^^ A x 2 z ^^ A x 3 z ^^ A x 4 z

/-- FIPS 202, algorithm 1. -/
def theta (A : State) : State := fun x y z => A x y z ^^ (parity A (x - 1) z ^^ parity A (x + 1) (z - 1))

/-- The lane reached after `t` steps of the walk in FIPS 202, algorithm 2. -/
def walk : Nat → Fin 5 × Fin 5
  | 0 => (1, 0)
  | t + 1 => let p := walk t; (p.2, 2 * p.1 + 3 * p.2)

/-- The offset of a lane: `(t+1)(t+2)/2` if it is lane number `t` of the walk, zero for lane `(0,0)`. -/
def offset (x y : Fin 5) : Nat :=
  match (List.range 24).find? (fun t => walk t == (x, y)) with
  | some t => (t + 1) * (t + 2) / 2
  | none => 0

/-- FIPS 202, algorithm 2. -/
def rho (A : State) : State := fun x y z => A x y (z - Fin.ofNat 64 (offset x y))

/-- FIPS 202, algorithm 3. -/
def pi (A : State) : State := fun x y z => A (x + 3 * y) x z

/-- FIPS 202, algorithm 4. -/
def chi (A : State) : State := fun x y z => A x y z ^^ (!(A (x + 1) y z) && A (x + 2) y z)

/-- One step of the shift register in FIPS 202, algorithm 5: `R = 0 || R`, bit 8 is added to bits 0, 4, 5
and 6, and `R` is cut to 8 bits. -/
def lfsr : Bool × Bool × Bool × Bool × Bool × Bool × Bool × Bool → Bool × Bool × Bool × Bool × Bool × Bool × Bool × Bool
  | (r0, r1, r2, r3, r4, r5, r6, r7) => (r7, r0, r1, r2, r3 ^^ r7, r4 ^^ r7, r5 ^^ r7, r6)

/-- `rc(t)`, FIPS 202, algorithm 5. -/
def rc (t : Nat) : Bool :=
  ((lfsr^[t % 255]) (true, false, false, false, false, false, false, false)).1

/-- Bit `z` of the round constant, FIPS 202, algorithm 6: `RC[2^j - 1] = rc(j + 7 i)`. -/
def roundConstant (i : Nat) (z : Fin 64) : Bool :=
  (List.range 7).any fun j => z.val + 1 == 2 ^ j && rc (j + 7 * i)

/-- FIPS 202, algorithm 6. -/
def iota (i : Nat) (A : State) : State := fun x y z =>
  if x = 0 ∧ y = 0 then A x y z ^^ roundConstant i z else A x y z

/-- `Rnd(A, i)`, FIPS 202, 3.3. -/
def round (A : State) (i : Nat) : State := iota i (chi (pi (rho (theta A))))

/-- Keccak-f[1600], FIPS 202, 3.3 and 3.4: rounds 0 to 23. -/
def keccakF (A : State) : State := (List.range 24).foldl round A

/-- Bit `i` of a byte string; the first bit of a byte is the least significant one (FIPS 202, B.1). -/
def bit (b : Bytes) (i : Nat) : Bool := (b.getD (i / 8) 0).toNat.testBit (i % 8)

/-- The state array of a string of 1600 bits: `A[x,y,z] = S[64(5y+x)+z]`, FIPS 202, 3.1.2. -/
def stateOf (b : Bytes) : State := fun x y z => bit b (64 * (5 * y.val + x.val) + z.val)

end Verif.Spec.Keccak
