/-
Specification of sums of squares.
-/
import Mathlib.Data.Nat.Prime.Basic
import Mathlib.Algebra.BigOperators.Group.List.Basic

namespace Verif.Spec

/-- Four non-negative integers whose squares add up to `n`. -/
def FourSquaresOf (l : List Int) (n : Int) : Prop :=
  ∃ a b c d : Int, l = [a, b, c, d] ∧ 0 ≤ a ∧ 0 ≤ b ∧ 0 ≤ c ∧ 0 ≤ d ∧
    a ^ 2 + b ^ 2 + c ^ 2 + d ^ 2 = n

/-- The primality test accepts only primes (it may reject anything). -/
def NoFalsePrimes (probPrime : Int → Bool) : Prop :=
  ∀ p, probPrime p = true → ∃ q : Nat, q.Prime ∧ p = q

end Verif.Spec
