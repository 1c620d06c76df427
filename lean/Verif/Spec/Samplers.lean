/-
The distributions that the samplers promise, as numbers of choices of the random bits for each value.
-/
import Mathlib.Data.ZMod.ValMinAbs

namespace Verif.Spec
variable {q : ℕ}

/-- Of four choices: two for zero, one each for 1 and -1. -/
def zeroOneWeight (v : ZMod q) : ℕ := if v = 0 then 2 else if v = 1 ∨ v = -1 then 1 else 0

/-- Of `2^(n+1)` choices: two for zero, one for every other integer of absolute value less than `2^n`. -/
def boundedWeight (n : ℕ) (v : ZMod q) : ℕ := if v = 0 then 2 else if |v.valMinAbs| < 2 ^ n then 1 else 0

end Verif.Spec
