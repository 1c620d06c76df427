/-
A small concrete environment used only to show that the hypotheses of the theorems can be met:
scalars and points are rational numbers, a transcript is the list of everything absorbed, and
the hash functions are simple arithmetic.
-/
import Mathlib.Algebra.Module.Rat
import Mathlib.Algebra.Order.Field.Rat
import Mathlib.Tactic.NormNum
import Verif.Model.Transcript

namespace Verif

/-- A toy environment over the rationals.  Every challenge is `k` (non-zero for `k ≠ 0`). -/
def toyEnv (k : ℚ) : Env ℚ ℚ where
  St := List Bytes
  init l := [l]
  commit st l m := st ++ [l, m]
  challenge st l n := (List.replicate n (UInt8.ofNat st.length), st ++ [l])
  scalarBytes x := decBytes x.num.natAbs
  pointBytes x := decBytes x.num.natAbs
  scalarReduce _ := k
  fromUniform b := b.length
  hashToCurve b := b.length
  base := 1

end Verif
