/-
What is known about the arithmetic of doubles (IEEE 754, round to nearest, with any rule for ties), the logarithms of
the C library, and NTL's `RR` with its default precision of 150 bits.
-/
import Verif.Model.Doubles

namespace Verif.Spec

/-- The finite doubles: `m·2^e` with a mantissa of 53 bits and an exponent from -1074 to 971. -/
def IsDouble (x : ℝ) : Prop := ∃ m e : ℤ, |m| < 2 ^ 53 ∧ -1074 ≤ e ∧ e ≤ 971 ∧ x = m * (2 : ℝ) ^ e

/-- `r` is a double nearest to `x`. -/
def Rounded (x r : ℝ) : Prop := IsDouble r ∧ ∀ d, IsDouble d → |r - x| ≤ |d - x|

/-- Conversion, addition, subtraction, multiplication, division and square roots are rounded to a nearest double, as
long as they are far from overflow; logarithms (of numbers from 2 to `2^200`) have a relative error of at most `2^-40`
(libm's is about `2^-52`), and the operations of `RR` one of at most `2^-100`. -/
structure Ieee (M : Machine) : Prop where
  dbl : ∀ x, |x| ≤ 2 ^ 1000 → Rounded x (M.dbl x)
  add : ∀ x y, IsDouble x → IsDouble y → |x + y| ≤ 2 ^ 1000 → Rounded (x + y) (M.add x y)
  sub : ∀ x y, IsDouble x → IsDouble y → |x - y| ≤ 2 ^ 1000 → Rounded (x - y) (M.sub x y)
  mul : ∀ x y, IsDouble x → IsDouble y → |x * y| ≤ 2 ^ 1000 → Rounded (x * y) (M.mul x y)
  div : ∀ x y, IsDouble x → IsDouble y → y ≠ 0 → |x / y| ≤ 2 ^ 1000 → Rounded (x / y) (M.div x y)
  sqrt : ∀ x, IsDouble x → 0 ≤ x → Rounded √x (M.sqrt x)
  log : ∀ x, IsDouble x → 2 ≤ x → x ≤ 2 ^ 200 → IsDouble (M.log x) ∧ |M.log x - Real.log x| ≤ Real.log x / 2 ^ 40
  log2 : ∀ x, IsDouble x → 2 ≤ x → x ≤ 2 ^ 200 → IsDouble (M.log2 x) ∧
    |M.log2 x - Real.logb 2 x| ≤ Real.logb 2 x / 2 ^ 40
  rr : ∀ y : ℤ, |M.rr y - y| ≤ |(y : ℝ)| / 2 ^ 100
  rrMul : ∀ x y, |M.rrMul x y - x * y| ≤ |x * y| / 2 ^ 100
  rrDiv : ∀ x y, y ≠ 0 → |M.rrDiv x y - x / y| ≤ |x / y| / 2 ^ 100
  rrLog : ∀ x, 2 ≤ x → x ≤ 2 ^ 200 → |M.rrLog x - Real.log x| ≤ Real.log x / 2 ^ 100

/-- A real number that is not within `2^-20` of an integer. -/
def Clear (x : ℝ) : Prop := ∀ z : ℤ, 1 / 2 ^ 20 < |x - z|

end Verif.Spec
