/-
What it means that a computation takes a number of exponentiations.
-/
import Verif.Model.Count

namespace Verif.Spec

/-- The counted computation `p` has the outcome of `q`, and if it returns, the counter has
advanced by `d` where `d` plus the number `t` of trivial products (the point is the identity or
the scalar is zero) is exactly `N`.  In particular the counter advances by at most `N`, and by
`N` if no product is trivial. -/
def Counts {α : Type} (p : Cnt α) (q : Res α) (N : Nat) : Prop :=
  ∀ c : Counter, match q with
    | .ok v => ∃ d t, d + t = N ∧ p c = .ok (v, ⟨c.counter + d, c.trivial + t⟩)
    | .throw => p c = .throw
    | .ub => p c = .ub

end Verif.Spec
