/-
Specification vocabulary for C95.
-/
import Verif.Model.TernaryAlias

namespace Verif.Spec

/-- An NTL matrix with rows that are allocated and not in use: all rows have the stored number
of columns. -/
def Rect {R : Type} (spare : List (List R)) (A : NMat R) : Prop :=
  ∀ r ∈ A.rows ++ spare, r.length = A.ncols

end Verif.Spec
