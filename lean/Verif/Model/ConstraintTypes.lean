/-
Data types of /repo/include/constraints.hpp.
-/
import Verif.Model.Basic

namespace Verif

/-- `PtxtVec = std::map<size_t,Scalar>`, constraints.hpp:103.  A map is the list of its
entries in iteration order, i.e. with strictly increasing keys (see `Spec.SortedMap`). -/
abbrev PtxtVec (F : Type) := List (Nat × F)

/-- `LinConstraint`, constraints.hpp:105-133: `Σ_j terms[j]·x_j = equalsTo`. -/
structure LinConstraint (F : Type) where
  terms : PtxtVec F
  equalsTo : F
  deriving DecidableEq, Repr

/-- `QuadConstraint`, constraints.hpp:135-163: `Σ_{j ∈ indexes} x_j·y_j = equalsTo`.
`std::set<size_t>` is the list of its elements in iteration order (strictly increasing). -/
structure QuadConstraint (F : Type) where
  indexes : List Nat
  equalsTo : F
  deriving DecidableEq, Repr

end Verif
