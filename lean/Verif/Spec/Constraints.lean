/-
Specification vocabulary for the constraint code: what a `std::map`/`std::set` is, the
coefficient of a variable, and what it means for an assignment to satisfy a constraint.
Independent of the model of the code.
-/
import Verif.Model.ConstraintTypes
import Mathlib.Algebra.Field.Defs
import Mathlib.Algebra.BigOperators.Group.List.Basic

namespace Verif.Spec
variable {F : Type} [Field F]

/-- What every `std::map<size_t,Scalar>` satisfies: its entries have strictly increasing
keys. -/
def Sorted {T : Type} (m : List (Nat × T)) : Prop := m.Pairwise fun p q => p.1 < q.1

/-- What every `std::set<size_t>` satisfies: strictly increasing elements. -/
def SortedSet (l : List Nat) : Prop := l.Pairwise (· < ·)

/-- The keys of a map. -/
def keys {T : Type} (m : List (Nat × T)) : List Nat := m.map Prod.fst

/-- The coefficient at index `i`: what the map stores there, zero if nothing (the sum has
at most one term as keys are distinct). -/
def coef (m : PtxtVec F) (i : Nat) : F :=
  (m.map fun p => if p.1 = i then p.2 else 0).sum

/-- `x` satisfies the linear constraint `Σ a_i·x_i = b`. -/
def LinSat (c : LinConstraint F) (x : Nat → F) : Prop :=
  (c.terms.map fun p => p.2 * x p.1).sum = c.equalsTo

/-- `x, y` satisfy the quadratic constraint `Σ_{i ∈ I} x_i·y_i = b`. -/
def QuadSat (c : QuadConstraint F) (x y : Nat → F) : Prop :=
  (c.indexes.map fun i => x i * y i).sum = c.equalsTo

/-- By how much an assignment misses a linear constraint. -/
def linDefect (c : LinConstraint F) (x : Nat → F) : F :=
  (c.terms.map fun p => p.2 * x p.1).sum - c.equalsTo

/-- By how much an assignment misses a quadratic constraint. -/
def quadDefect (c : QuadConstraint F) (x y : Nat → F) : F :=
  (c.indexes.map fun i => x i * y i).sum - c.equalsTo

end Verif.Spec
