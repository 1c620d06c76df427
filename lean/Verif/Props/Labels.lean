/-
C52: exactly what is absorbed for a constraint.
-/
import Verif.Props.Merlin
import Verif.Lemmas.Scalar
import Verif.Model.Aggregate

namespace Verif.Props
open Spec Merlin

variable {F : Type} [Field F] {G : Type} [AddCommGroup G] [Module F G]

/-- **C52, what is absorbed for a linear constraint.** The label of the constraint with an empty message; for each term in
turn its coefficient, with a label of eight bytes that are, in little endian, the index converted to a 32-bit
signed number and back to 64 bits; at last the right-hand side with the label `b`. -/
theorem C52_linear_bytes (E : Env F G) (st : List TOp) (label : Bytes) (c : LinConstraint F) :
    ∃ lab : ℕ → Bytes, (∀ n, (lab n).length = 8 ∧ (Sc.leVal (lab n) : ℤ) = ((n : ℤ).bmod (2 ^ 32)) % 2 ^ 64) ∧
      (recEnv E).processLin st label c = (st ++ TOp.commit label [] ::
        (c.terms.map (fun t => TOp.commit (lab t.1) (E.scalarBytes t.2)) ++
          [TOp.commit (str "b") (E.scalarBytes c.equalsTo)]) : List TOp) := by
  refine ⟨fun n => bytesFromInt (throughInt n), fun n => ⟨bytesFromInt_length _, ?_⟩, ?_⟩
  · unfold bytesFromInt
    rw [Sc.bytesLoop_val, Nat.mod_eq_of_lt (throughInt_lt n)]
    unfold throughInt Int.bmod
    dsimp only
    split <;> split <;> omega
  · rw [recEnv_lin]
    have h98 : str "b" = [98] := by decide
    rw [h98]
    simp only [linOps, List.append_assoc, List.cons_append, List.nil_append]
    rfl

/-- **C52, what is absorbed for a quadratic constraint.** The label with an empty message, all the indexes as 64-bit
little-endian numbers with the label `indexes`, the right-hand side with the label `b`. -/
theorem C52_quadratic_bytes (E : Env F G) (st : List TOp) (label : Bytes) (c : QuadConstraint F) :
    ∃ enc : ℕ → Bytes, (∀ n, (enc n).length = 8 ∧ Sc.leVal (enc n) = n % 2 ^ 64) ∧
      (recEnv E).processQuad st label c = (st ++ [TOp.commit label [],
        TOp.commit (str "indexes") (c.indexes.map enc).flatten,
        TOp.commit (str "b") (E.scalarBytes c.equalsTo)] : List TOp) := by
  refine ⟨bytesFromInt, fun n => ⟨bytesFromInt_length _, ?_⟩, ?_⟩
  · unfold bytesFromInt
    rw [Sc.bytesLoop_val]
    norm_num
  · rw [recEnv_quad]
    have h98 : str "b" = [98] := by decide
    have hix : str "indexes" = [105, 110, 100, 101, 120, 101, 115] := by decide
    rw [h98, hix]
    rfl

/-- An index of `2^31` is absorbed as `2^64 - 2^31`. -/
example : ((2 ^ 31 : ℤ).bmod (2 ^ 32)) % 2 ^ 64 = 2 ^ 64 - 2 ^ 31 := by decide

end Verif.Props
