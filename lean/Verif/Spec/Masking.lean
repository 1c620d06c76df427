/-
What an observer of the smallness proof sees, and how often.
-/
import Verif.Spec.RegevSetup
import Mathlib.Data.ZMod.ValMinAbs
import Mathlib.Data.Fintype.BigOperators

namespace Verif.Spec
open Regev

/-- The randomness of one trial of the smallness proof: for each of the 64·2 coefficients of the mask
`n` bits of magnitude and a sign, and the randomness of the commitment. -/
abbrev TrialCoins (n q : ℕ) : Type := (Fin 64 → Fin 2 → Fin (2 ^ n) × Bool) × ZMod q

/-- The same as a stream of samples (only the entries below 64 and 2 are ever read). -/
def TrialCoins.stream {n q : ℕ} (ρ : TrialCoins n q) : SmallRnd q where
  y i j := if h : i < 64 ∧ j < 2 then ((ρ.1 ⟨i, h.1⟩ ⟨j, h.2⟩).1.val, (ρ.1 ⟨i, h.1⟩ ⟨j, h.2⟩).2) else (0, false)
  r := ρ.2

section
variable {q : ℕ} [Fact q.Prime] {G : Type} [AddCommGroup G] [Module (ZMod q) G] [DecidableEq G]

/-- The 128 coefficients of the product of the vector `w` with the challenge matrix that follows
when `C` is the commitment to the mask. -/
noncomputable def product (E : Env (ZMod q) G) (st : E.St) (w : EVec q 2) (C : G) (i : Fin 64) (j : Fin 2) : ZMod q :=
  ((compressLeft 1300 64 w (matrixFrom E (absorb E st [("smallnessPf", C)]) "Smallness" 1300 64).1).getD i 0).c j

/-- A vector of 64 elements with the given coefficients. -/
def ofCoeffs (z : Fin 64 → Fin 2 → ZMod q) : EVec q 2 := List.ofFn fun i => ⟨z i⟩

/-- All 128 coefficients are at most `B` in absolute value. -/
def CoeffsWithin (B : ℤ) (z : Fin 64 → Fin 2 → ZMod q) : Prop := ∀ i j, |(z i j).valMinAbs| ≤ B

open Classical in
/-- The number of choices of the randomness of one trial for which the trial is accepted and publishes
the commitment `C` and the reply `z`. -/
noncomputable def replyCount (E : Env (ZMod q) G) (P : Params q) (ix : Indexes) (Gs : List G) (st : E.St)
    (w : EVec q 2) (C : G) (z : Fin 64 → Fin 2 → ZMod q) : ℕ :=
  (Finset.univ.filter fun ρ : TrialCoins P.smlnsBits q =>
    ∃ t, smallLoop E P ix Gs st w (fun _ => ρ.stream) 0 1 = .ok t ∧ t.yCom = C ∧ t.z = ofCoeffs z).card

open Classical in
/-- The number of choices of the randomness of one trial for which the trial is accepted and publishes
the commitment `C`. -/
noncomputable def acceptCount (E : Env (ZMod q) G) (P : Params q) (ix : Indexes) (Gs : List G) (st : E.St)
    (w : EVec q 2) (C : G) : ℕ :=
  (Finset.univ.filter fun ρ : TrialCoins P.smlnsBits q =>
    ∃ t, smallLoop E P ix Gs st w (fun _ => ρ.stream) 0 1 = .ok t ∧ t.yCom = C).card

end
end Verif.Spec
