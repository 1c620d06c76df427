/-
Specification vocabulary for the driver program: when the random choices before the proofs succeed.
-/
import Verif.Model.Main

namespace Verif.Spec
open Regev

variable {q : ℕ} [Fact q.Prime]

/-- One of the first `tries` vectors of `len` elements of `bits` bits has squared norm at most `bound`. -/
def Drawn (q len bits : ℕ) (bound : ℤ) (rnd : Rnd) (tries : ℕ) : Prop :=
  ∃ t < tries, normSquaredE ((List.range len).map fun i => boundedElement bits (rnd t i) : EVec q 2) ≤ bound

/-- The coins of a key pair: key and noise. -/
def KeyCoins (gk : GlobalKey q 2) (c : Rnd × Rnd) : Prop :=
  Drawn q gk.kay 2 (8 * gk.kay) c.1 51 ∧ Drawn q gk.kay gk.sigmaEnc1 (4 ^ gk.sigmaEnc1 * gk.kay) c.2 51

/-- The coins of an encryption: randomness and the two noises. -/
def EncCoins (gk : GlobalKey q 2) (c : Rnd × Rnd × Rnd) : Prop :=
  Drawn q gk.kay 2 (8 * gk.kay) c.1 51 ∧ Drawn q gk.kay gk.sigmaEnc1 (4 ^ gk.sigmaEnc1 * gk.kay) c.2.1 25 ∧
    Drawn q gk.enn gk.sigmaEnc2 (4 ^ gk.sigmaEnc2 * gk.enn) c.2.2 25

/-- All the coins of the program before the proofs. -/
def CoinsOk (gk : GlobalKey q 2) (C : MainCoins q) : Prop :=
  (∀ i < gk.enn, KeyCoins gk (C.keys i)) ∧ (∀ i < gk.enn, EncCoins gk (C.enc i)) ∧ EncCoins gk C.reEnc

end Verif.Spec
