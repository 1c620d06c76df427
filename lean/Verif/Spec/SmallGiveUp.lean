/-
The randomness of all trials of the smallness proof (used by C91).
-/
import Verif.Spec.Masking

namespace Verif.Spec
open Regev

/-- The randomness of the 100 trials of the smallness proof. -/
abbrev SmallCoins (n q : ℕ) : Type := Fin 100 → TrialCoins n q

/-- The same as a sequence of streams (only the first 100 are ever read). -/
def SmallCoins.streams {n q : ℕ} (x : SmallCoins n q) (t : ℕ) : SmallRnd q :=
  if h : t < 100 then (x ⟨t, h⟩).stream else ⟨fun _ _ => (0, false), 0⟩

end Verif.Spec
