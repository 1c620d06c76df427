/-
What an adversary sees of the life of a shared secret when in each committee it corrupts some members.
-/
import Verif.Spec.Handover

namespace Verif.Spec
open Verif

section
variable {F : Type} [Field F] [DecidableEq F]

/-- A handover without its random choices: who deals, the new committee and its threshold, and which members of
the new committee are corrupted. -/
structure Epoch where
  dealers : List ℤ
  pts : List ℤ
  thr : ℕ
  bad : List ℤ

/-- The handover with the given random choices. -/
def Epoch.with (e : Epoch) (coins : ℤ → List F) : Handover F := ⟨e.dealers, e.pts, e.thr, coins⟩

/-- Everything that the corrupted members see: in each committee their shares; when they deal, the random
coefficients that they draw; when they receive, their entry of every dealing. -/
def view : List ℤ → List ℤ → List F → List Epoch → (ℕ → ℤ → List F) → Res (List (List F))
  | pts, bad, shares, [], _ => .ok [sharesFor pts shares bad]
  | pts, bad, shares, e :: es, coins => do
    let shares' ← handover pts shares (e.with (coins 0))
    let rest ← view e.pts e.bad shares' es fun k => coins (k + 1)
    .ok ((sharesFor pts shares bad :: (e.dealers.filter fun x => x ∈ bad).map (coins 0)) ++
      ((dealings pts shares (e.with (coins 0))).map fun d => sharesAt e.pts d e.bad) ++ rest)

/-- The handovers of a history with given random choices. -/
def history : List Epoch → (ℕ → ℤ → List F) → List (Handover F)
  | [], _ => []
  | e :: es, coins => e.with (coins 0) :: history es fun k => coins (k + 1)

/-- The corrupted members of the last committee. -/
def lastBad : List ℤ → List Epoch → List ℤ
  | bad, [] => bad
  | _, e :: es => lastBad e.bad es

/-- The random choices have the right sizes: `t-1` coefficients for the first sharing, and for each dealing one
less than the threshold of the committee that receives it. -/
def SizedCoins (t : ℕ) (es : List Epoch) (c : List F × (ℕ → ℤ → List F)) : Prop :=
  c.1.length + 1 = t ∧ ∀ k e, es[k]? = some e → ∀ x ∈ e.dealers, (c.2 k x).length + 1 = e.thr

end
end Verif.Spec
