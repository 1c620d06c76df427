/-
What it means for the commitments of a proof to open to an assignment of the variables.
-/
import Verif.Spec.Aggregate
import Verif.Model.Aggregate

namespace Verif.Spec
variable {F G : Type} [Field F] [AddCommGroup G] [Module F G]

/-- The index layout, up to the exchange of the two secret keys. -/
def IsLayout (ix : Indexes) (kay ell enn tee : ℕ) : Prop :=
  ix = setIndexesNat kay ell enn tee ∨ ix = (setIndexesNat kay ell enn tee).swapSk

/-- All block commitments `com` open, with randomness `rnd`, to the assignment with G-values `x` and
H-values `y` of the variables.  Blocks of compressed noise have `2·128 = 256` variables, padding
blocks four, keys and encryption randomness `kay·ell`, plaintexts `tee` and `enn`, the mask
`2·64 = 128`. -/
structure BlocksOpen (base : G) (Gs Hs : List G) (x y : ℕ → F) (ix : Indexes) (kay ell enn tee : ℕ)
    (com : Blocks G) (rnd : Blocks F) : Prop where
  dCompHi : com.dCompHi = comGH base Gs Hs x y ix.dCompHi 256 rnd.dCompHi
  dPadHi : com.dPadHi = comGH base Gs Hs x y ix.dPadHi 4 rnd.dPadHi
  dCompLo : com.dCompLo = comGH base Gs Hs x y ix.dCompLo 256 rnd.dCompLo
  dPadLo : com.dPadLo = comGH base Gs Hs x y ix.dPadLo 4 rnd.dPadLo
  rComp : com.rComp = comGH base Gs Hs x y ix.rComp 256 rnd.rComp
  rPad : com.rPad = comGH base Gs Hs x y ix.rPad 4 rnd.rPad
  eComp1Hi : com.eComp1Hi = comGH base Gs Hs x y ix.eComp1Hi 256 rnd.eComp1Hi
  ePad1Hi : com.ePad1Hi = comGH base Gs Hs x y ix.ePad1Hi 4 rnd.ePad1Hi
  eComp1Lo : com.eComp1Lo = comGH base Gs Hs x y ix.eComp1Lo 256 rnd.eComp1Lo
  ePad1Lo : com.ePad1Lo = comGH base Gs Hs x y ix.ePad1Lo 4 rnd.ePad1Lo
  eComp2Hi : com.eComp2Hi = comGH base Gs Hs x y ix.eComp2Hi 256 rnd.eComp2Hi
  ePad2Hi : com.ePad2Hi = comGH base Gs Hs x y ix.ePad2Hi 4 rnd.ePad2Hi
  eComp2Lo : com.eComp2Lo = comGH base Gs Hs x y ix.eComp2Lo 256 rnd.eComp2Lo
  ePad2Lo : com.ePad2Lo = comGH base Gs Hs x y ix.ePad2Lo 4 rnd.ePad2Lo
  sk2Comp : com.sk2Comp = comGH base Gs Hs x y ix.sk2Comp 256 rnd.sk2Comp
  sk2Pad : com.sk2Pad = comGH base Gs Hs x y ix.sk2Pad 4 rnd.sk2Pad
  kCompHi : com.kCompHi = comGH base Gs Hs x y ix.kCompHi 256 rnd.kCompHi
  kPadHi : com.kPadHi = comGH base Gs Hs x y ix.kPadHi 4 rnd.kPadHi
  kCompLo : com.kCompLo = comGH base Gs Hs x y ix.kCompLo 256 rnd.kCompLo
  kPadLo : com.kPadLo = comGH base Gs Hs x y ix.kPadLo 4 rnd.kPadLo
  sk1 : com.sk1 = comG base Gs x ix.sk1 (kay * ell) rnd.sk1
  sk2 : com.sk2 = comG base Gs x ix.sk2 (kay * ell) rnd.sk2
  r : com.r = comG base Gs x ix.r (kay * ell) rnd.r
  pt1 : com.pt1 = comG base Gs x ix.pt1 tee rnd.pt1
  pt2 : com.pt2 = comG base Gs x ix.pt2 enn rnd.pt2
  y : com.y = comG base Gs x ix.y 128 rnd.y

/-- What the functions `proveDecryption`, ..., `proveSmallness` leave behind for the aggregation when
the assignment is `x`: the layout of the variables and the generators; linear constraints that `x`
satisfies; ten norm constraints, on consecutive blocks of 260 variables, that `x` satisfies; the two
witnesses; commitments that open to `x`. -/
structure Prepared {St : Type} (base : G) (kay enn tee : ℕ) (vd : VerifierData F G St)
    (pd : ProverData F) (x : ℕ → F) : Prop where
  layout : IsLayout vd.ix kay 2 enn tee
  small : vd.ix.w < 2 ^ 31
  gs : vd.Gs.length = vd.ix.w + 1
  hs : 260 * 10 ≤ vd.Hs.length
  linNonempty : vd.linConstr ≠ []
  linSorted : ∀ c ∈ vd.linConstr, Sorted c.terms
  linKeys : ∀ c ∈ vd.linConstr, ∀ k ∈ keys c.terms, k < vd.ix.w
  linSat : ∀ c ∈ vd.linConstr, LinSat c x
  normLength : vd.normConstr.length = 10
  normBlocks : NormBlocks vd.normConstr 260
  normSat : ∀ c ∈ vd.normConstr, QuadSat c x x
  linWitness : pd.linWitness = tab (List.range vd.ix.w) x
  quadWitness : pd.quadWitnessG = tab (List.range (260 * 10)) x
  opens : BlocksOpen base vd.Gs vd.Hs x x vd.ix kay 2 enn tee vd.com pd.rnd

/-- The challenges for which the aggregation works: `r2 ≠ 0` (the code divides by its powers), no
aggregated coefficient of a nonzero linear-only variable vanishes (such a variable would disappear
from the aggregated constraint but not from the commitment), and neither does the one of the last
variable (the code asserts it). -/
structure GoodChallenges {St : Type} (vd : VerifierData F G St) (x : ℕ → F) (r1 r2 : F) : Prop where
  r2 : r2 ≠ 0
  last : aggCoef vd.linConstr r1 (vd.ix.w - 1) ≠ 0
  visible : ∀ i, 260 * 10 ≤ i → i < vd.ix.w → x i = 0 ∨ aggCoef vd.linConstr r1 i ≠ 0

/-- By how much committed values miss the final quadratic statement.  `x` are the values committed
with respect to the G generators, `y` those with respect to the H generators, `t` is the value of the
extra variable `w`; `r1, r2, u, rho` are the four challenges.  There are three parts: the norm constraints
(batched with even powers of `r2`), the equality of `x` and `y` (batched with powers of `u`), and
the linear constraints (batched with powers of `r1`), multiplied by `rho`. -/
def finalDefect (lin : List (LinConstraint F)) (norm : List (QuadConstraint F)) (x y : ℕ → F) (t : F)
    (r1 r2 u rho : F) : F :=
  ((norm.zip (pows r2 10)).map fun p => p.2 ^ 2 * quadDefect p.1 x y).sum
    + ((List.range (260 * 10)).map fun i => u ^ i * (r2 ^ (i / 260) * (y i - x i))).sum
    + rho * (((List.range (260 * 10)).map fun i => aggCoef lin r1 i * y i).sum + t - aggRhs lin r1)

end Verif.Spec
