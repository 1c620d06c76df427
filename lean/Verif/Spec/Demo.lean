/-
Example data for the aggregation theorems: constraints, commitments and witnesses made from an
arbitrary assignment.  Only used to show that hypotheses can be met.
-/
import Verif.Spec.Opened

namespace Verif.Spec
variable {F G : Type} [Field F] [AddCommGroup G] [Module F G]

/-- Commitments that open to `x`, `y` with randomness 1, 2, … -/
def demoCom (base : G) (Gs Hs : List G) (x y : ℕ → F) (ix : Indexes) (kay ell enn tee : ℕ)
    (rnd : Blocks F) : Blocks G where
  dCompHi := comGH base Gs Hs x y ix.dCompHi 256 rnd.dCompHi
  dPadHi := comGH base Gs Hs x y ix.dPadHi 4 rnd.dPadHi
  dCompLo := comGH base Gs Hs x y ix.dCompLo 256 rnd.dCompLo
  dPadLo := comGH base Gs Hs x y ix.dPadLo 4 rnd.dPadLo
  rComp := comGH base Gs Hs x y ix.rComp 256 rnd.rComp
  rPad := comGH base Gs Hs x y ix.rPad 4 rnd.rPad
  eComp1Hi := comGH base Gs Hs x y ix.eComp1Hi 256 rnd.eComp1Hi
  ePad1Hi := comGH base Gs Hs x y ix.ePad1Hi 4 rnd.ePad1Hi
  eComp1Lo := comGH base Gs Hs x y ix.eComp1Lo 256 rnd.eComp1Lo
  ePad1Lo := comGH base Gs Hs x y ix.ePad1Lo 4 rnd.ePad1Lo
  eComp2Hi := comGH base Gs Hs x y ix.eComp2Hi 256 rnd.eComp2Hi
  ePad2Hi := comGH base Gs Hs x y ix.ePad2Hi 4 rnd.ePad2Hi
  eComp2Lo := comGH base Gs Hs x y ix.eComp2Lo 256 rnd.eComp2Lo
  ePad2Lo := comGH base Gs Hs x y ix.ePad2Lo 4 rnd.ePad2Lo
  sk2Comp := comGH base Gs Hs x y ix.sk2Comp 256 rnd.sk2Comp
  sk2Pad := comGH base Gs Hs x y ix.sk2Pad 4 rnd.sk2Pad
  kCompHi := comGH base Gs Hs x y ix.kCompHi 256 rnd.kCompHi
  kPadHi := comGH base Gs Hs x y ix.kPadHi 4 rnd.kPadHi
  kCompLo := comGH base Gs Hs x y ix.kCompLo 256 rnd.kCompLo
  kPadLo := comGH base Gs Hs x y ix.kPadLo 4 rnd.kPadLo
  sk1 := comG base Gs x ix.sk1 (kay * ell) rnd.sk1
  sk2 := comG base Gs x ix.sk2 (kay * ell) rnd.sk2
  r := comG base Gs x ix.r (kay * ell) rnd.r
  pt1 := comG base Gs x ix.pt1 tee rnd.pt1
  pt2 := comG base Gs x ix.pt2 enn rnd.pt2
  y := comG base Gs x ix.y 128 rnd.y
  w := 0

theorem demoCom_open (base : G) (Gs Hs : List G) (x y : ℕ → F) (ix : Indexes) (kay ell enn tee : ℕ)
    (rnd : Blocks F) :
    BlocksOpen base Gs Hs x y ix kay ell enn tee (demoCom base Gs Hs x y ix kay ell enn tee rnd) rnd := by
  constructor <;> rfl

/-- Verifier data: one linear constraint, `x_{w-1} + 2·x_7 = …`, and ten norm constraints whose
right-hand sides are given. -/
def demoVd {St : Type} (mer : St) (Gs Hs : List G) (ix : Indexes) (com : Blocks G) (x : ℕ → F)
    (bound : ℕ → F) : VerifierData F G St where
  Gs := Gs
  Hs := Hs
  ix := ix
  com := com
  linConstr := [⟨[(7, 2), (ix.w - 1, 1)], 2 * x 7 + x (ix.w - 1)⟩]
  normConstr := (List.range 10).map fun k => ⟨List.range' (260 * k) 260, bound k⟩
  z := []
  mer := mer

/-- Prover data with the witnesses given by `x`. -/
def demoPd (rnd : Blocks F) (x : ℕ → F) (w N : ℕ) : ProverData F where
  rnd := rnd
  compressed := []
  linWitness := tab (List.range w) x
  quadWitnessG := tab (List.range N) x
  quadWitnessH := []

/-- The data are `Prepared` when the right-hand sides of the norm constraints are the norms. -/
theorem demo_prepared {St : Type} (mer : St) (base : G) (Gs Hs : List G) (kay enn tee : ℕ)
    (x : ℕ → F) (rnd : Blocks F) (ix : Indexes) (hix : IsLayout ix kay 2 enn tee)
    (hw : 260 * 10 + 128 ≤ ix.w) (hw2 : ix.w < 2 ^ 31)
    (hG : Gs.length = ix.w + 1) (hH : 260 * 10 ≤ Hs.length) :
    Prepared base kay enn tee (demoVd mer Gs Hs ix (demoCom base Gs Hs x x ix kay 2 enn tee rnd) x
        fun k => ((List.range' (260 * k) 260).map fun i => x i * x i).sum)
      (demoPd rnd x ix.w (260 * 10)) x := by
  have hl : Sorted ([(7, 2), (ix.w - 1, 1)] : PtxtVec F) := by
    simp only [Sorted, List.pairwise_cons, List.mem_singleton, forall_eq, List.not_mem_nil,
      List.Pairwise.nil, and_true, false_imp_iff, implies_true]
    omega
  refine ⟨hix, hw2, hG, hH, by simp [demoVd], ?_, ?_, ?_, by simp [demoVd], ?_, ?_, ?_, ?_,
    demoCom_open ..⟩
  · intro c hc
    obtain rfl := List.mem_singleton.1 hc
    exact hl
  · intro c hc k hk
    obtain rfl := List.mem_singleton.1 hc
    simp only [keys, List.map_cons, List.map_nil, List.mem_cons, List.not_mem_nil, or_false] at hk
    show k < ix.w
    omega
  · intro c hc
    obtain rfl := List.mem_singleton.1 hc
    simp [LinSat]
  · intro k hk
    simp [demoVd]
  · intro c hc
    simp only [demoVd, List.mem_map] at hc
    obtain ⟨k, -, rfl⟩ := hc
    unfold QuadSat
    simp only
  · unfold demoPd demoVd
    simp only
  · unfold demoPd
    simp only

end Verif.Spec
