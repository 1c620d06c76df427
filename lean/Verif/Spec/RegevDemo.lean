/-
Example data for the theorems about the Regev proofs: a small field, keys, ciphertexts with nonzero noise.
Only used to show that hypotheses can be met.
-/
import Verif.Spec.RegevSetup
import Verif.Spec.FourSquares
import Mathlib.Tactic.NormNum.Prime

namespace Verif.Spec
open Regev
open scoped BigOperators

instance fact10007 : Fact (Nat.Prime 10007) := ⟨by norm_num⟩

abbrev D := ZMod 10007

/-- A transcript that keeps everything; the challenges depend on how much was absorbed. -/
def demoE : Env D D where
  St := List Bytes
  init l := [l]
  commit st l m := st ++ [l, m]
  challenge st l n := ((List.range n).map fun i => UInt8.ofNat (st.length * 37 + i), st ++ [l])
  scalarBytes x := decBytes x.val
  pointBytes x := decBytes x.val
  scalarReduce b := b.length
  fromUniform b := b.length
  hashToCurve b := b.length
  base := 1

theorem demoE_length : ∀ st l n, (demoE.challenge st l n).1.length = n := by
  intro st l n
  simp [demoE]

def demoRnd : Blocks D := ⟨1, 2, 3, 4, 5, 6, 7, 8, 9, 10, 11, 12, 13, 14, 15, 16, 17, 18, 19, 20, 21, 22, 23, 24,
  25, 26, 27⟩

def demoTests : ℕ → Tests := fun _ => ⟨fun _ => false, fun _ => false⟩

theorem demoTests_ok : ∀ k, NoFalsePrimes (demoTests k).probPrime := by
  intro k p hp
  cases hp

def demoSk : EVec 10007 2 := [⟨![1, 0]⟩, ⟨![0, -1]⟩, ⟨![1, 1]⟩, ⟨![0, 0]⟩]
def demoR : EVec 10007 2 := [⟨![0, 1]⟩, ⟨![0, 0]⟩, ⟨![-1, 1]⟩, ⟨![1, 0]⟩]
def demoNoise4 : EVec 10007 2 := [⟨![2, -1]⟩, ⟨![0, 3]⟩, ⟨![0, 0]⟩, ⟨![-2, 1]⟩]
def demoNoise2 : EVec 10007 2 := [⟨![2, -1]⟩, ⟨![0, 3]⟩]
def demoPt1 : List D := [5, 7]
def demoPt2 : List D := [3, 1, 4, 1]
def demoA : EMat 10007 2 := List.ofFn fun i : Fin 4 => List.ofFn fun j : Fin 4 =>
  ⟨![(100 * i.val + 7 * j.val + 3 : ℕ), (11 * i.val + 301 * j.val : ℕ)]⟩

/-- The public key of `demoSk` with noise `demoNoise4`. -/
noncomputable def demoPk : EVec 10007 2 := (List.range 4).map fun i =>
  (∑ k ∈ Finset.range 4, demoSk.getD k 0 * entry demoA k i) + demoNoise4.getD i 0

noncomputable def demoGk : GlobalKey 10007 2 where
  kay := 4
  enn := 4
  tee := 2
  sigmaEnc1 := 2
  sigmaEnc2 := 3
  nPks := 4
  A := demoA
  B := [demoPk, demoPk, demoPk, demoPk]

noncomputable def demoP : Params 10007 where
  gk := demoGk
  delta := 50
  H := [[1, 2, 3, 4, 5], [6, 7, 8, 9, 10], [0, 1, 0, 1, 1]]
  B_dNoise := 900
  B_sk := 100
  B_r := 100
  B_eNoise1 := 700
  B_eNoise2 := 800
  B_kNoise := 600
  B_smallness := 2000
  smlnsBits := 4
  radix := 4

def demoCtMat : EMat 10007 2 := List.ofFn fun i : Fin 4 => List.ofFn fun j : Fin 2 =>
  ⟨![(13 * i.val + 70 * j.val + 3 : ℕ), (511 * i.val + 31 * j.val : ℕ)]⟩

noncomputable def demoCtVec : EVec 10007 2 := (List.range 2).map fun i =>
  (∑ k ∈ Finset.range 4, demoSk.getD k 0 * entry demoCtMat k i) + demoPt1.getD i 0 • g 10007 2 50 +
    demoNoise2.getD i 0

noncomputable def demoCt1 : EVec 10007 2 := (List.range 4).map fun i =>
  (∑ k ∈ Finset.range 4, entry demoA i k * demoR.getD k 0) + demoNoise4.getD i 0

noncomputable def demoCt2 : EVec 10007 2 := (List.range 4).map fun i =>
  (∑ k ∈ Finset.range 4, entry demoGk.B i k * demoR.getD k 0) + demoPt2.getD i 0 • g 10007 2 50 +
    demoNoise4.getD i 0

def demoIx : Indexes := setIndexesNat 4 2 4 2

def demoV : VerifierData D D demoE.St where
  Gs := List.replicate (demoIx.w + 1) 2
  Hs := List.replicate (260 * 10) 3
  ix := demoIx
  com := demoRnd
  linConstr := List.replicate 17 ⟨[], 0⟩
  normConstr := List.replicate 10 ⟨[], 0⟩
  z := []
  mer := []

def demoD : ProverData D where
  rnd := demoRnd
  compressed := ⟨![3, -2]⟩ :: List.replicate (1300 - 1) 0
  linWitness := []
  quadWitnessG := []
  quadWitnessH := []

def demoSmall : ℕ → SmallRnd 10007 := fun i => ⟨fun j k => (3 * i + 5 * j + k, j % 2 == 0), 77⟩

theorem demoCtMat_shape : HasShape demoCtMat demoP.gk.kay demoP.gk.tee := by
  refine ⟨by simp [demoCtMat, demoP, demoGk], ?_⟩
  intro row hr
  simp only [demoCtMat, List.mem_ofFn] at hr
  obtain ⟨i, rfl⟩ := hr
  simp [demoP, demoGk]

theorem demoP_ok : ParamsOk demoP := by
  refine ⟨by decide, by decide, by decide, ⟨by simp [demoA, demoP, demoGk], ?_⟩, ⟨rfl, ?_⟩, by decide, ?_⟩
  · intro row hr
    simp only [demoA, demoP, demoGk, List.mem_ofFn] at hr
    obtain ⟨i, rfl⟩ := hr
    simp [demoP, demoGk]
  · intro row hr
    simp only [demoP, demoGk, List.mem_cons, List.not_mem_nil, or_false, or_self] at hr
    subst hr
    simp [demoPk, demoP, demoGk]
  · have h : ∀ k < 10, |normBound demoP k| ≤ 1000 := by decide +kernel
    intro k hk
    have := h k hk
    refine ⟨by push_cast; omega, ?_⟩
    rw [← sq_abs]
    have h0 := abs_nonneg (normBound demoP k)
    calc |normBound demoP k| ^ 2 ≤ 1000 ^ 2 := by nlinarith
      _ < 2 ^ 256 := by norm_num

theorem demo_setup : Setup demoP demoV demoD := by
  refine ⟨Or.inl rfl, by decide, ?_, ?_, by decide, rfl, ?_, ?_, List.Pairwise.nil, List.Pairwise.nil⟩
  · simp only [demoV, List.length_replicate]
  · simp only [demoV, List.length_replicate]; exact le_refl _
  · intro k c hc
    have : c ∈ List.replicate 10 (⟨[], 0⟩ : QuadConstraint D) := List.mem_of_getElem? hc
    rw [List.eq_of_mem_replicate this]
    exact ⟨List.Pairwise.nil, fun j hj => absurd hj List.not_mem_nil⟩
  · simp only [demoD, List.length_cons, List.length_replicate]

theorem demoV_getD (j : ℕ) : demoV.linConstr.getD j ⟨[], 0⟩ = ⟨[], 0⟩ := by
  unfold demoV
  simp only [List.getD_eq_getElem?_getD, List.getElem?_replicate]
  split <;> rfl

theorem demo_slot : SlotOk demoV.linConstr 6 demoV.ix.w := by
  intro i
  rw [demoV_getD]
  exact ⟨List.Pairwise.nil, fun j hj => absurd hj List.not_mem_nil⟩

theorem demo_slot_zero (x : ℕ → D) : slotLhs demoV.linConstr 6 x = 0 := by
  unfold slotLhs
  apply Elt.ext
  funext i
  simp only [demoV_getD]
  simp [linLhs]

theorem demo_decrypts :
    Decrypts demoP.delta demoP.gk.kay demoP.gk.tee demoCtMat demoCtVec demoPt1 demoSk demoNoise2 := by
  intro i hi
  have hi' : i < 2 := hi
  unfold demoCtVec
  rw [List.getD_eq_getElem?_getD, List.getElem?_map, List.getElem?_range hi']
  rfl

theorem demo_encrypts1 : Encrypts1 demoP.gk.kay demoP.gk.A demoCt1 demoR demoNoise4 := by
  intro i hi
  have hi' : i < 4 := hi
  unfold demoCt1
  rw [List.getD_eq_getElem?_getD, List.getElem?_map, List.getElem?_range hi']
  rfl

theorem demo_encrypts2 :
    Encrypts2 demoP.delta demoP.gk.kay demoP.gk.enn demoP.gk.B demoCt2 demoPt2 demoR demoNoise4 := by
  intro i hi
  have hi' : i < 4 := hi
  unfold demoCt2
  rw [List.getD_eq_getElem?_getD, List.getElem?_map, List.getElem?_range hi']
  rfl

theorem demo_keyfor : KeyFor demoP.gk.kay demoP.gk.A (demoP.gk.B.getD 1 []) demoSk demoNoise4 := by
  intro i hi
  have hi' : i < 4 := hi
  have e : demoP.gk.B.getD 1 [] = demoPk := rfl
  rw [e]
  unfold demoPk
  rw [List.getD_eq_getElem?_getD, List.getElem?_map, List.getElem?_range hi']
  rfl

end Verif.Spec
