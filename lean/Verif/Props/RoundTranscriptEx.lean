/-
The hypotheses of C83 can be met: a round of a party with the library's transcripts.
-/
import Verif.Props.RoundTranscript
import Verif.Props.Round

namespace Verif.Props
open Verif Verif.Spec Verif.Merlin Verif.Regev

noncomputable section

/-- zero vectors -/
def zeros (n : ℕ) : EVec Regev.P 2 := List.replicate n 0

def libP : Params Regev.P where
  gk := { kay := 4, enn := 4, tee := 2, sigmaEnc1 := 2, sigmaEnc2 := 3, nPks := 4,
          A := List.replicate 4 (zeros 4), B := List.replicate 4 (zeros 4) }
  delta := 50
  H := [[1, -1, 0, 0, 0], [0, 0, 4, -1, 0], [0, 0, 1, 0, -1]]
  B_dNoise := 900
  B_sk := 100
  B_r := 100
  B_eNoise1 := 700
  B_eNoise2 := 800
  B_kNoise := 600
  B_smallness := 128 * Regev.P
  smlnsBits := 4
  radix := 4

/-- The old shares are 5 and 7, the secret `2·5-7 = 3`, the new shares 3, 1, 4, 1. -/
def libInp : RoundInput Regev.P where
  ctMat := List.replicate 4 (zeros 2)
  ctVec := [(5 : ZMod Regev.P) • g Regev.P 2 50, (7 : ZMod Regev.P) • g Regev.P 2 50]
  pt1 := [5, 7]
  sk1 := zeros 4
  decNoise := zeros 2
  ct1 := zeros 4
  ct2 := [(3 : ZMod Regev.P) • g Regev.P 2 50, (1 : ZMod Regev.P) • g Regev.P 2 50,
    (4 : ZMod Regev.P) • g Regev.P 2 50, (1 : ZMod Regev.P) • g Regev.P 2 50]
  pt2 := [3, 1, 4, 1]
  encRnd := zeros 4
  encNoise1 := zeros 4
  encNoise2 := zeros 4
  pkNum := 1
  sk2 := zeros 4
  keyNoise := zeros 4
  lagrange := [2, -1]

theorem zeros_get (n i : ℕ) : (zeros n).getD i 0 = 0 := by
  unfold zeros
  rw [List.getD_eq_getElem?_getD, List.getElem?_replicate]
  split <;> rfl

theorem zeros_shape (n m : ℕ) : HasShape (List.replicate n (zeros m)) n m :=
  ⟨List.length_replicate, fun r hr => by rw [List.eq_of_mem_replicate hr]; exact List.length_replicate⟩

theorem zeros_entry (n m i j : ℕ) : entry (List.replicate n (zeros m)) i j = 0 := by
  have h : (List.replicate n (zeros m)).getD i [] = zeros m ∨ (List.replicate n (zeros m)).getD i [] = [] := by
    rw [List.getD_eq_getElem?_getD, List.getElem?_replicate]
    split
    · exact Or.inl rfl
    · exact Or.inr rfl
  unfold entry
  rcases h with h | h <;> rw [h]
  · exact zeros_get _ _
  · rfl

theorem zeros_l1 (n : ℕ) : l1 (zeros n) = 0 := by
  have h : ∀ s ∈ coeffs (zeros n), s = 0 := by
    intro s hs
    unfold coeffs at hs
    obtain ⟨e, he, hs2⟩ := List.mem_flatMap.1 hs
    rw [List.eq_of_mem_replicate he, List.mem_ofFn] at hs2
    obtain ⟨j, rfl⟩ := hs2
    rfl
  unfold l1
  rw [List.map_congr_left (g := fun _ => (0 : ℤ)) fun s hs => by rw [h s hs, ZMod.valMinAbs_zero, abs_zero]]
  simp

theorem libP_ok : ParamsOk libP := by
  refine ⟨by decide, by decide, by decide, zeros_shape _ _, zeros_shape _ _, by decide, ?_⟩
  have h : ∀ k < 10, |normBound libP k| ≤ 1000 := by
    intro k hk
    interval_cases k <;> decide +kernel
  intro k hk
  have := h k hk
  refine ⟨?_, ?_⟩
  · have : (2000 : ℤ) < (Regev.P : ℕ) := by unfold Regev.P; norm_num
    omega
  · rw [← sq_abs]
    have h0 := abs_nonneg (normBound libP k)
    calc |normBound libP k| ^ 2 ≤ 1000 ^ 2 := by nlinarith
      _ < 2 ^ 256 := by norm_num

theorem libInp_honest : Honest libP libInp where
  ctMat := zeros_shape _ _
  ctVec := rfl
  pt1 := rfl
  sk1 := rfl
  decNoise := rfl
  decrypts := by
    intro i hi
    have hi' : i < 2 := hi
    simp only [libInp, zeros_get, zeros_entry, mul_zero, zero_mul, Finset.sum_const_zero, zero_add, add_zero]
    interval_cases i <;> rfl
  ct1 := rfl
  ct2 := rfl
  pt2 := rfl
  encRnd := rfl
  encNoise1 := rfl
  encNoise2 := rfl
  encrypts1 := by
    intro i hi
    simp only [libInp, libP, zeros_get, zeros_entry, mul_zero, Finset.sum_const_zero, add_zero]
  encrypts2 := by
    intro i hi
    have hi' : i < 4 := hi
    simp only [libInp, libP, zeros_get, zeros_entry, mul_zero, Finset.sum_const_zero, zero_add, add_zero]
    interval_cases i <;> rfl
  sk2 := rfl
  keyNoise := rfl
  keyFor := by
    intro i hi
    have e : (libP.gk.B.getD libInp.pkNum []) = zeros 4 := rfl
    rw [e]
    simp only [libInp, libP, zeros_get, zeros_entry, mul_zero, Finset.sum_const_zero, add_zero]
  reshares := by
    have e : (∑ i ∈ Finset.range libP.gk.tee, libInp.lagrange.getD i 0 * libInp.pt1.getD i 0) = 3 := by
      change (∑ i ∈ Finset.range 2, ([2, -1] : List (ZMod Regev.P)).getD i 0 * ([5, 7] : List (ZMod Regev.P)).getD i 0) = 3
      rw [Finset.sum_range_succ, Finset.sum_range_succ, Finset.sum_range_zero]
      simp only [List.getD_cons_zero, List.getD_cons_succ]
      ring
    rw [e]
    change ∀ y ∈ Spec.matVec ([[1, -1, 0, 0, 0], [0, 0, 4, -1, 0], [0, 0, 1, 0, -1]] : List (List (ZMod Regev.P)))
      (3 :: [3, 1, 4, 1]), y = 0
    simp only [Spec.matVec, List.map_cons, List.map_nil, List.zip_cons_cons, List.zip_nil_right, List.sum_cons,
      List.sum_nil, List.mem_cons, List.not_mem_nil, or_false]
    rintro y (rfl | rfl | rfl) <;> ring

/-- A round of a party with the library's transcripts: the hypotheses of `C83_round` hold, from the constructors on. -/
theorem lib_round {G : Type} [AddCommGroup G] [Module (ZMod Regev.P) G] (c : Curve G) (getG getH : ℕ → G)
    (tag : Bytes) (rnd fresh : Blocks (ZMod Regev.P)) (small : ℕ → SmallRnd Regev.P) (r : ZMod Regev.P) :
    ∃ vd pd vd' pd', Sized libP libInp ∧ Setup libP vd pd ∧ (∀ l ∈ vd.linConstr, l = ⟨[], 0⟩) ∧
      vd.mer = libInit tag ∧
      proveRound (libEnv c) libP fresh (fun _ => ⟨fun _ => false, fun _ => false⟩) small libInp vd pd =
        .ok (vd', pd') := by
  obtain ⟨vd, vd', pd', h1, h2, S, h4⟩ := C64_start (libEnv c) libP getG getH (libInit tag) rnd (zeros 4) r rfl
    (by decide) (by decide)
  have hm : vd'.mer = libInit tag := by
    have e1 : vd.mer = libInit tag := by
      unfold newVerifierData at h1
      obtain ⟨ix, -, h1⟩ := Res.bind_eq_ok.1 h1
      split at h1
      · cases h1
      · rw [← Res.ok.inj h1]
    unfold commitKey at h2
    obtain ⟨com, -, h2⟩ := Res.bind_eq_ok.1 h2
    have h2 := Res.ok.inj h2
    obtain ⟨rfl, -⟩ := Prod.mk.inj h2
    exact e1
  have b : ∀ n B, (0 : ℤ) ≤ B → 16 * l1 (zeros n) ≤ B := fun n B h => by rw [zeros_l1]; omega
  have b' : ∀ n B, (8 : ℤ) ≤ B → 8 * (2 * l1 (zeros n) + libP.radix) ≤ libP.radix * B := fun n B h => by
    rw [zeros_l1]
    show 8 * (2 * 0 + 4) ≤ 4 * B
    omega
  obtain ⟨⟨vd2, pd2⟩, hr⟩ := (C64_defined (C82_length c) libP_ok
    (tests := fun _ => ⟨fun _ => false, fun _ => false⟩) (fun k p hp => by cases hp) fresh small libInp_honest S
    (by decide) (by decide) rfl (by decide) (by rw [h4]; decide) (by unfold libP Regev.P; norm_num)
    (b' _ _ (by decide +kernel)) (b _ _ (by decide +kernel)) (b' _ _ (by decide +kernel)) (b' _ _ (by decide +kernel)) (b _ _ (by decide +kernel))
    (b' _ _ (by decide +kernel))).2 (le_refl _)
  have I := libInp_honest
  exact ⟨vd', pd', vd2, pd2, ⟨I.ctMat, I.ctVec, I.pt1, I.decNoise, I.ct1, I.ct2, I.pt2, I.encRnd, I.encNoise1, I.encNoise2,
    I.sk2, I.keyNoise⟩, S.setup, S.linEmpty, hm, hr⟩

end
end Verif.Props
