/-
A run with 256 parties, all of whose keys are made by the library, meets the hypotheses of C101.
-/
import Verif.Props.Receiver
import Verif.Props.RoundSoundEx

namespace Verif.Props
open Regev Spec
open scoped BigOperators

/-- In the program every party's key comes from a successful key generation. -/
theorem main_keys {delta : ℕ} {gk0 gk : GlobalKey Regev.P 2} {party : ℕ} {C : MainCoins Regev.P}
    {inp : RoundInput Regev.P} {wrong : Bool} (hs : Shaped gk0) (hn0 : gk0.nPks = 0)
    (h : mainInputs delta gk0 party C = .ok (gk, inp, wrong)) :
    ∀ i < gk0.enn, ∃ rsk rno sk pk noise, gk.keyGen rsk rno = .ok (sk, pk, noise) ∧ gk.B[i]? = some pk := by
  unfold mainInputs at h
  obtain ⟨⟨gk', ks⟩, h1, h⟩ := Res.bind_eq_ok.1 h
  simp only at h
  obtain ⟨ptxt1, h2, h⟩ := Res.bind_eq_ok.1 h
  obtain ⟨ctxt1, h3, h⟩ := Res.bind_eq_ok.1 h
  obtain ⟨⟨sk, noise⟩, h4, h⟩ := Res.bind_eq_ok.1 h
  obtain ⟨dec, h5, h⟩ := Res.bind_eq_ok.1 h
  obtain ⟨wr, h6, h⟩ := Res.bind_eq_ok.1 h
  obtain ⟨ptxt3, h7, h⟩ := Res.bind_eq_ok.1 h
  obtain ⟨⟨ct2, r, e1, e2⟩, h8, h⟩ := Res.bind_eq_ok.1 h
  simp only at h
  obtain ⟨ctMat, h9, h⟩ := Res.bind_eq_ok.1 h
  obtain ⟨ctVec, h10, h⟩ := Res.bind_eq_ok.1 h
  obtain ⟨lagrange, h11, h⟩ := Res.bind_eq_ok.1 h
  obtain ⟨hgk, -⟩ := Prod.mk.inj (Res.ok.inj h)
  subst hgk
  obtain ⟨pks, a1, a2, -, -, a5⟩ := genAll_ok _ _ _ _ _ _ h1
  have hist := (C38_history gk0 hn0 hs.rowsB pks).1
  have hlen : ∀ pk ∈ pks, pk.length = gk0.kay := by
    intro pk hpk
    obtain ⟨j, hj⟩ := List.getElem?_of_mem hpk
    have hjk : j < gk0.enn := by rw [← a2]; exact (List.getElem?_eq_some_iff.1 hj).1
    obtain ⟨sk, noise, pk', -, b2, b3⟩ := a5 j hjk
    rw [hj] at b2
    obtain rfl := Option.some.inj b2
    rw [(C38_history gk0 hn0 hs.rowsB _).1] at b3
    exact (keyGen_relation hs (show gk0.keyGen _ _ = _ from b3)).2.2.1
  have hreg : registered gk0.kay gk0.enn pks = pks := by
    unfold registered
    rw [List.filter_eq_self.2 (by simpa using hlen), List.take_of_length_le (by omega)]
  intro i hi
  obtain ⟨sk, noise, pk, -, b2, b3⟩ := a5 i hi
  refine ⟨(C.keys (0 + i)).1, (C.keys (0 + i)).2, sk, pk, noise, ?_, ?_⟩
  · rw [(C38_history gk0 hn0 hs.rowsB _).1] at b3
    rw [a1, hist]
    exact b3
  · rw [a1, hist, hreg]
    show (pks ++ _)[i]? = _
    rw [List.getElem?_append_left (by omega), b2]

/-- A run with 256 parties that meets all the hypotheses of `C101_secret`, with all parties as receivers. -/
example : ∃ (P : Params Regev.P) (b m : ℤ) (inp : RoundInput Regev.P) (vd vd' : VerifierData (ZMod Regev.P)
    (ZMod Regev.P) zeroEnv.St) (pd pd' : ProverData (ZMod Regev.P)) (fresh : Blocks (ZMod Regev.P)) (tests : ℕ → Tests)
    (small : ℕ → SmallRnd Regev.P) (x : ℕ → ZMod Regev.P)
    (ntlKernel : List (List (ZMod Regev.P)) → List (List (ZMod Regev.P))) (sp : SharingParams (ZMod Regev.P))
    (share : ℤ → ZMod Regev.P),
    LengthOk zeroEnv ∧ Standard P.gk 256 ∧ BoundsClose P b m ∧ ParamsOk P ∧ P.delta = Regev.delta ∧
    (∀ k, NoFalsePrimes (tests k).probPrime) ∧ Sized P inp ∧ Setup P vd pd ∧ (∀ c ∈ vd.linConstr, c = ⟨[], 0⟩) ∧
    proveRound zeroEnv P fresh tests small inp vd pd = .ok (vd', pd') ∧ (∀ c ∈ vd'.linConstr, LinSat c x) ∧
    (∀ k (hk : k < vd'.normConstr.length), 0 < k → QuadSat vd'.normConstr[k] x x) ∧
    GoodRound P inp vd.ix x (roundChallenges zeroEnv vd.mer P.gk.kay P.gk.enn P.gk.tee vd'.com vd'.z) vd'.z 3 ∧
    (∀ G nr nc, G.length = nr → (∀ r ∈ G, r.length = nc) → GeneratesLeftKernel (ntlKernel G) G nr nc) ∧
    (interval 1 257).length = 256 ∧ GoodPoints (ZMod Regev.P) (interval 1 257) ∧ 1 ≤ P.gk.tee ∧ P.gk.tee ≤ 256 ∧
    SharingParams.make ntlKernel (interval 1 257) P.gk.tee = .ok sp ∧ P.H = sp.H ∧
    ∀ (i : ℕ) (p : ℤ), (interval 1 257)[i]? = some p → ∃ rsk rno sk pk noise e,
      P.gk.keyGen rsk rno = .ok (sk, pk, noise) ∧ P.gk.B[i]? = some pk ∧
      P.gk.decrypt P.delta sk i (inp.ct1, inp.ct2) = .ok (share p, e) := by
  obtain ⟨k, hk⟩ := kernel_exists (ZMod Regev.P)
  have hb : Precise (verifierBounds Regev.delta) 256 := by
    intro gk H hs
    obtain ⟨P, b, m, h1, h2, h3, h4, h5⟩ := C67_model Regev.delta gk H hs (by norm_num) (by norm_num)
    exact ⟨P, h1, h2, h3, h4, b, m, h5⟩
  have hz : ∀ st l n, (zeroEnv.challenge st l n).1 = List.replicate n 0 := fun _ _ _ => rfl
  have hT : ∀ k : ℕ, NoFalsePrimes ((fun _ => ⟨fun _ => false, fun _ => false⟩ : ℕ → Tests) k).probPrime :=
    fun _ p hp => by cases hp
  obtain ⟨gk0, sp, gk, inp, P, vd0, vd, pd, vd2, pd2, b, m, hnew, hsp, hin, hbP, -, -, hr, hst, hbc, hP, hI, S, n0, n1, n2,
    n3, n4, n5⟩ := unit_round (E := zeroEnv) hz (fun i => (i : ZMod Regev.P))
    (fun i => (2 * i + 1 : ℕ)) k hk _ 256 (by norm_num) (by norm_num) hb
    ⟨by rw [C66_good_dimension.1]; norm_num, by norm_num⟩
    (fun i j => ⟨![(i : ZMod Regev.P), (j : ZMod Regev.P)]⟩) []
    ⟨1, 2, 3, 4, 5, 6, 7, 8, 9, 10, 11, 12, 13, 14, 15, 16, 17, 18, 19, 20, 21, 22, 23, 24, 25, 26, 27⟩
    ⟨1, 2, 3, 4, 5, 6, 7, 8, 9, 10, 11, 12, 13, 14, 15, 16, 17, 18, 19, 20, 21, 22, 23, 24, 25, 26, 27⟩ 7
    (tests := fun _ => ⟨fun _ => false, fun _ => false⟩) hT
  obtain ⟨x, g1, g2, g3⟩ := zero_round_good hz hst (by norm_num) (by norm_num) hbc hP hT hI S hr (by omega) n1 n2 n3 n4 n5
    (κ := 3) le_rfl
  have hE : LengthOk zeroEnv := fun st l n => by rw [hz, List.length_replicate]
  have hS : Sized P inp := ⟨hI.ctMat, hI.ctVec, hI.pt1, hI.decNoise, hI.ct1, hI.ct2, hI.pt2, hI.encRnd, hI.encNoise1,
    hI.encNoise2, hI.sk2, hI.keyNoise⟩
  obtain ⟨hs0, hn0, -, hen, -⟩ := new_shaped _ _ _ _ _ _ hnew
  have hen : gk0.enn = 256 := by exact_mod_cast hen
  obtain ⟨m1, m2, m3, -⟩ := mainInputs_gk hs0 hn0 hin
  have hstg : Standard gk 256 := by
    have h0 := new_standard hnew
    obtain ⟨g1, g2, g3, g4, g5⟩ := mainInputs_gk hs0 hn0 hin
    exact ⟨by rw [g1]; exact h0.kay, by rw [g2]; exact h0.enn, by rw [g4]; exact h0.sigma1,
      by rw [g5]; exact h0.sigma2⟩
  obtain ⟨P', b', m', c1, c2, c3, c4, -⟩ := C67_model Regev.delta gk sp.H hstg (by norm_num) (by norm_num)
  rw [hbP] at c1
  obtain rfl := Res.ok.inj c1
  obtain ⟨-, hte, -, -⟩ := new_tee hnew
  have e257 : ((gk0.enn : ℤ) + 1) = 257 := by rw [hen]; norm_num
  rw [e257] at hsp
  have hgood := interval_good (q := Regev.P) 256 (by unfold Regev.P; norm_num) (by norm_num)
  have hpt := hP.tee
  refine ⟨P, b, m, inp, vd, vd2, pd, pd2, _, _, _, x, k, sp, fun p => x (vd.ix.pt2 + (p - 1).toNat), hE, hst, hbc, hP, c4, hT,
    hS, S.setup, S.linEmpty, hr, g1, fun k hk _ => g2 k hk, g3, fun G nr nc a b => (hk G nr nc a b).1, ?_, hgood, by omega,
    ?_, ?_, c3, ?_⟩
  · rw [show (257 : ℤ) = ((256 : ℕ) : ℤ) + 1 by norm_num, interval_get]
    simp
  · rw [c2, m3]
    omega
  · rw [c2, m3]
    exact hsp
  · intro i p hp
    have hi : i < 256 ∧ p = 1 + i := by
      rw [show (257 : ℤ) = ((256 : ℕ) : ℤ) + 1 by norm_num, interval_get] at hp
      have hl := (List.getElem?_eq_some_iff.1 hp).1
      rw [List.length_map, List.length_range] at hl
      rw [List.getElem?_map, List.getElem?_range hl] at hp
      exact ⟨hl, (Option.some.inj hp).symm⟩
    obtain ⟨rsk, rno, sk, pk, noise, k1, k2⟩ := main_keys hs0 hn0 hin i (by omega)
    rw [← c2] at k1 k2
    obtain ⟨e, k3⟩ := C101_round hE (Or.inl rfl) hst hbc hP c4 hT hS S.setup S.linEmpty hr x g1 (fun k hk _ => g2 k hk) le_rfl
      g3 k1 k2
    refine ⟨rsk, rno, sk, pk, noise, e, k1, k2, ?_⟩
    rw [k3, hi.2]
    congr 4
    omega

end Verif.Props
