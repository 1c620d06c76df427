/-
C66: the driver program with the parameters it chooses itself.
-/
import Verif.Props.Bounds

namespace Verif.Props
open Spec Regev
open scoped BigOperators

section
variable {G : Type} [AddCommGroup G] [Module (ZMod Regev.P) G]

/-- A way of computing the norm bounds that is precise enough: for the parameters of `n` parties it does not
throw, and gives bounds that are close to the real numbers (C67_model: the formulas of the constructor do). -/
def Precise (bounds : GlobalKey Regev.P 2 → List (List (ZMod Regev.P)) → Res (Params Regev.P)) (n : ℕ) : Prop :=
  ∀ gk H, Standard gk n → ∃ P, bounds gk H = .ok P ∧ P.gk = gk ∧ P.H = H ∧ P.delta = Regev.delta ∧
    ∃ b m, BoundsClose P b m

theorem mainInputs_gk {delta : ℕ} {gk0 gk : GlobalKey Regev.P 2} {party : ℕ} {C : MainCoins Regev.P}
    {inp : RoundInput Regev.P} {wrong : Bool} (hs : Shaped gk0) (hn0 : gk0.nPks = 0)
    (h : mainInputs delta gk0 party C = .ok (gk, inp, wrong)) :
    gk.kay = gk0.kay ∧ gk.enn = gk0.enn ∧ gk.tee = gk0.tee ∧ gk.sigmaEnc1 = gk0.sigmaEnc1 ∧
      gk.sigmaEnc2 = gk0.sigmaEnc2 := by
  unfold mainInputs at h
  obtain ⟨⟨gk', ks⟩, h1, h⟩ := Res.bind_eq_ok.1 h
  simp only at h
  obtain ⟨ptxt1, h2, h⟩ := Res.bind_eq_ok.1 h
  obtain ⟨ctxt1, h3, h⟩ := Res.bind_eq_ok.1 h
  obtain ⟨⟨sk, noise⟩, h4, h⟩ := Res.bind_eq_ok.1 h
  obtain ⟨dec, h5, h⟩ := Res.bind_eq_ok.1 h
  obtain ⟨wr, h6, h⟩ := Res.bind_eq_ok.1 h
  obtain ⟨ptxt3, h7, h⟩ := Res.bind_eq_ok.1 h
  obtain ⟨⟨ct2, r, e1, e2⟩, h8, h⟩ := Res.bind_eq_ok.1 h
  simp only at h
  obtain ⟨ctMat, h9, h⟩ := Res.bind_eq_ok.1 h
  obtain ⟨ctVec, h10, h⟩ := Res.bind_eq_ok.1 h
  obtain ⟨lagrange, h11, h⟩ := Res.bind_eq_ok.1 h
  obtain ⟨hgk, -⟩ := Prod.mk.inj (Res.ok.inj h)
  subst hgk
  obtain ⟨pks, a1, -, -, -, -⟩ := genAll_ok _ _ _ _ _ _ h1
  have hist := (C38_history gk0 hn0 hs.rowsB pks).1
  rw [a1, hist]
  exact ⟨rfl, rfl, rfl, rfl, rfl⟩

theorem new_standard {n : ℕ} {crs : ℕ → ℕ → Elt (ZMod Regev.P) 2} {gk : GlobalKey Regev.P 2}
    (h : GlobalKey.new (setParams 2 n).1 n (setParams 2 n).2.1 (setParams 2 n).2.2 crs = .ok gk) :
    Standard gk n := by
  obtain ⟨-, -, a1, a2, a3, a4, -⟩ := new_shaped _ _ _ _ _ _ h
  exact ⟨a1, by exact_mod_cast a2, a3, a4⟩

/-- **C66.** A run of the program with the parameters that it chooses for `n` parties, and norm bounds computed
precisely enough: if it gets as far as the final proofs, then it has not reported a decryption error;
and if none of the four-square searches failed and the two aggregation challenges are good, then both
final proofs are accepted (or the code throws, because the last challenge of the linear proof was zero).
For all coins, CRS, generators and transcripts. -/
theorem C66_standard [DecidableEq G] {E : Env (ZMod Regev.P) G} (hE : LengthOk E) (getG getH : ℕ → G)
    (ntlKernel : List (List (ZMod Regev.P)) → List (List (ZMod Regev.P)))
    (hker : ∀ G nr nc, G.length = nr → (∀ r ∈ G, r.length = nc) → GeneratesLeftKernel (ntlKernel G) G nr nc)
    (bounds : GlobalKey Regev.P 2 → List (List (ZMod Regev.P)) → Res (Params Regev.P))
    (n : ℕ) (h5 : 5 ≤ n) (hn : n < 2 ^ 30) (hb : Precise bounds n)
    (crs : ℕ → ℕ → Elt (ZMod Regev.P) 2) (party : ℕ) (C : MainCoins Regev.P) (mer : E.St)
    (rnd0 fresh : Blocks (ZMod Regev.P)) (r : ZMod Regev.P) {tests : ℕ → Tests}
    (hT : ∀ k, NoFalsePrimes (tests k).probPrime) (small : ℕ → SmallRnd Regev.P) (wrong : Bool)
    (P : Params Regev.P) (vd : VerifierData (ZMod Regev.P) G E.St) (pd : ProverData (ZMod Regev.P))
    (h : mainProve E getG getH ntlKernel bounds Regev.delta (setParams 2 n).1 n (setParams 2 n).2.1
      (setParams 2 n).2.2 crs party C mer rnd0 fresh r tests small = .ok (wrong, P, vd, pd)) :
    wrong = false ∧
    ((∀ k < 10, ¬ PadFailed P tests (coef pd.linWitness) k) →
      ∀ (tie : List (CompIter (ZMod Regev.P)) → ℕ) (coinsL coinsQ : ℕ → ZMod Regev.P × ZMod Regev.P)
        (wRnd : ZMod Regev.P) (v : ReadyToProve (ZMod Regev.P) G) (r1 r2 : ZMod Regev.P) (st1 st2 : E.St),
      E.newChallenge vd.mer (str "aggregateLinear") = (r1, st1) →
      E.newChallenge st1 (str "aggregateNorms") = (r2, st2) →
      GoodChallenges vd (coef pd.linWitness) r1 r2 →
      ∃ v' vd' pd', aggregateProver E tie wRnd v vd pd = .ok (v', vd', pd') ∧
        (∀ rtv merL merQ pfL pfQ,
          finalProve E coinsL coinsQ v' vd' pd' = .ok (rtv, merL, merQ, pfL, pfQ) →
          (finalVerifyLin E rtv merL pfL = .ok true ∨
            (finalVerifyLin E rtv merL pfL = .throw ∧ (deriveLin E pfL rtv.linGs.length merL).x = 0)) ∧
          finalVerifyQuad E rtv merQ pfQ = .ok true) ∧
        ((0 ∈ finalChallenges E coinsL coinsQ v' vd' pd' ∧
          finalProve E coinsL coinsQ v' vd' pd' = .throw) ∨
         (0 ∉ finalChallenges E coinsL coinsQ v' vd' pd' ∧
          ∃ out, finalProve E coinsL coinsQ v' vd' pd' = .ok out))) := by
  unfold mainProve at h
  obtain ⟨gk0, hnew, h⟩ := Res.bind_eq_ok.1 h
  obtain ⟨sp, hsp, h⟩ := Res.bind_eq_ok.1 h
  obtain ⟨⟨gk, inp, wr⟩, hin, h⟩ := Res.bind_eq_ok.1 h
  simp only at h
  obtain ⟨P', hbd, h⟩ := Res.bind_eq_ok.1 h
  obtain ⟨vd0, h1, h⟩ := Res.bind_eq_ok.1 h
  obtain ⟨⟨vd1, pd1⟩, h2, h⟩ := Res.bind_eq_ok.1 h
  simp only at h
  obtain ⟨⟨vd2, pd2⟩, h3, h⟩ := Res.bind_eq_ok.1 h
  obtain ⟨e1, e⟩ := Prod.mk.inj (Res.ok.inj h)
  obtain ⟨e2, e⟩ := Prod.mk.inj e
  obtain ⟨e3, e4⟩ := Prod.mk.inj e
  simp only at e3 e4
  rw [e2] at h1 h3 hbd
  rw [e3, e4] at h3
  have hpar := (C35_setParams n (by omega) hn).2.2.2
  have hw := C66_no_error _ _ _ _ hpar crs gk0 hnew party C gk inp wr hin
  obtain ⟨hs0, hn0, -⟩ := new_shaped _ _ _ _ _ _ hnew
  obtain ⟨g1, g2, g3, g4, g5⟩ := mainInputs_gk hs0 hn0 hin
  have hst0 := new_standard hnew
  have hst : Standard gk n :=
    ⟨by rw [g1]; exact hst0.kay, by rw [g2]; exact hst0.enn, by rw [g4]; exact hst0.sigma1,
      by rw [g5]; exact hst0.sigma2⟩
  obtain ⟨P'', b0, b1, b2, b3, b, m, hbc⟩ := hb gk sp.H hst
  rw [hbd] at b0
  obtain rfl := Res.ok.inj b0
  rw [hw] at hin
  have hnP : ((n : ℕ) : ℤ) < Regev.P := by
    have : (2 : ℤ) ^ 30 < (Regev.P : ℕ) := by unfold Regev.P; norm_num
    omega
  obtain ⟨hI, -, -, -, -, ek, ee, et, hsh⟩ := C66_inputs Regev.delta (by unfold Regev.delta; norm_num) _ _ _ _ crs
    gk0 hnew hnP (by omega) ntlKernel hker sp hsp party C gk inp hin P b1 b2 b3
  obtain ⟨ht, hte, -, -⟩ := new_tee hnew
  obtain ⟨-, -, -, hP, -, -⟩ := C67_bounds (by rw [b1]; exact hst) h5 hn (by rw [b1]; exact hsh)
    (by rw [b1, et]; exact ht) hbc
  refine ⟨by rw [← e1, hw], fun hpad tie coinsL coinsQ wRnd v r1 r2 st1 st2 c1 c2 hC => ?_⟩
  have S := init_start getG getH mer rnd0 inp.sk1 r hI.sk1 h1 h2 (by rw [b1]; omega)
  exact C64_complete hE hP hT hI S h3 hpad tie coinsL coinsQ wRnd v r1 r2 st1 st2 c1 c2 hC

/-- **C66.** The outcomes of a run up to the last of the five proof functions, for a party that exists.  If
the dimensions are multiples of 4 then the program succeeds or throws an exception; if they are not, then it
throws or reads out of bounds, but never succeeds. -/
theorem C66_outcomes {E : Env (ZMod Regev.P) G} (hE : LengthOk E) (getG getH : ℕ → G)
    (ntlKernel : List (List (ZMod Regev.P)) → List (List (ZMod Regev.P)))
    (hker : ∀ G nr nc, G.length = nr → (∀ r ∈ G, r.length = nc) → GeneratesLeftKernel (ntlKernel G) G nr nc)
    (bounds : GlobalKey Regev.P 2 → List (List (ZMod Regev.P)) → Res (Params Regev.P))
    (n : ℕ) (h5 : 5 ≤ n) (hn : n < 2 ^ 30) (hb : Precise bounds n)
    (crs : ℕ → ℕ → Elt (ZMod Regev.P) 2) (party : ℕ) (hparty : party < n) (C : MainCoins Regev.P) (mer : E.St)
    (rnd0 fresh : Blocks (ZMod Regev.P)) (r : ZMod Regev.P) {tests : ℕ → Tests}
    (hT : ∀ k, NoFalsePrimes (tests k).probPrime) (small : ℕ → SmallRnd Regev.P)
    (out : Res (Bool × Params Regev.P × VerifierData (ZMod Regev.P) G E.St × ProverData (ZMod Regev.P)))
    (hout : mainProve E getG getH ntlKernel bounds Regev.delta (setParams 2 n).1 n (setParams 2 n).2.1
      (setParams 2 n).2.2 crs party C mer rnd0 fresh r tests small = out) :
    (4 ∣ (setParams 2 n).1 ∧ 4 ∣ n → (∃ x, out = .ok x) ∨ out = .throw) ∧
    (¬ (4 ∣ (setParams 2 n).1 ∧ 4 ∣ n) → out = .throw ∨ out = .ub) := by
  unfold mainProve at hout
  cases hnew : GlobalKey.new (setParams 2 n).1 n (setParams 2 n).2.1 (setParams 2 n).2.2 crs with
  | throw => rw [hnew] at hout; rw [← hout]; exact ⟨fun _ => Or.inr rfl, fun _ => Or.inl rfl⟩
  | ub =>
    exfalso
    unfold GlobalKey.new at hnew
    simp only at hnew
    split at hnew
    · cases hnew
    · split at hnew <;> cases hnew
  | ok gk0 =>
  rw [hnew, Res.ok_bind] at hout
  obtain ⟨hs0, hn0, hk, hen, -, -, -⟩ := new_shaped _ _ _ _ _ _ hnew
  obtain ⟨ht, hte, hk0, he0⟩ := new_tee hnew
  have hst0 := new_standard hnew
  obtain ⟨sp, hsp, -, -, -⟩ := C24_parity_check ntlKernel hker (interval 1 ((gk0.enn : ℤ) + 1)) gk0.tee (by omega)
  rw [hsp, Res.ok_bind] at hout
  have hnP : ((n : ℕ) : ℤ) < Regev.P := by
    have : (2 : ℤ) ^ 30 < (Regev.P : ℕ) := by unfold Regev.P; norm_num
    omega
  have hdef := C66_inputs_defined Regev.delta _ _ _ _ crs gk0 hnew hnP (by omega) party (by omega) C
  by_cases hc : CoinsOk gk0 C
  swap
  · rw [hdef.2 hc] at hout; rw [← hout]; exact ⟨fun _ => Or.inr rfl, fun _ => Or.inl rfl⟩
  obtain ⟨⟨gk, inp, wr⟩, hin⟩ := hdef.1 hc
  rw [hin, Res.ok_bind] at hout
  simp only at hout
  have hpar := (C35_setParams n (by omega) hn).2.2.2
  have hw := C66_no_error _ _ _ _ hpar crs gk0 hnew party C gk inp wr hin
  obtain ⟨g1, g2, g3, g4, g5⟩ := mainInputs_gk hs0 hn0 hin
  have hst : Standard gk n :=
    ⟨by rw [g1]; exact hst0.kay, by rw [g2]; exact hst0.enn, by rw [g4]; exact hst0.sigma1,
      by rw [g5]; exact hst0.sigma2⟩
  obtain ⟨P, b0, b1, b2, b3, b, m, hbc⟩ := hb gk sp.H hst
  rw [b0, Res.ok_bind] at hout
  rw [hw] at hin
  obtain ⟨hI, -, epk, hpk, -, ek, ee, et, hsh⟩ := C66_inputs Regev.delta (by unfold Regev.delta; norm_num) _ _ _ _ crs
    gk0 hnew hnP (by omega) ntlKernel hker sp hsp party C gk inp hin P b1 b2 b3
  have hstP : Standard P.gk n := by rw [b1]; exact hst
  obtain ⟨-, -, -, hP, hB0, -⟩ := C67_bounds hstP h5 hn (by rw [b1]; exact hsh)
    (by rw [b1, et]; exact ht) hbc
  obtain ⟨-, -, -, -, -, -, -, -, -, -, -, -, hkk⟩ := standard_facts hstP h5 hn hbc
  -- the constructor
  have hten : P.gk.tee ≤ P.gk.enn := by rw [b1]; omega
  have htee : 2 * P.gk.tee ≤ P.gk.enn := by
    rw [b1, et, ee]
    unfold GlobalKey.new at hnew
    simp only at hnew
    split at hnew
    · cases hnew
    · split at hnew
      · cases hnew
      · obtain rfl := Res.ok.inj hnew
        dsimp only
        omega
  have hennP := hstP.enn
  obtain ⟨ix, hix⟩ := (C39_defined P.gk.kay 2 P.gk.enn P.gk.tee).2 (by omega)
  have hvd : ∃ vd, newVerifierData getG getH P mer = .ok vd ∧ vd.ix = ix ∧ vd.Gs.length = ix.w + 1 := by
    unfold newVerifierData
    rw [hix, Res.ok_bind]
    simp only
    rw [if_neg (by omega)]
    exact ⟨_, rfl, rfl, by simp [computeGenerators]⟩
  obtain ⟨vd, h1, hvix, hGs⟩ := hvd
  rw [h1, Res.ok_bind] at hout
  obtain ⟨-, -, -, hixw⟩ := C39_layout _ _ _ _ _ hix
  have hsk1 : ix.sk1 = 2600 := by
    unfold setIndexes at hix
    simp only at hix
    split at hix
    · rw [← Res.ok.inj hix]; simp [setIndexesNat, JLDIM, PAD_SIZE]
    · cases hix
  have hck : ∃ p, commitKey E inp.sk1 r vd (newProverData rnd0) = .ok p := by
    unfold commitKey
    rw [commitE_total (by rw [hvix, hsk1, hGs, hI.sk1]; omega), Res.ok_bind]
    exact ⟨_, rfl⟩
  obtain ⟨⟨vd1, pd1⟩, h2⟩ := hck
  rw [h2, Res.ok_bind] at hout
  simp only at hout
  have S := init_start getG getH mer rnd0 inp.sk1 r hI.sk1 h1 h2 (by omega)
  have hkay : (P.gk.kay : ℤ) = (setParams 2 n).1 := hstP.kay
  have hdiv : (4 ∣ P.gk.kay ∧ 4 ∣ P.gk.enn) ↔ (4 ∣ (setParams 2 n).1 ∧ 4 ∣ n) := by
    rw [← hkay, hennP]
    constructor <;> rintro ⟨x, y⟩ <;> exact ⟨by omega, y⟩
  have ho := C64_outcomes hE hP hT fresh small hI S (by rw [epk, b1]; exact hpk) hB0
  rw [hdiv] at ho
  constructor
  · intro h4
    rcases ho.1 h4 with ⟨⟨vd2, pd2⟩, hr⟩ | hr
    · rw [hr] at hout
      exact Or.inl ⟨_, hout.symm⟩
    · rw [hr] at hout
      exact Or.inr hout.symm
  · intro h4
    rcases ho.2 h4 with hr | hr
    · rw [hr] at hout
      exact Or.inl hout.symm
    · rw [hr] at hout
      exact Or.inr hout.symm

/-- The number of rows, as an integer function. -/
theorem kOf_int (s : ℤ) : kOf s = ((75 * (254 - s) + 1) / 2 + 1) / 2 := by
  have h : ⌈(37.5 : ℝ) * ((252 + 2 - s : ℤ) : ℝ)⌉ = (75 * (254 - s) + 1) / 2 := by
    rw [Int.ceil_eq_iff]
    obtain ⟨y, hy⟩ : ∃ y : ℤ, y = (75 * (254 - s) + 1) / 2 := ⟨_, rfl⟩
    rw [← hy]
    have h1 : 2 * y ≤ 75 * (254 - s) + 1 := by omega
    have h2 : 75 * (254 - s) ≤ 2 * y := by omega
    have r1 : 2 * (y : ℝ) ≤ 75 * (254 - s) + 1 := by exact_mod_cast h1
    have r2 : 75 * (254 - (s : ℝ)) ≤ 2 * y := by exact_mod_cast h2
    push_cast
    constructor <;> linarith
  unfold kOf
  rw [h]
  omega

/-- The parameters of the program: `log₂(2n) + ln(⌊(2n-1)/2⌋)/2`, rounded up, determines the dimension. -/
theorem setParams_k {n : ℕ} {L : ℤ} (h2 : 2 ≤ n) (hn : n < 2 ^ 30)
    (h1 : (L : ℝ) - 1 < Real.logb 2 ((n * 2 : ℕ) : ℝ) + Real.log (((n * 2 - 1) / 2 : ℕ) : ℝ) / 2)
    (h3 : Real.logb 2 ((n * 2 : ℕ) : ℝ) + Real.log (((n * 2 - 1) / 2 : ℕ) : ℝ) / 2 ≤ L) :
    (setParams 2 n).1 = ((75 * (145 + L) + 1) / 2 + 1) / 2 := by
  obtain ⟨L', K', G, X, hp, hL, hK', -⟩ := setParams_facts n h2 hn
  have e : L' = L := by rw [hL, Int.ceil_eq_iff]; exact ⟨h1, h3⟩
  rw [hp]
  show K' = _
  rw [hK', e, kOf_int]
  congr 3
  ring

theorem logb_pow2 (k : ℕ) : Real.logb 2 ((2 : ℝ) ^ k) = k := by
  rw [← Real.rpow_natCast, Real.logb_rpow (by norm_num) (by norm_num)]

/-- **C66.** The dimension for the number of parties that the program uses if none is given. -/
theorem C66_default_dimension : (setParams 2 512).1 = 2982 := by
  have g1 := Real.log_two_gt_d9
  have g2 := Real.log_two_lt_d9
  have e : Real.logb 2 ((512 * 2 : ℕ) : ℝ) = 10 := by
    rw [show ((512 * 2 : ℕ) : ℝ) = 2 ^ 10 by norm_num, logb_pow2]; norm_num
  have a1 : Real.log (((512 * 2 - 1) / 2 : ℕ) : ℝ) ≤ ((9 : ℕ) : ℝ) * Real.log 2 := by
    rw [← Real.log_pow]
    exact Real.log_le_log (by norm_num) (by norm_num)
  have a2 : 26 * Real.log 2 ≤ 3 * Real.log (((512 * 2 - 1) / 2 : ℕ) : ℝ) := by
    rw [show (26 : ℝ) = ((26 : ℕ) : ℝ) by norm_num, ← Real.log_pow, show (3 : ℝ) = ((3 : ℕ) : ℝ) by norm_num,
      ← Real.log_pow]
    exact Real.log_le_log (by norm_num) (by norm_num)
  rw [setParams_k (n := 512) (L := 14) (by norm_num) (by norm_num)]
  · norm_num
  · rw [e]; push_cast at *; linarith
  · rw [e]; push_cast at *; linarith

/-- **C66.** Two numbers of parties for which the dimension is a multiple of 4. -/
theorem C66_good_dimension : (setParams 2 256).1 = 2944 ∧ (setParams 2 1024).1 = 3000 := by
  have g1 := Real.log_two_gt_d9
  have g2 := Real.log_two_lt_d9
  constructor
  · have e : Real.logb 2 ((256 * 2 : ℕ) : ℝ) = 9 := by
      rw [show ((256 * 2 : ℕ) : ℝ) = 2 ^ 9 by norm_num, logb_pow2]; norm_num
    have a1 : Real.log (((256 * 2 - 1) / 2 : ℕ) : ℝ) ≤ ((8 : ℕ) : ℝ) * Real.log 2 := by
      rw [← Real.log_pow]
      exact Real.log_le_log (by norm_num) (by norm_num)
    have a2 : ((7 : ℕ) : ℝ) * Real.log 2 ≤ Real.log (((256 * 2 - 1) / 2 : ℕ) : ℝ) := by
      rw [← Real.log_pow]
      exact Real.log_le_log (by norm_num) (by norm_num)
    rw [setParams_k (n := 256) (L := 12) (by norm_num) (by norm_num)]
    · norm_num
    · rw [e]; push_cast at *; linarith
    · rw [e]; push_cast at *; linarith
  · have e : Real.logb 2 ((1024 * 2 : ℕ) : ℝ) = 11 := by
      rw [show ((1024 * 2 : ℕ) : ℝ) = 2 ^ 11 by norm_num, logb_pow2]; norm_num
    have a1 : Real.log (((1024 * 2 - 1) / 2 : ℕ) : ℝ) ≤ ((10 : ℕ) : ℝ) * Real.log 2 := by
      rw [← Real.log_pow]
      exact Real.log_le_log (by norm_num) (by norm_num)
    have a2 : ((9 : ℕ) : ℝ) * Real.log 2 ≤ Real.log (((1024 * 2 - 1) / 2 : ℕ) : ℝ) := by
      rw [← Real.log_pow]
      exact Real.log_le_log (by norm_num) (by norm_num)
    rw [setParams_k (n := 1024) (L := 15) (by norm_num) (by norm_num)]
    · norm_num
    · rw [e]; push_cast at *; linarith
    · rw [e]; push_cast at *; linarith

/-- **C66, the default run fails.** With 512 parties, which is what the program uses if no number is given, it
never gets past the five proof functions: for all coins it throws an exception or reads out of bounds.
(The dimension 2982 is not a multiple of 4.) -/
theorem C66_default_run {E : Env (ZMod Regev.P) G} (hE : LengthOk E) (getG getH : ℕ → G)
    (ntlKernel : List (List (ZMod Regev.P)) → List (List (ZMod Regev.P)))
    (hker : ∀ G nr nc, G.length = nr → (∀ r ∈ G, r.length = nc) → GeneratesLeftKernel (ntlKernel G) G nr nc)
    (bounds : GlobalKey Regev.P 2 → List (List (ZMod Regev.P)) → Res (Params Regev.P)) (hb : Precise bounds 512)
    (crs : ℕ → ℕ → Elt (ZMod Regev.P) 2) (C : MainCoins Regev.P) (mer : E.St)
    (rnd0 fresh : Blocks (ZMod Regev.P)) (r : ZMod Regev.P) {tests : ℕ → Tests}
    (hT : ∀ k, NoFalsePrimes (tests k).probPrime) (small : ℕ → SmallRnd Regev.P) :
    let out := mainProve E getG getH ntlKernel bounds Regev.delta (setParams 2 512).1 (512 : ℕ) (setParams 2 512).2.1
      (setParams 2 512).2.2 crs 1 C mer rnd0 fresh r tests small
    out = .throw ∨ out = .ub := by
  intro out
  refine (C66_outcomes hE getG getH ntlKernel hker bounds 512 (by norm_num) (by norm_num) hb crs 1 (by norm_num) C mer
    rnd0 fresh r hT small out rfl).2 ?_
  rw [C66_default_dimension]
  rintro ⟨h, -⟩
  omega

/-- **C66.** With 256 or 1024 parties the program has defined behaviour up to the last of the proof
functions: it succeeds or throws an exception. -/
theorem C66_good_run {E : Env (ZMod Regev.P) G} (hE : LengthOk E) (getG getH : ℕ → G)
    (ntlKernel : List (List (ZMod Regev.P)) → List (List (ZMod Regev.P)))
    (hker : ∀ G nr nc, G.length = nr → (∀ r ∈ G, r.length = nc) → GeneratesLeftKernel (ntlKernel G) G nr nc)
    (bounds : GlobalKey Regev.P 2 → List (List (ZMod Regev.P)) → Res (Params Regev.P)) (n : ℕ)
    (hn : n = 256 ∨ n = 1024) (hb : Precise bounds n)
    (crs : ℕ → ℕ → Elt (ZMod Regev.P) 2) (C : MainCoins Regev.P) (mer : E.St)
    (rnd0 fresh : Blocks (ZMod Regev.P)) (r : ZMod Regev.P) {tests : ℕ → Tests}
    (hT : ∀ k, NoFalsePrimes (tests k).probPrime) (small : ℕ → SmallRnd Regev.P) :
    let out := mainProve E getG getH ntlKernel bounds Regev.delta (setParams 2 n).1 n (setParams 2 n).2.1
      (setParams 2 n).2.2 crs 1 C mer rnd0 fresh r tests small
    (∃ x, out = .ok x) ∨ out = .throw := by
  intro out
  refine (C66_outcomes hE getG getH ntlKernel hker bounds n (by omega) (by omega) hb crs 1 (by omega) C mer
    rnd0 fresh r hT small out rfl).1 ?_
  rcases hn with rfl | rfl
  · rw [C66_good_dimension.1]; norm_num
  · rw [C66_good_dimension.2]; norm_num

/-- The formulas of the constructor are precise enough. -/
example (n : ℕ) (h5 : 5 ≤ n) (hn : n < 2 ^ 30) : Precise (verifierBounds Regev.delta) n := by
  intro gk H hs
  obtain ⟨P, b, m, h1, h2, h3, h4, h5⟩ := C67_model Regev.delta gk H hs h5 hn
  exact ⟨P, h1, h2, h3, h4, b, m, h5⟩

end
end Verif.Props
