/-
C88: what a round of proofs reveals about the secrets of the party that makes it.  The 24 commitments of a
round are uniformly distributed, whatever the secrets, and everything else that is public before the
smallness proof is determined by them; and for a given state after the smallness proof every accepted pair of
final proofs is equally likely, whatever the secrets.  (What the smallness proof reveals is C81.)
-/
import Verif.Lemmas.RoundRecord
import Mathlib.Data.Fintype.EquivFin
import Verif.Lemmas.FinalCoins
import Verif.Props.RoundForgery

namespace Verif.Props
open Spec Regev
open scoped BigOperators

section
variable {q : ℕ} [Fact q.Prime] {G : Type} [AddCommGroup G] [Module (ZMod q) G]

/-- The 24 blocks as a vector. -/
def vec24 {α : Type} (b : Blocks α) : Fin 24 → α :=
  ![b.pt1, b.dCompHi, b.dPadHi, b.dCompLo, b.dPadLo, b.pt2, b.r, b.rComp, b.rPad, b.eComp1Hi, b.ePad1Hi,
    b.eComp1Lo, b.ePad1Lo, b.eComp2Hi, b.ePad2Hi, b.eComp2Lo, b.ePad2Lo, b.sk2, b.sk2Comp, b.sk2Pad, b.kCompHi,
    b.kPadHi, b.kCompLo, b.kPadLo]

/-- A record with the given 24 blocks. -/
def ofVec24 {α : Type} (a : α) (v : Fin 24 → α) : Blocks α :=
  { pt1 := v 0, dCompHi := v 1, dPadHi := v 2, dCompLo := v 3, dPadLo := v 4, pt2 := v 5, r := v 6,
    rComp := v 7, rPad := v 8, eComp1Hi := v 9, ePad1Hi := v 10, eComp1Lo := v 11, ePad1Lo := v 12,
    eComp2Hi := v 13, ePad2Hi := v 14, eComp2Lo := v 15, ePad2Lo := v 16, sk2 := v 17, sk2Comp := v 18,
    sk2Pad := v 19, kCompHi := v 20, kPadHi := v 21, kCompLo := v 22, kPadLo := v 23,
    sk1 := a, y := a, w := a }

theorem vec24_of {α : Type} (a : α) (v : Fin 24 → α) : vec24 (ofVec24 a v) = v := by
  funext i
  fin_cases i <;> rfl

theorem same24_iff {α : Type} (a b : Blocks α) : Same24 a b ↔ vec24 a = vec24 b := by
  unfold Same24
  constructor
  · intro h
    rw [h]
    rfl
  · intro h
    have hpt1 : a.pt1 = b.pt1 := congrFun h 0
    have hdCompHi : a.dCompHi = b.dCompHi := congrFun h 1
    have hdPadHi : a.dPadHi = b.dPadHi := congrFun h 2
    have hdCompLo : a.dCompLo = b.dCompLo := congrFun h 3
    have hdPadLo : a.dPadLo = b.dPadLo := congrFun h 4
    have hpt2 : a.pt2 = b.pt2 := congrFun h 5
    have hr : a.r = b.r := congrFun h 6
    have hrComp : a.rComp = b.rComp := congrFun h 7
    have hrPad : a.rPad = b.rPad := congrFun h 8
    have heComp1Hi : a.eComp1Hi = b.eComp1Hi := congrFun h 9
    have hePad1Hi : a.ePad1Hi = b.ePad1Hi := congrFun h 10
    have heComp1Lo : a.eComp1Lo = b.eComp1Lo := congrFun h 11
    have hePad1Lo : a.ePad1Lo = b.ePad1Lo := congrFun h 12
    have heComp2Hi : a.eComp2Hi = b.eComp2Hi := congrFun h 13
    have hePad2Hi : a.ePad2Hi = b.ePad2Hi := congrFun h 14
    have heComp2Lo : a.eComp2Lo = b.eComp2Lo := congrFun h 15
    have hePad2Lo : a.ePad2Lo = b.ePad2Lo := congrFun h 16
    have hsk2 : a.sk2 = b.sk2 := congrFun h 17
    have hsk2Comp : a.sk2Comp = b.sk2Comp := congrFun h 18
    have hsk2Pad : a.sk2Pad = b.sk2Pad := congrFun h 19
    have hkCompHi : a.kCompHi = b.kCompHi := congrFun h 20
    have hkPadHi : a.kPadHi = b.kPadHi := congrFun h 21
    have hkCompLo : a.kCompLo = b.kCompLo := congrFun h 22
    have hkPadLo : a.kPadLo = b.kPadLo := congrFun h 23
    rw [← hpt1, ← hdCompHi, ← hdPadHi, ← hdCompLo, ← hdPadLo, ← hpt2, ← hr, ← hrComp, ← hrPad, ← heComp1Hi,
      ← hePad1Hi, ← heComp1Lo, ← hePad1Lo, ← heComp2Hi, ← hePad2Hi, ← heComp2Lo, ← hePad2Lo, ← hsk2,
      ← hsk2Comp, ← hsk2Pad, ← hkCompHi, ← hkPadHi, ← hkCompLo, ← hkPadLo]

theorem blocks_finite {α : Type} [Finite α] : Finite (Blocks α) := by
  refine Finite.of_injective (fun b : Blocks α => (vec24 b, b.sk1, b.y, b.w)) fun a b h => ?_
  obtain ⟨h1, h2, h3, h4⟩ : vec24 a = vec24 b ∧ a.sk1 = b.sk1 ∧ a.y = b.y ∧ a.w = b.w := by
    simpa using h
  have e : Same24 a b := (same24_iff a b).2 h1
  unfold Same24 at e
  rw [e, h2, h3, h4]

/-- **C88** (commitments).  A party that proves honestly, with secrets that fit, produces every possible
sequence of 24 commitments, each for exactly one choice of its 24 random scalars: when the scalars are drawn
uniformly, so are the commitments, whatever the secrets. -/
theorem C88_commitments {E : Env (ZMod q) G} (hB : Function.Bijective (fun s : ZMod q => s • E.base))
    (hE : LengthOk E) {P : Params q} (hP : ParamsOk P)
    {tests : ℕ → Tests} (hT : ∀ k, NoFalsePrimes (tests k).probPrime)
    {inp : RoundInput q} (hI : Honest P inp) (hF : FitsAlways P inp)
    {vd : VerifierData (ZMod q) G E.St} {pd : ProverData (ZMod q)} (S : Start E P inp.sk1 vd pd)
    (h4 : 4 ∣ P.gk.kay ∧ 4 ∣ P.gk.enn) (hH : ∀ row ∈ P.H, row.length = 1 + P.gk.enn)
    (hl : 14 + P.H.length ≤ vd.linConstr.length) (com : Blocks G) :
    ∃ rnd : Blocks (ZMod q), ∀ fresh : Blocks (ZMod q),
      (∃ vd' pd', recordRound E P fresh tests inp vd pd = .ok (vd', pd') ∧ Same24 vd'.com com) ↔
        Same24 fresh rnd := by
  classical
  have T := fun f : Blocks (ZMod q) => record_total hE hP hT f hI hF S h4 hH hl
  choose run hrun using T
  let Φ : (Fin 24 → ZMod q) → (Fin 24 → G) := fun v => vec24 (run (ofVec24 0 v)).1.com
  have two : ∀ f f', Same24 (run f).1.com (run f').1.com → Same24 f f' := fun f f' h =>
    (record_two hB.1 (v1 := (run f).1) (p1 := (run f).2) (v2 := (run f').1) (p2 := (run f').2)
      ⟨rfl, rfl, rfl, rfl, rfl, rfl⟩ (hrun f) (hrun f') h).2 rfl rfl
  have inj : Function.Injective Φ := by
    intro v v' h
    have := (same24_iff _ _).1 (two _ _ ((same24_iff _ _).2 h))
    rwa [vec24_of, vec24_of] at this
  have e : (Fin 24 → ZMod q) ≃ (Fin 24 → G) :=
    Equiv.arrowCongr (Equiv.refl _) (Equiv.ofBijective _ hB)
  have sur : Function.Surjective Φ := (Finite.injective_iff_surjective_of_equiv e).1 inj
  obtain ⟨v0, h0⟩ := sur (vec24 com)
  refine ⟨ofVec24 0 v0, fun fresh => ⟨?_, fun h => ⟨_, _, hrun fresh, ?_⟩⟩⟩
  · rintro ⟨vd', pd', h, hc⟩
    have e1 : run fresh = (vd', pd') := by
      have := (hrun fresh).symm.trans h
      injection this
    refine two _ _ ((same24_iff _ _).2 ?_)
    rw [e1]
    exact ((same24_iff _ _).1 hc).trans h0.symm
  · obtain ⟨v, hv⟩ := sur (vec24 (run fresh).1.com)
    have e1 := (same24_iff _ _).1 (two (ofVec24 0 v) fresh ((same24_iff _ _).2 hv))
    have e2 := (same24_iff _ _).1 h
    rw [vec24_of] at e1 e2
    refine (same24_iff _ _).2 ?_
    rw [← hv, ← h0, e1, e2]

/-- **C88** (public state).  Beyond the 24 commitments, what a round makes public before the smallness proof
(constraints, norms, transcript) does not depend on the secrets: two parties with the same public statement
and the same commitments leave the same public state. -/
theorem C88_public {E : Env (ZMod q) G} (hB : Function.Injective (fun s : ZMod q => s • E.base)) {P : Params q}
    {tests tests' : ℕ → Tests} {fresh fresh' : Blocks (ZMod q)} {inp inp' : RoundInput q}
    (hS : SamePublic inp inp') {vd vd1 vd2 : VerifierData (ZMod q) G E.St} {pd pd' pd1 pd2 : ProverData (ZMod q)}
    (h : recordRound E P fresh tests inp vd pd = .ok (vd1, pd1))
    (h' : recordRound E P fresh' tests' inp' vd pd' = .ok (vd2, pd2)) (hc : Same24 vd1.com vd2.com) :
    vd1 = vd2 :=
  (record_two hB hS h h' hc).1

/-- **C88** (hiding).  Take two parties with different secrets but the same public statement, that start from
the same public state.  There is a bijection between their random scalars under which they leave the same
public state: what a round makes public before the smallness proof has the same distribution for both. -/
theorem C88_hiding {E : Env (ZMod q) G} (hB : Function.Bijective (fun s : ZMod q => s • E.base))
    (hE : LengthOk E) {P : Params q} (hP : ParamsOk P)
    {tests tests' : ℕ → Tests} (hT : ∀ k, NoFalsePrimes (tests k).probPrime)
    (hT' : ∀ k, NoFalsePrimes (tests' k).probPrime)
    {inp inp' : RoundInput q} (hS : SamePublic inp inp') (hI : Honest P inp) (hF : FitsAlways P inp)
    (hI' : Honest P inp') (hF' : FitsAlways P inp')
    {vd : VerifierData (ZMod q) G E.St} {pd pd' : ProverData (ZMod q)} (S : Start E P inp.sk1 vd pd)
    (S' : Start E P inp'.sk1 vd pd')
    (h4 : 4 ∣ P.gk.kay ∧ 4 ∣ P.gk.enn) (hH : ∀ row ∈ P.H, row.length = 1 + P.gk.enn)
    (hl : 14 + P.H.length ≤ vd.linConstr.length) :
    ∃ σ : Equiv.Perm (Blocks (ZMod q)), ∀ fresh, ∃ vd1 pd1 pd2,
      recordRound E P fresh tests inp vd pd = .ok (vd1, pd1) ∧
        recordRound E P (σ fresh) tests' inp' vd pd' = .ok (vd1, pd2) := by
  classical
  haveI := blocks_finite (α := ZMod q)
  have T := fun f : Blocks (ZMod q) => record_total hE hP hT f hI hF S h4 hH hl
  choose run hrun using T
  choose inv hinv using C88_commitments hB hE hP hT' hI' hF' S' h4 hH hl
  let g : Blocks (ZMod q) → Blocks (ZMod q) := fun f =>
    { inv (run f).1.com with sk1 := f.sk1, y := f.y, w := f.w }
  have hg : ∀ f, ∃ vd' pd2, recordRound E P (g f) tests' inp' vd pd' = .ok (vd', pd2) ∧
      Same24 vd'.com (run f).1.com := fun f => (hinv (run f).1.com (g f)).2 rfl
  have inj : Function.Injective g := by
    intro f f' h
    obtain ⟨v, p, h1, h2⟩ := hg f
    obtain ⟨v', p', h1', h2'⟩ := hg f'
    rw [h, h1'] at h1
    injection h1 with h1
    injection h1 with h1 _
    subst h1
    have e : Same24 (run f).1.com (run f').1.com :=
      (same24_iff _ _).2 (((same24_iff _ _).1 h2).symm.trans ((same24_iff _ _).1 h2'))
    have e1 : Same24 f f' := (record_two hB.1 (v1 := (run f).1) (p1 := (run f).2) (v2 := (run f').1)
      (p2 := (run f').2) ⟨rfl, rfl, rfl, rfl, rfl, rfl⟩ (hrun f) (hrun f') e).2 rfl rfl
    have a1 : f.sk1 = f'.sk1 := by have x := congrArg Blocks.sk1 h; exact x
    have a2 : f.y = f'.y := by have x := congrArg Blocks.y h; exact x
    have a3 : f.w = f'.w := by have x := congrArg Blocks.w h; exact x
    unfold Same24 at e1
    rw [e1, a1, a2, a3]
  refine ⟨Equiv.ofBijective g (Finite.injective_iff_bijective.1 inj), fun f => ?_⟩
  obtain ⟨v, p, h1, h2⟩ := hg f
  have e := (record_two hB.1 (v1 := (run f).1) (p1 := (run f).2) hS (hrun f) h1
    ((same24_iff _ _).2 ((same24_iff _ _).1 h2).symm)).1
  refine ⟨(run f).1, (run f).2, p, hrun f, ?_⟩
  rw [e]
  exact h1


end

section
variable {F G : Type} [Field F] [DecidableEq F] [AddCommGroup G] [Module F G] [DecidableEq G]

theorem coinSeq_val {k : ℕ} (c : Fin k → F × F) (i : Fin k) : coinSeq c i = c i := by simp [coinSeq]

omit [DecidableEq G] in
/-- The commitment to `w` is a fixed point plus the randomness times the base point. -/
theorem aggregateProver_w (E : Env F G) (tie : List (CompIter F) → ℕ) (v : ReadyToProve F G)
    (vd : VerifierData F G E.St) (pd : ProverData F) :
    ∃ K : G, ∀ wRnd v' vd' pd', aggregateProver E tie wRnd v vd pd = .ok (v', vd', pd') →
      vd'.com.w = wRnd • E.base + K := by
  by_cases hx : ∃ r, aggregateVerifier1 E tie v.toReadyToVerify vd = .ok r
  · obtain ⟨⟨v0, vd0⟩, h0⟩ := hx
    refine ⟨innerProductMap v0.bs pd.linWitness • (match rd vd0.Gs vd0.ix.w with | .ok g => g | _ => 0), ?_⟩
    intro wRnd v' vd' pd' h
    unfold aggregateProver at h
    rw [h0, Res.ok_bind] at h
    simp only at h
    obtain ⟨qG, h2, h⟩ := Res.bind_eq_ok.1 h
    obtain ⟨rnd, h3, h⟩ := Res.bind_eq_ok.1 h
    split at h
    · cases h
    · obtain ⟨wG, h4, h⟩ := Res.bind_eq_ok.1 h
      obtain ⟨⟨v2, vd2⟩, h5, h⟩ := Res.bind_eq_ok.1 h
      simp only at h
      obtain ⟨g, h6, h⟩ := Res.bind_eq_ok.1 h
      obtain ⟨hh, h7, h⟩ := Res.bind_eq_ok.1 h
      have := Res.ok.inj h
      simp only [Prod.mk.injEq] at this
      obtain ⟨rfl, rfl, rfl⟩ := this
      have hf := aggregateVerifier2_frame E _ _ vd0 (by rfl) (by rfl) _ _ h5
      rw [hf.2, h4]
  · refine ⟨0, fun wRnd v' vd' pd' h => absurd ?_ hx⟩
    unfold aggregateProver at h
    obtain ⟨r, h1, -⟩ := Res.bind_eq_ok.1 h
    exact ⟨r, h1⟩

/-- **C88** (final proofs).  Take the state of a round after the smallness proof, with the witnesses of a party
that satisfy it.  For every commitment to `w`, the pairs of final proofs that the party produces are accepted (up
to an exceptional challenge), and every pair of final proofs that the verifier accepts is produced for exactly
one choice of the party's remaining randomness.  So, given the public state, the commitment
to `w` and the accepted proofs have the same distribution for all parties, whatever their witnesses.  (Proofs
in which the last challenge of the quadratic proof is zero are left out: for them see
`C80_quadratic_zero`.) -/
theorem C88_final (E : Env F G) (hB : Function.Bijective (fun s : F => s • E.base))
    (tie : List (CompIter F) → ℕ) (v : ReadyToProve F G)
    (vd : VerifierData F G E.St) (pd : ProverData F) (kay enn tee : ℕ) (x : ℕ → F)
    (hP : Prepared E.base kay enn tee vd pd x) (r1 r2 : F) (st1 st2 : E.St)
    (h1 : E.newChallenge vd.mer (str "aggregateLinear") = (r1, st1))
    (h2 : E.newChallenge st1 (str "aggregateNorms") = (r2, st2))
    (hC : GoodChallenges vd x r1 r2) (wCom : G) :
    ∃ v2 st rtv merL merQ, publicStatement E tie v.toReadyToVerify vd wCom = .ok (v2, st) ∧
      finalStatement E v2 { vd with mer := st } = .ok (rtv, merL, merQ) ∧ rtv.quadGs.length = 2601 ∧
      (∀ wRnd coinsL coinsQ v' vd' pd' rtv' m m' πL πQ,
        aggregateProver E tie wRnd v vd pd = .ok (v', vd', pd') → vd'.com.w = wCom →
        finalProve E coinsL coinsQ v' vd' pd' = .ok (rtv', m, m', πL, πQ) →
        πL.tag = str "Linear" ∧ πQ.tag = str "Quadratic" ∧ πL.C = rtv.linCom ∧ πQ.C = rtv.quadCom ∧
        (finalVerifyLin E rtv merL πL = .ok true ∨
          (finalVerifyLin E rtv merL πL = .throw ∧ (deriveLin E πL rtv.linGs.length merL).x = 0)) ∧
        finalVerifyQuad E rtv merQ πQ = .ok true) ∧
      ∀ (πL : LinPf F G) (πQ : QuadPf F G), πL.tag = str "Linear" → πQ.tag = str "Quadratic" →
        πL.C = rtv.linCom → πQ.C = rtv.quadCom →
        finalVerifyLin E rtv merL πL = .ok true → finalVerifyQuad E rtv merQ πQ = .ok true →
        (deriveQuad E πQ rtv.quadGs.length merQ).x ≠ 0 →
        ∃! p : F × (Fin (log2roundUp rtv.linGs.length + 1) → F × F)
            × (Fin (log2roundUp rtv.quadGs.length + 2) → F × F),
          ∃ v' vd' pd' rtv' m m', aggregateProver E tie p.1 v vd pd = .ok (v', vd', pd') ∧ vd'.com.w = wCom ∧
            finalProve E (coinSeq p.2.1) (coinSeq p.2.2) v' vd' pd' = .ok (rtv', m, m', πL, πQ) := by
  obtain ⟨K, hK⟩ := aggregateProver_w E tie v vd pd
  obtain ⟨wRnd, hwR⟩ := hB.2 (wCom - K)
  simp only at hwR
  obtain ⟨v', vd', pd', a1, a2, a3, a4, a5, a6, a7, a8, a9, a10, a11, a12, a13, a14, a15, a16, a17,
    a18⟩ := C42_aggregation E tie wRnd v vd pd kay enn tee x hP r1 r2 st1 st2 h1 h2 hC
  obtain ⟨v2, b1, b2, b3, b4, b5, b6, b7⟩ := C42_public E tie wRnd v v' vd vd' pd pd' a1
  have hcw : vd'.com.w = wCom := by rw [hK _ _ _ _ a1, hwR]; abel
  rw [hcw] at b1
  have hw := layout_w hP.layout
  have hG := hP.gs
  have hH := hP.hs
  have hs := hP.small
  have hsl : Sorted pd'.linWitness := by
    unfold Sorted
    rw [← List.pairwise_map (f := Prod.fst) (R := (· < ·))]
    change (keys pd'.linWitness).Pairwise (· < ·)
    rw [a8]
    exact keys_sorted a5
  have hss : SortedSet v'.quadCnstr.indexes := by
    rw [a10]
    unfold SortedSet
    rw [List.pairwise_append]
    refine ⟨List.pairwise_lt_range, by simp, ?_⟩
    intro a ha b hb
    rw [List.mem_singleton.1 hb]
    have := List.mem_range.1 ha
    omega
  have htab : ∀ m : PtxtVec F, keys m = v'.quadCnstr.indexes →
      m = tab (List.range (260 * 10) ++ [vd.ix.w]) (coef m) := by
    intro m hm
    have hsm : Sorted m := by
      unfold Sorted
      rw [← List.pairwise_map (f := Prod.fst) (R := (· < ·))]
      change (keys m).Pairwise (· < ·)
      rw [hm]; exact hss
    rw [← a10, ← hm]
    exact map_eq_tab hsm
  have hfs := finalStatement_ok E v2 { vd with mer := vd'.mer } (260 * 10) (by omega) (by simp only; omega) hG hH
    (by rw [← b2]; exact a6) (by rw [← b3]; exact a10) (coef v'.deltaG) (coef v'.deltaH)
    (by rw [← b6]; exact htab _ a13) (by rw [← b7]; exact htab _ a14)
  have lk : (keys v'.linCnstr.terms).length = v'.linCnstr.terms.length := by simp [keys]
  have lL : ((keys v2.linCnstr.terms).map fun i => vd.Gs.getD i 0).length = v'.linCnstr.terms.length := by
    rw [List.length_map, ← b2, lk]
  have lq : ((List.range (260 * 10)).map (fun i => vd.Gs.getD i 0) ++ [vd.Gs.getD vd.ix.w 0]).length = 260 * 10 + 1 := by
    simp
  have lt : 1 ≤ v'.linCnstr.terms.length := List.length_pos_iff.2 a7
  have h63 : (2 : ℕ) ^ 31 ≤ 2 ^ 63 := Nat.pow_le_pow_right (by omega) (by omega)
  have lk2 : v'.linCnstr.terms.length ≤ 2 ^ 63 := by
    have h1 : (keys v'.linCnstr.terms).length ≤ (List.range (vd.ix.w + 1)).length := by
      apply List.Subperm.length_le
      apply List.subperm_of_subset (nodup_keys a5)
      intro k hk
      exact List.mem_range.2 (by have := a6 k hk; omega)
    rw [lk, List.length_range] at h1
    omega
  rw [← a4] at hw hs hG a6 a10 a17 a18 htab
  rw [← a2] at hG a16 a17
  rw [← a3] at hH a17
  have huniq : ∀ {w0 v0 vd0 pd0}, aggregateProver E tie w0 v vd pd = .ok (v0, vd0, pd0) → vd0.com.w = wCom →
      w0 = wRnd ∧ v0 = v' ∧ vd0 = vd' ∧ pd0 = pd' := by
    intro w0 v0 vd0 pd0 c1 c2
    have e0 : w0 = wRnd := by
      apply hB.1
      simp only
      rw [hwR, ← c2, hK _ _ _ _ c1]
      abel
    subst e0
    rw [a1] at c1
    obtain ⟨rfl, rfl, rfl⟩ := by simpa only [Res.ok.injEq, Prod.mk.injEq] using c1
    exact ⟨rfl, rfl, rfl, rfl⟩
  refine ⟨v2, vd'.mer, _, _, _, b1, hfs, lq, ?_, ?_⟩
  · intro w0 coinsL coinsQ v0 vd0 pd0 rtv' m m' πL πQ c1 c2 c3
    obtain ⟨rfl, rfl, rfl, rfl⟩ := huniq c1 c2
    obtain ⟨v9, vd9, pd9, d1, d2, -⟩ := C42_final_proofs E tie coinsL coinsQ w0 v vd pd kay enn tee x hP r1 r2 st1 st2
      h1 h2 hC
    rw [c1] at d1
    obtain ⟨rfl, rfl, rfl⟩ := by simpa only [Res.ok.injEq, Prod.mk.injEq] using d1
    obtain ⟨-, -, d5, d6, d7, d8⟩ := d2 _ _ _ _ _ c3
    rw [finalProve_run E coinsL coinsQ v0 vd0 pd0 (260 * 10) (by omega) (by omega) hG hH
      (coef pd0.linWitness) (coef v0.deltaG) (coef v0.deltaH) (coef pd0.quadWitnessG)
      (coef pd0.quadWitnessH) a6 a10 (by rw [← a8]; exact map_eq_tab hsl) (htab _ a13) (htab _ a14)
      (htab _ a11) (htab _ a12) _ _ rfl rfl] at c3
    obtain ⟨⟨pL, sL⟩, p1, c3⟩ := Res.bind_eq_ok.1 c3
    obtain ⟨⟨pQ, sQ⟩, p2, c3⟩ := Res.bind_eq_ok.1 c3
    have := Res.ok.inj c3
    simp only [Prod.mk.injEq] at this
    obtain ⟨rfl, rfl, rfl, rfl, rfl⟩ := this
    have tL := ((C10_honest_length E coinsL _ _ _ _ _ _ ((keys v0.linCnstr.terms).map fun i => vd0.Gs.getD i 0) _ lt lk2
      (by simp [lk]) (by simp) (by simp [lk]) (by simp [lk])).1 _ _ rfl rfl p1).2.2.2
    have tQ := ((C10_honest_length E coinsQ _ _ _ _ _ _ _ _ (by omega) (by omega) (by simp) (by simp) (by simp)
      (by simp)).2 _ _ rfl rfl p2).2.2.2
    unfold finalVerifyLin at d7 ⊢
    unfold finalVerifyQuad at d8 ⊢
    simp only [← b2, ← b3, ← b4, ← b5, ← a2, ← a3, ← a4]
    rw [List.length_range] at d8
    refine ⟨tL, tQ, d5, d6, d7, ?_⟩
    dsimp only at d8
    exact d8
  intro πL πQ htL htQ hCL hCQ hvL hvQ hxQ
  unfold finalVerifyLin at hvL
  unfold finalVerifyQuad at hvQ
  simp only [← b2, ← b3, ← b4, ← b5, List.length_map, lk] at hCL hCQ hvL hvQ hxQ
  rw [lq] at hvQ hxQ
  obtain ⟨⟨bL, stL⟩, hvL, hbL⟩ := Res.bind_eq_ok.1 hvL
  obtain ⟨⟨bQ, stQ⟩, hvQ, hbQ⟩ := Res.bind_eq_ok.1 hvQ
  obtain rfl : bL = true := Res.ok.inj hbL
  obtain rfl : bQ = true := Res.ok.inj hbQ
  rw [← a2, ← a4] at hvQ
  rw [← a2] at hvL
  rw [← a3] at hvQ
  obtain ⟨csL, csQ, key⟩ := finalProve_coins E hB v' vd' pd' (260 * 10) (by omega) (by omega) hs hG hH
    (coef pd'.linWitness) (coef v'.deltaG) (coef v'.deltaH) (coef pd'.quadWitnessG)
    (coef pd'.quadWitnessH) a7 a5 a6 a10 (by rw [← a8]; exact map_eq_tab hsl) (htab _ a13) (htab _ a14)
    (htab _ a11) (htab _ a12) a9 a15 a16 (by rw [a18, zero_smul, add_zero]; exact a17) πL πQ stL stQ htL htQ hCL hCQ
    hvL hvQ hxQ
  rw [← lL, ← lq] at key
  refine ⟨(wRnd, fun i => csL i, fun i => csQ i), ?_, ?_⟩
  · obtain ⟨rtv', m, m', hf⟩ := (key (coinSeq fun i : Fin (log2roundUp
        ((keys v2.linCnstr.terms).map fun i => vd.Gs.getD i 0).length + 1) => csL i)
      (coinSeq fun i : Fin (log2roundUp ((List.range (260 * 10)).map (fun i => vd.Gs.getD i 0)
        ++ [vd.Gs.getD vd.ix.w 0]).length + 2) => csQ i)).2
      ⟨fun i hi => coinSeq_fin csL i (by omega), fun i hi => coinSeq_fin csQ i (by omega)⟩
    exact ⟨v', vd', pd', rtv', m, m', a1, hcw, hf⟩
  · rintro ⟨w0, cL, cQ⟩ ⟨v0, vd0, pd0, rtv', m, m', c1, c2, c3⟩
    simp only at c1 c3
    obtain ⟨rfl, rfl, rfl, rfl⟩ := huniq c1 c2
    obtain ⟨d1, d2⟩ := (key _ _).1 ⟨_, _, _, c3⟩
    refine Prod.ext rfl (Prod.ext (funext fun i => ?_) (funext fun i => ?_))
    · exact (coinSeq_val cL i).symm.trans (d1 i (Nat.lt_succ_iff.1 i.2))
    · exact (coinSeq_val cQ i).symm.trans (d2 i (Nat.lt_succ_iff.1 i.2))

end
/-! ### Two parties with the same public statement -/

noncomputable section

/-- Another secret key for the same public key and the same ciphertexts. -/
def demoSk' : EVec 10007 2 := [⟨![0, 0]⟩, ⟨![2, -1]⟩, ⟨![0, 1]⟩, ⟨![0, 0]⟩]

/-- A party with other keys than that of `demoInp` and the same public statement. -/
def demoInp' : RoundInput 10007 := { demoInp with sk1 := demoSk', sk2 := demoSk' }

theorem demo_keyfor' : KeyFor demoQ.gk.kay demoQ.gk.A (demoQ.gk.B.getD 1 []) demoSk' demoNoise4 := by
  intro i hi
  have hi' : i < 4 := hi
  have h := demo_keyfor i hi
  refine h.trans ?_
  congr 1
  change (∑ k ∈ Finset.range 4, demoSk.getD k 0 * entry demoA k i) = ∑ k ∈ Finset.range 4, demoSk'.getD k 0 * entry demoA k i
  interval_cases i <;> decide +kernel

theorem demo_decrypts' :
    Decrypts demoQ.delta demoQ.gk.kay demoQ.gk.tee demoCtMat demoCtVec demoPt1 demoSk' demoNoise2 := by
  intro i hi
  have hi' : i < 2 := hi
  have h := demo_decrypts i hi
  refine h.trans ?_
  congr 2
  change (∑ k ∈ Finset.range 4, demoSk.getD k 0 * entry demoCtMat k i) = ∑ k ∈ Finset.range 4, demoSk'.getD k 0 * entry demoCtMat k i
  interval_cases i <;> decide +kernel

theorem demoInp'_honest : Honest demoQ demoInp' :=
  { demoInp_honest with
    sk1 := rfl
    sk2 := rfl
    decrypts := demo_decrypts'
    keyFor := demo_keyfor' }

theorem demo_fits : FitsAlways demoQ demoInp where
  pkNum := by decide
  lagrange := rfl
  decNoise := by decide +kernel
  encRnd := by decide +kernel
  encNoise1 := by decide +kernel
  encNoise2 := by decide +kernel
  sk2 := by decide +kernel
  keyNoise := by decide +kernel

theorem demo_fits' : FitsAlways demoQ demoInp' := { demo_fits with sk2 := by decide +kernel }

theorem demo_samePublic : SamePublic demoInp demoInp' where
  ctMat := rfl
  ctVec := rfl
  ct1 := rfl
  ct2 := rfl
  pkNum := rfl
  lagrange := rfl

theorem demo_keys_differ : demoInp.sk1 ≠ demoInp'.sk1 := by
  intro h
  have h0 : ((demoSk.getD 0 0).c 0 : D) = (demoSk'.getD 0 0).c 0 := congrArg (fun l : EVec 10007 2 => (l.getD 0 0).c 0) h
  revert h0
  decide +kernel

theorem demoE_base : Function.Bijective (fun s : D => s • demoE.base) := by
  have : (fun s : D => s • demoE.base) = id := by
    funext s
    change s * 1 = s
    exact mul_one s
  rw [this]
  exact Function.bijective_id

/-- Both parties at the start of a round, with the same public state: the commitment to the old key opens to
both keys. -/
theorem demo_starts (mer : demoE.St) : ∃ vd pd pd', Start demoE demoQ demoInp.sk1 vd pd ∧
    Start demoE demoQ demoInp'.sk1 vd pd' ∧ 14 + demoQ.H.length ≤ vd.linConstr.length := by
  obtain ⟨vd, vd', pd', h1, h2, h3, h4⟩ := C64_start demoE demoQ (fun i => (3 * i + 1 : ℕ)) (fun i => (5 * i : ℕ))
    mer demoRnd demoSk 55 rfl (by decide) (by decide)
  refine ⟨vd', pd', { pd' with rnd := { pd'.rnd with
    sk1 := vd'.com.sk1 - mexp (coeffs demoSk') (vd'.Gs.drop vd'.ix.sk1) } }, h3, ?_, by rw [h4]; decide⟩
  refine ⟨⟨h3.setup.layout, h3.setup.small, h3.setup.gs, h3.setup.hs, h3.setup.lin, h3.setup.normLength,
    h3.setup.norm, h3.setup.compressed, h3.setup.linWitness, h3.setup.quadWitness⟩, h3.linEmpty, h3.linKeys,
    h3.quadKeys, rfl, ?_⟩
  change vd'.com.sk1 = (vd'.com.sk1 - mexp (coeffs demoSk') (vd'.Gs.drop vd'.ix.sk1)) * 1 +
    mexp (coeffs demoSk') (vd'.Gs.drop vd'.ix.sk1)
  ring

/-- The hypotheses of `C88_hiding` are met by two parties with different keys. -/
example : demoInp.sk1 ≠ demoInp'.sk1 ∧ ∃ (vd : VerifierData D D demoE.St) (pd pd' : ProverData D)
    (σ : Equiv.Perm (Blocks D)), ∀ fresh, ∃ vd1 pd1 pd2,
      recordRound demoE demoQ fresh demoTests demoInp vd pd = .ok (vd1, pd1) ∧
        recordRound demoE demoQ (σ fresh) demoTests demoInp' vd pd' = .ok (vd1, pd2) := by
  refine ⟨demo_keys_differ, ?_⟩
  obtain ⟨vd, pd, pd', S, S', hl⟩ := demo_starts []
  exact ⟨vd, pd, pd', C88_hiding demoE_base demoE_length demoQ_ok demoTests_ok demoTests_ok
    demo_samePublic demoInp_honest demo_fits demoInp'_honest demo_fits' S S' (by decide)
    (by decide +kernel) hl⟩

/-- The hypotheses of `C88_commitments` are met: the commitments can be the numbers 1 to 27. -/
example : ∃ (vd : VerifierData D D demoE.St) (pd : ProverData D) (rnd : Blocks D), ∀ fresh : Blocks D,
    (∃ vd' pd', recordRound demoE demoQ fresh demoTests demoInp vd pd = .ok (vd', pd') ∧ Same24 vd'.com demoRnd) ↔
      Same24 fresh rnd := by
  obtain ⟨vd, pd, -, S, -, hl⟩ := demo_starts []
  exact ⟨vd, pd, C88_commitments demoE_base demoE_length demoQ_ok demoTests_ok demoInp_honest demo_fits S (by decide)
    (by decide +kernel) hl demoRnd⟩

end

/-! ### Final proofs in the toy environment -/

theorem toy_linLevels (coins : ℕ → ℚ × ℚ) (Fg : ℚ) (m : ℕ) : ∀ n st k as bs gs,
    0 ∉ linLevels (toyEnv 2) coins Fg m n st k as bs gs := by
  induction m with
  | zero => intro n st k as bs gs; simp [linLevels]
  | succ m ih =>
    intro n st k as bs gs h
    rcases List.mem_cons.1 h with h | h
    · exact absurd (show (0 : ℚ) = 2 from h) (by norm_num)
    · exact ih _ _ _ _ _ _ h

theorem toy_quadLevels (coins : ℕ → ℚ × ℚ) (Fg : ℚ) (m : ℕ) : ∀ n st k as bs gs hs,
    0 ∉ quadLevels (toyEnv 2) coins Fg m n st k as bs gs hs := by
  induction m with
  | zero => intro n st k as bs gs hs; simp [quadLevels]
  | succ m ih =>
    intro n st k as bs gs hs h
    rcases List.mem_cons.1 h with h | h
    · exact absurd (show (0 : ℚ) = 2 from h) (by norm_num)
    · exact ih _ _ _ _ _ _ _ h

theorem toy_base : Function.Bijective (fun s : ℚ => s • (toyEnv 2).base) := by
  have : (fun s : ℚ => s • (toyEnv 2).base) = id := by
    funext s
    change s * 1 = s
    exact mul_one s
  rw [this]
  exact Function.bijective_id

/-- The hypotheses of `C88_final` are met, and there is an accepted pair of proofs: every layout, a nonzero
witness. -/
example (kay enn tee : ℕ) (hs : (setIndexesNat kay 2 enn tee).w < 2 ^ 31) (v : ReadyToProve ℚ ℚ) :
    ∃ (vd : VerifierData ℚ ℚ (toyEnv 2).St) (pd : ProverData ℚ) (wCom : ℚ) (v2 rtv : ReadyToVerify ℚ ℚ)
      (st merL merQ : (toyEnv 2).St) (πL : LinPf ℚ ℚ) (πQ : QuadPf ℚ ℚ),
      publicStatement (toyEnv 2) (fun _ => 0) v.toReadyToVerify vd wCom = .ok (v2, st) ∧
      finalStatement (toyEnv 2) v2 { vd with mer := st } = .ok (rtv, merL, merQ) ∧
      finalVerifyLin (toyEnv 2) rtv merL πL = .ok true ∧ finalVerifyQuad (toyEnv 2) rtv merQ πQ = .ok true ∧
      ∃! p : ℚ × (Fin (log2roundUp rtv.linGs.length + 1) → ℚ × ℚ) × (Fin (log2roundUp rtv.quadGs.length + 2) → ℚ × ℚ),
        ∃ v' vd' pd' rtv' m m', aggregateProver (toyEnv 2) (fun _ => 0) p.1 v vd pd = .ok (v', vd', pd') ∧
          vd'.com.w = wCom ∧
          finalProve (toyEnv 2) (coinSeq p.2.1) (coinSeq p.2.2) v' vd' pd' = .ok (rtv', m, m', πL, πQ) := by
  obtain ⟨vd, pd, x, r1, r2, st1, st2, hP, h1, h2, hC, -⟩ := toyPrepared_exists kay enn tee hs
  obtain ⟨v', vd', pd', a1, -, a3⟩ := C42_final_proofs (toyEnv 2) (fun _ => 0) (fun i => (i, 3)) (fun i => (4, i)) 5 v vd
    pd kay enn tee x hP r1 r2 st1 st2 h1 h2 hC
  obtain ⟨v2, st, rtv, merL, merQ, b1, b2, -, b4, b5⟩ := C88_final (toyEnv 2) toy_base (fun _ => 0) v vd pd kay enn tee
    x hP r1 r2 st1 st2 h1 h2 hC vd'.com.w
  rcases a3 with ⟨h0, -⟩ | ⟨-, ⟨rtv', m, m', πL, πQ⟩, ho⟩
  · rcases List.mem_append.1 h0 with h0 | h0
    · exact absurd h0 (toy_linLevels _ _ _ _ _ _ _ _ _)
    · exact absurd h0 (toy_quadLevels _ _ _ _ _ _ _ _ _ _)
  · obtain ⟨c1, c2, c3, c4, c5, c6⟩ := b4 _ _ _ _ _ _ _ _ _ _ _ a1 rfl ho
    rcases c5 with c5 | ⟨-, c5⟩
    · exact ⟨vd, pd, vd'.com.w, v2, rtv, st, merL, merQ, πL, πQ, b1, b2, c5, c6,
        b5 πL πQ c1 c2 c3 c4 c5 c6 (show (2 : ℚ) ≠ 0 by norm_num)⟩
    · exact absurd (show (2 : ℚ) = 0 from c5) (by norm_num)

end Verif.Props
