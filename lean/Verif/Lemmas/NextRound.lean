import Verif.Lemmas.Round

namespace Verif
open Spec Regev

section
variable {F G : Type} [Field F] [DecidableEq F] [AddCommGroup G] [Module F G]

omit [DecidableEq F] in
theorem scaleComs_sk2 {com com' : Blocks G} {r : List F} (h : scaleComs com r = .ok com') :
    com'.sk2 = com.sk2 := by
  unfold scaleComs at h
  repeat
    obtain ⟨_, _, h'⟩ := Res.bind_eq_ok.1 h
    clear h
    rename' h' => h
  rw [← Res.ok.inj h]

omit [DecidableEq F] in
theorem scaleRnds_sk2 {rnd rnd' : Blocks F} {r : List F} (h : scaleRnds rnd r = .ok rnd') :
    rnd'.sk2 = rnd.sk2 := by
  unfold scaleRnds at h
  repeat
    obtain ⟨_, _, h'⟩ := Res.bind_eq_ok.1 h
    clear h
    rename' h' => h
  rw [← Res.ok.inj h]

/-- What the first part of the aggregation leaves alone. -/
theorem agg1_frame {E : Env F G} {tie : List (CompIter F) → ℕ} {v v' : ReadyToVerify F G}
    {vd vd' : VerifierData F G E.St} (h : aggregateVerifier1 E tie v vd = .ok (v', vd')) :
    vd'.ix = vd.ix ∧ vd'.Gs = vd.Gs ∧ vd'.Hs = vd.Hs ∧ vd'.com.sk2 = vd.com.sk2 ∧
    vd'.linConstr = vd.linConstr ∧ vd'.normConstr = vd.normConstr := by
  unfold aggregateVerifier1 at h
  simp only at h
  obtain ⟨_, _, h1⟩ := Res.bind_eq_ok.1 h
  obtain ⟨_, _, h2⟩ := Res.bind_eq_ok.1 h1
  obtain ⟨_, _, h3⟩ := Res.bind_eq_ok.1 h2
  obtain ⟨_, _, h4⟩ := Res.bind_eq_ok.1 h3
  obtain ⟨_, _, h5⟩ := Res.bind_eq_ok.1 h4
  split at h5
  · cases h5
  · obtain ⟨com, hc, h6⟩ := Res.bind_eq_ok.1 h5
    obtain ⟨-, e⟩ := Prod.mk.inj (Res.ok.inj h6)
    rw [← e]
    exact ⟨rfl, rfl, rfl, scaleComs_sk2 hc, rfl, rfl⟩

/-- What the second part leaves alone. -/
theorem agg2_frame {E : Env F G} {v v' : ReadyToVerify F G}
    {vd vd' : VerifierData F G E.St} (h : aggregateVerifier2 E v vd = .ok (v', vd')) :
    ∃ st, vd' = { vd with mer := st } := by
  unfold aggregateVerifier2 at h
  simp only at h
  obtain ⟨_, _, h1⟩ := Res.bind_eq_ok.1 h
  split at h1
  · cases h1
  · obtain ⟨_, _, h2⟩ := Res.bind_eq_ok.1 h1
    obtain ⟨_, _, h3⟩ := Res.bind_eq_ok.1 h2
    obtain ⟨_, _, h4⟩ := Res.bind_eq_ok.1 h3
    obtain ⟨-, e⟩ := Prod.mk.inj (Res.ok.inj h4)
    exact ⟨_, e.symm⟩

/-- What the aggregation leaves alone. -/
theorem agg_frame {E : Env F G} {tie : List (CompIter F) → ℕ} {wRnd : F} {v v' : ReadyToProve F G}
    {vd vd' : VerifierData F G E.St} {pd pd' : ProverData F}
    (h : aggregateProver E tie wRnd v vd pd = .ok (v', vd', pd')) :
    vd'.ix = vd.ix ∧ vd'.Gs = vd.Gs ∧ vd'.Hs = vd.Hs ∧ vd'.com.sk2 = vd.com.sk2 ∧
    vd'.linConstr.length = vd.linConstr.length ∧ vd'.normConstr.length = vd.normConstr.length ∧
    pd'.rnd.sk2 = pd.rnd.sk2 ∧ pd'.compressed = pd.compressed := by
  unfold aggregateProver at h
  obtain ⟨⟨v1, vd1⟩, a1, h1⟩ := Res.bind_eq_ok.1 h
  simp only at h1
  obtain ⟨_, _, h2⟩ := Res.bind_eq_ok.1 h1
  obtain ⟨rnd, a3, h3⟩ := Res.bind_eq_ok.1 h2
  split at h3
  · cases h3
  · obtain ⟨_, _, h4⟩ := Res.bind_eq_ok.1 h3
    obtain ⟨⟨v2, vd2⟩, a5, h5⟩ := Res.bind_eq_ok.1 h4
    simp only at h5
    obtain ⟨_, _, h6⟩ := Res.bind_eq_ok.1 h5
    obtain ⟨_, _, h7⟩ := Res.bind_eq_ok.1 h6
    obtain ⟨-, e⟩ := Prod.mk.inj (Res.ok.inj h7)
    obtain ⟨e1, e2⟩ := Prod.mk.inj e
    obtain ⟨b1, b2, b3, b4, b5, b6⟩ := agg1_frame a1
    obtain ⟨st, b7⟩ := agg2_frame a5
    subst e1
    rw [b7, ← e2]
    exact ⟨b1, b2, b3, b4, by simp [b5], by simp [b6], (scaleRnds_sk2 a3 :), rfl⟩

end

section
variable {q : ℕ} [Fact q.Prime] {G : Type} [AddCommGroup G] [Module (ZMod q) G]

theorem flattenLin_pd {St : Type} {v v' : ReadyToProve (ZMod q) G} {vd : VerifierData (ZMod q) G St}
    {pd pd' : ProverData (ZMod q)} (h : flattenLinPrv v vd pd = .ok (v', pd')) :
    pd' = { pd with linWitness := [] } := by
  unfold flattenLinPrv at h
  split at h
  · cases h
  · obtain ⟨_, _, h1⟩ := Res.bind_eq_ok.1 h
    exact (Prod.mk.inj (Res.ok.inj h1)).2.symm

theorem flattenQuad_pd {St : Type} {v v' : ReadyToProve (ZMod q) G} {vd : VerifierData (ZMod q) G St}
    {pd pd' : ProverData (ZMod q)} (h : flattenQuadPrv v vd pd = .ok (v', pd')) :
    pd' = { pd with quadWitnessG := [], quadWitnessH := [] } := by
  unfold flattenQuadPrv at h
  obtain ⟨_, _, h1⟩ := Res.bind_eq_ok.1 h
  obtain ⟨_, _, h2⟩ := Res.bind_eq_ok.1 h1
  exact (Prod.mk.inj (Res.ok.inj h2)).2.symm

theorem swap_layout {ix : Indexes} {kay enn tee : ℕ} (h : IsLayout ix kay 2 enn tee) :
    IsLayout ix.swapSk kay 2 enn tee := by
  rcases h with rfl | rfl
  · exact Or.inr rfl
  · exact Or.inl rfl

theorem norm_empty (cs : List (QuadConstraint (ZMod q))) (k : ℕ) (c : QuadConstraint (ZMod q))
    (h : (cs.map fun _ => (⟨[], 0⟩ : QuadConstraint (ZMod q)))[k]? = some c) : SortedSet c.indexes ∧
    ∀ j ∈ c.indexes, 260 * k ≤ j ∧ j < 260 * k + 260 := by
  rw [List.getElem?_map] at h
  obtain ⟨a, -, rfl⟩ := Option.map_eq_some_iff.1 h
  exact ⟨List.Pairwise.nil, fun j hj => absurd hj List.not_mem_nil⟩

/-- The start of the next round. -/
theorem next_start {E : Env (ZMod q) G} (hE : LengthOk E) {P : Params q} (hP : ParamsOk P)
    {tests : ℕ → Tests} (hT : ∀ k, NoFalsePrimes (tests k).probPrime) {fresh : Blocks (ZMod q)}
    {small : ℕ → SmallRnd q} {inp : RoundInput q} (hI : Honest P inp)
    {vd vd1 vd2 : VerifierData (ZMod q) G E.St} {pd pd1 pd2 : ProverData (ZMod q)}
    (S : Start E P inp.sk1 vd pd)
    (h : proveRound E P fresh tests small inp vd pd = .ok (vd1, pd1))
    {tie : List (CompIter (ZMod q)) → ℕ} {wRnd : ZMod q} {v : ReadyToProve (ZMod q) G}
    (hn : nextRound E tie wRnd v vd1 pd1 = .ok (vd2, pd2)) : Start E P inp.sk2 vd2 pd2 := by
  obtain ⟨-, ⟨-, -, -, -, r⟩, -, S1, i1, g1, f1, c1, -, -⟩ := round_core hE hP hT hI S h _ rfl
  unfold nextRound at hn
  obtain ⟨⟨v', vd3, pd3⟩, a1, h1⟩ := Res.bind_eq_ok.1 hn
  simp only at h1
  obtain ⟨⟨v'', pd4⟩, a2, h2⟩ := Res.bind_eq_ok.1 h1
  simp only at h2
  obtain ⟨⟨v3, pd5⟩, a3, h3⟩ := Res.bind_eq_ok.1 h2
  obtain ⟨e1, e2⟩ := Prod.mk.inj (Res.ok.inj h3)
  obtain ⟨j1, j2, j3, j4, j5, j6, j7, j8⟩ := agg_frame a1
  have k1 := flattenLin_pd a2
  have k2 := flattenQuad_pd a3
  have hL := lay_of S1.layout
  have hgs := S1.gs
  have hd : pd2.linWitness = [] ∧ pd2.quadWitnessG = [] ∧ pd2.compressed = pd1.compressed ∧
      pd2.rnd.sk1 = pd1.rnd.sk2 := by
    rw [← e2, k2, k1]
    exact ⟨rfl, rfl, j8, j7⟩
  have hix : vd2.ix = vd1.ix.swapSk := by rw [← e1, ← j1]; rfl
  have hG : vd2.Gs = vd1.Gs := by rw [← e1, ← j2]; rfl
  have hH : vd2.Hs = vd1.Hs := by rw [← e1, ← j3]; rfl
  have hlin : vd2.linConstr = vd3.linConstr.map fun _ => ⟨[], 0⟩ := by rw [← e1]; rfl
  have hnrm : vd2.normConstr = vd3.normConstr.map fun _ => ⟨[], 0⟩ := by rw [← e1]; rfl
  have hcom : vd2.com.sk1 = vd1.com.sk2 := by rw [← e1, ← j4]; rfl
  have hw : vd2.ix.w = vd1.ix.w := by rw [hix]; rfl
  refine ⟨⟨?_, ?_, ?_, ?_, ?_, ?_, ?_, ?_, ?_, ?_⟩, ?_, ?_, ?_, hI.sk2, ?_⟩
  · rw [hix]; exact swap_layout S1.layout
  · rw [hw]; exact S1.small
  · rw [hw, hG]; exact S1.gs
  · rw [hH]; exact S1.hs
  · rw [hlin, List.length_map, j5]; exact S1.lin
  · rw [hnrm, List.length_map, j6]; exact S1.normLength
  · intro k c hc
    rw [hnrm] at hc
    exact norm_empty _ k c hc
  · rw [hd.2.2.1]; exact S1.compressed
  · rw [hd.1]; exact List.Pairwise.nil
  · rw [hd.2.1]; exact List.Pairwise.nil
  · intro c hc
    rw [hlin] at hc
    obtain ⟨_, _, rfl⟩ := List.mem_map.1 hc
    rfl
  · rw [hd.1]; exact fun k hk => absurd hk List.not_mem_nil
  · rw [hd.2.1]; exact fun k hk => absurd hk List.not_mem_nil
  · have hsk : vd2.ix.sk1 = vd.ix.sk2 := by rw [hix, i1]; rfl
    rw [hcom, hd.2.2.2, c1, hsk, hG, g1]
    unfold comG
    have hlen : vd.ix.sk2 + (coeffs inp.sk2).length ≤ vd.Gs.length := by
      rw [coeffs_length, hI.sk2, ← g1, ← i1, hgs, hL.w]
      rcases hL.sk with ⟨a, b⟩ | ⟨a, b⟩ <;> omega
    rw [mexp_reads _ _ _ r vd.Gs hlen, coeffs_length, hI.sk2]

/-- The state after the constructors and the commitment to the key. -/
theorem init_start {E : Env (ZMod q) G} {P : Params q} (getG getH : ℕ → G) (mer : E.St) (rnd : Blocks (ZMod q))
    (sk : EVec q 2) (r : ZMod q) {vd vd' : VerifierData (ZMod q) G E.St} {pd' : ProverData (ZMod q)}
    (hsk : sk.length = P.gk.kay) (hn : newVerifierData getG getH P mer = .ok vd)
    (h : commitKey E sk r vd (newProverData rnd) = .ok (vd', pd'))
    (ht : P.gk.tee ≤ P.gk.enn + 1) : Start E P sk vd' pd' := by
  unfold newVerifierData at hn
  obtain ⟨ix, a1, h1⟩ := Res.bind_eq_ok.1 hn
  unfold setIndexes at a1
  simp only at a1
  split at a1
  case isFalse => cases a1
  case isTrue hw =>
  have ei := Res.ok.inj a1
  simp only at h1
  split at h1
  · cases h1
  have ev := Res.ok.inj h1
  unfold commitKey at h
  obtain ⟨c, b1, h2⟩ := Res.bind_eq_ok.1 h
  obtain ⟨e1, e2⟩ := Prod.mk.inj (Res.ok.inj h2)
  have hlay : IsLayout ix P.gk.kay 2 P.gk.enn P.gk.tee := Or.inl ei.symm
  have hL := lay_of hlay
  have eG : vd.Gs = (List.range (ix.w + 1)).map getG := by rw [← ev]; rfl
  have eH : vd.Hs = (List.range ix.sk1).map getH ++ [getH ix.w] := by rw [← ev]; rfl
  have eix : vd.ix = ix := by rw [← ev]
  have elin : vd.linConstr = List.replicate (7 * 2 + P.gk.enn + 1 - P.gk.tee) ⟨[], 0⟩ := by rw [← ev]
  have enrm : vd.normConstr = List.replicate 10 ⟨[], 0⟩ := by rw [← ev]
  have hs1 : ix.sk1 = 2600 := by
    rw [← ei]; simp [setIndexesNat, JLDIM, PAD_SIZE]
  have hlen : ix.sk1 + sk.length * 2 ≤ vd.Gs.length := by
    rw [eG, List.length_map, List.length_range, hL.w, hs1, hsk]; omega
  rw [eix, commitE_total hlen] at b1
  have hc := (Res.ok.inj b1).symm
  subst e1 e2
  refine ⟨⟨?_, ?_, ?_, ?_, ?_, ?_, ?_, ?_, ?_, ?_⟩, ?_, ?_, ?_, hsk, ?_⟩
  · simp only [eix]; exact hlay
  · simp only [eix, ← ei]; exact hw
  · simp only [eix, eG, List.length_map, List.length_range]
  · simp only [eH, List.length_append, List.length_map, List.length_range, hs1]; omega
  · simp only [elin, List.length_replicate]; omega
  · simp only [enrm, List.length_replicate]
  · intro k c hc
    simp only [enrm] at hc
    have := List.mem_of_getElem? hc
    rw [List.eq_of_mem_replicate this]
    exact ⟨List.Pairwise.nil, fun j hj => absurd hj List.not_mem_nil⟩
  · simp only [newProverData, List.length_replicate, JLDIM, PAD_SIZE]
  · exact List.Pairwise.nil
  · exact List.Pairwise.nil
  · intro c hc
    simp only [elin] at hc
    exact List.eq_of_mem_replicate hc
  · exact fun k hk => absurd hk List.not_mem_nil
  · exact fun k hk => absurd hk List.not_mem_nil
  · simp only [eix]
    exact hc

theorem start_congr {E : Env (ZMod q) G} {P P' : Params q} {sk : EVec q 2} {vd : VerifierData (ZMod q) G E.St}
    {pd : ProverData (ZMod q)} (h1 : P'.gk.kay = P.gk.kay) (h2 : P'.gk.enn = P.gk.enn)
    (h3 : P'.gk.tee = P.gk.tee) (S : Start E P sk vd pd) : Start E P' sk vd pd := by
  obtain ⟨⟨s1, s2, s3, s4, s5, s6, s7, s8, s9, s10⟩, a, b, c, d, e⟩ := S
  exact ⟨⟨by rw [h1, h2, h3]; exact s1, s2, s3, s4, s5, s6, s7, s8, s9, s10⟩, a, b, c, by rw [h1]; exact d, e⟩

/-- Every reachable state is a good start. -/
theorem reachable_start {E : Env (ZMod q) G} (hE : LengthOk E) {P : Params q} (ht : P.gk.tee ≤ P.gk.enn + 1)
    {sk : EVec q 2} {vd : VerifierData (ZMod q) G E.St} {pd : ProverData (ZMod q)}
    (h : Reachable E P sk vd pd) : Start E P sk vd pd := by
  induction h with
  | start getG getH mer rnd sk r vd vd' pd' hsk hn hc => exact init_start getG getH mer rnd sk r hsk hn hc ht
  | round sk vd vd1 vd2 pd pd1 pd2 fresh tests small inp tie wRnd v P' _ h1 h2 h3 hP hT hI he hr hn ih =>
    have ih' := start_congr h1 h2 h3 ih
    rw [← he] at ih'
    exact start_congr h1.symm h2.symm h3.symm (next_start hE hP hT hI ih' hr hn)

end
end Verif
