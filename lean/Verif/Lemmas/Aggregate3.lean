/-
The second verifier step and the prover's part of the aggregation.
-/
import Verif.Lemmas.Aggregate2

namespace Verif
open Verif.Spec

section
variable {F G : Type} [Field F] [DecidableEq F] [AddCommGroup G] [Module F G]

omit [DecidableEq F] [Field F] in
theorem mapPut_append (m : PtxtVec F) (k : ℕ) (s : F) (h : ∀ i ∈ keys m, i < k) :
    mapPut m k s = m ++ [(k, s)] := by
  induction m with
  | nil => rfl
  | cons p m ih =>
    have hp := h p.1 (by simp [keys])
    unfold mapPut
    rw [if_neg (by omega), if_neg (by omega), ih (fun i hi => h i (by
      simp only [keys, List.map_cons, List.mem_cons] at hi ⊢; exact Or.inr hi))]
    rfl

omit [DecidableEq F] in
theorem zipWith_tab_pows {β : Type} (N : ℕ) (a : ℕ → F) (u : F) (f : ℕ × F → F → β) :
    List.zipWith f (tab (List.range N) a) (pows u N)
      = (List.range N).map fun i => f (i, a i) (u ^ i) := by
  unfold tab pows
  rw [List.zipWith_map]
  apply List.ext_getElem
  · simp
  · intro i h1 h2; simp

omit [DecidableEq F] in
theorem dot_tab_pows (N : ℕ) (a : ℕ → F) (u : F) :
    dot ((tab (List.range N) a).map Prod.snd) (pows u N) = ((List.range N).map fun i => a i * u ^ i).sum := by
  unfold dot tab pows
  rw [List.map_map, List.zipWith_map]
  congr 1
  apply List.ext_getElem
  · simp
  · intro i h1 h2; simp

omit [DecidableEq F] in
theorem dot_pows (N : ℕ) (u : F) :
    dot (pows u N) (pows u N) = ((List.range N).map fun i => u ^ i * u ^ i).sum := by
  unfold pows
  exact dot_map _ _ _

/-- Everything about the second verifier step. -/
theorem aggregateVerifier2_spec (E : Env F G) (v : ReadyToVerify F G) (vd : VerifierData F G E.St)
    (N : ℕ) (hN : 1 ≤ N) (hw : N ≤ vd.ix.w) (a : ℕ → F) (Bq u rho : F) (st1 st2 : E.St)
    (hq : v.quadCnstr = ⟨List.range N, Bq⟩) (ha : v.as = tab (List.range N) a)
    (h1 : E.newChallenge vd.mer (str "enforceNorm") = (u, st1))
    (h2 : E.newChallenge st1 (str "separareLinQuad") = (rho, st2)) :
    aggregateVerifier2 E v vd = .ok
      ({ v with
          linCnstr := ⟨v.bs, 0⟩
          quadCnstr := ⟨List.range N ++ [vd.ix.w],
            Bq - ((List.range N).map fun i => u ^ i * u ^ i).sum
              + rho * (v.linCnstr.equalsTo - ((List.range N).map fun i => a i * u ^ i).sum)⟩
          uVec := pows u N
          as := tab (List.range N) (fun i => a i * -rho - u ^ i)
          deltaG := tab (List.range N) (fun i => a i * -rho - u ^ i) ++ [(vd.ix.w, 0)]
          deltaH := tab (List.range N) (fun i => u ^ i) ++ [(vd.ix.w, -rho)] },
        { vd with mer := st2 }) := by
  have hs : Sorted (tab (List.range N) a) := sorted_tab (sortedSet_range N) a
  have hl : (tab (List.range N) a).length = N := by simp [tab]
  unfold aggregateVerifier2
  simp only [h1, h2, hq, ha, List.length_range]
  rw [powerVector_pows u N hN]
  simp only [Res.ok_bind]
  rw [if_neg (by simp [pows_length, hl]), innerProduct_ok (le_refl _) (le_refl _)]
  simp only [Res.ok_bind]
  rw [subtractAU_eq _ _ _ (by simp [pows_length, hl])]
  simp only [Res.ok_bind]
  rw [offsetLoop_eq _ _ _ _ _ (by simp [pows_length, hl]) hs (by simp) (by simp)]
  simp only [Res.ok_bind, List.nil_append]
  rw [zipWith_tab_pows, zipWith_tab_pows, dot_tab_pows, List.take_length, dot_pows,
    setInsert_append _ _ (by intro x hx; have := List.mem_range.1 hx; omega)]
  have hkeys : ∀ (x : ℕ → F), ∀ i ∈ keys ((List.range N).map fun i => (i, x i)), i < vd.ix.w := by
    intro x i hi
    have : i ∈ List.range N := by
      have := keys_tab (List.range N) x
      unfold tab at this
      rwa [this] at hi
    have := List.mem_range.1 this
    omega
  rw [mapPut_append _ _ _ (hkeys _), mapPut_append _ _ _ (hkeys _)]
  rfl

/-- The value of the variable `w`: the part of the aggregated linear constraint over the variables
that are not quadratic. -/
def wValue (cs : List (LinConstraint F)) (r1 : F) (N w : ℕ) (x : ℕ → F) : F :=
  ((List.range' N (w - N)).map fun i => aggCoef cs r1 i * x i).sum

omit [DecidableEq F] in
theorem tab_snoc (I : List ℕ) (w : ℕ) (hw : ∀ i ∈ I, i ≠ w) (x : ℕ → F) (s : F) :
    tab I x ++ [(w, s)] = tab (I ++ [w]) (fun i => if i = w then s else x i) := by
  unfold tab
  rw [List.map_append]
  simp only [List.map_cons, List.map_nil, if_true]
  congr 1
  apply List.map_congr_left
  intro i hi
  rw [if_neg (hw i hi)]

/-- Everything about `aggregateProver` on a witness that covers the variables. -/
theorem aggregateProver_spec (E : Env F G) (tie : List (CompIter F) → ℕ) (wRnd : F)
    (v : ReadyToProve F G) (vd : VerifierData F G E.St) (pd : ProverData F)
    (r1 r2 u rho : F) (st1 st2 st3 st4 : E.St) (B : ℕ) (hB : 0 < B)
    (h1 : E.newChallenge vd.mer (str "aggregateLinear") = (r1, st1))
    (h2 : E.newChallenge st1 (str "aggregateNorms") = (r2, st2))
    (h3 : E.newChallenge st2 (str "enforceNorm") = (u, st3))
    (h4 : E.newChallenge st3 (str "separareLinQuad") = (rho, st4)) (hr2 : r2 ≠ 0)
    (hne : vd.linConstr ≠ []) (hs : ∀ c ∈ vd.linConstr, Sorted c.terms)
    (hk : ∀ c ∈ vd.linConstr, ∀ k ∈ keys c.terms, k < vd.ix.w)
    (hlast : aggCoef vd.linConstr r1 (vd.ix.w - 1) ≠ 0)
    (hn : vd.normConstr.length = 10) (hI : NormBlocks vd.normConstr B) (hw : B * 10 < vd.ix.w)
    (hw2 : vd.ix.w < 2 ^ 31) (hG : vd.Gs.length = vd.ix.w + 1) (x : ℕ → F)
    (hl : pd.linWitness = tab (List.range vd.ix.w) x)
    (hq : pd.quadWitnessG = tab (List.range (B * 10)) x) :
    ∃ v' vd' pd' bs, aggregateProver E tie wRnd v vd pd = .ok (v', vd', pd') ∧
      vd'.Gs = vd.Gs ∧ vd'.Hs = vd.Hs ∧ vd'.ix = vd.ix ∧ vd'.mer = st4 ∧
      Sorted bs ∧ (∀ i ∈ keys bs, B * 10 ≤ i ∧ i < vd.ix.w) ∧
      (∀ i, B * 10 ≤ i → coef bs i = aggCoef vd.linConstr r1 i) ∧
      v'.linCnstr = ⟨bs ++ [(vd.ix.w, -1)], 0⟩ ∧
      pd'.linWitness = tab (keys bs ++ [vd.ix.w])
        (fun i => if i = vd.ix.w then wValue vd.linConstr r1 (B * 10) vd.ix.w x else x i) ∧
      v'.quadCnstr = ⟨List.range (B * 10) ++ [vd.ix.w],
        ((vd.normConstr.zip (pows r2 10)).map fun p => p.2 ^ 2 * p.1.equalsTo).sum
          - ((List.range (B * 10)).map fun i => u ^ i * u ^ i).sum
          + rho * (aggRhs vd.linConstr r1 - ((List.range (B * 10)).map fun i =>
              aggCoef vd.linConstr r1 i * (r2 ^ (i / B))⁻¹ * u ^ i).sum)⟩ ∧
      v'.deltaG = tab (List.range (B * 10) ++ [vd.ix.w]) (fun i => if i = vd.ix.w then 0 else
        aggCoef vd.linConstr r1 i * (r2 ^ (i / B))⁻¹ * -rho - u ^ i) ∧
      v'.deltaH = tab (List.range (B * 10) ++ [vd.ix.w]) (fun i => if i = vd.ix.w then -rho else u ^ i) ∧
      pd'.quadWitnessG = tab (List.range (B * 10) ++ [vd.ix.w]) (fun i => if i = vd.ix.w then
          wValue vd.linConstr r1 (B * 10) vd.ix.w x
        else x i * r2 ^ (i / B) - (aggCoef vd.linConstr r1 i * (r2 ^ (i / B))⁻¹ * -rho - u ^ i)) ∧
      pd'.quadWitnessH = tab (List.range (B * 10) ++ [vd.ix.w]) (fun i => if i = vd.ix.w then rho
        else x i * r2 ^ (i / B) - u ^ i) ∧
      v'.linCom = vd.com.lins.sum + (wRnd • E.base +
        wValue vd.linConstr r1 (B * 10) vd.ix.w x • vd.Gs.getD vd.ix.w 0) ∧
      v'.quadCom = (List.zipWith (· • ·) (pows r2 10)
        (List.zipWith (· + ·) vd.com.comps vd.com.pads)).sum + (wRnd • E.base +
        wValue vd.linConstr r1 (B * 10) vd.ix.w x • vd.Gs.getD vd.ix.w 0) ∧
      v'.lComRnd = pd.rnd.lins.sum + wRnd ∧
      v'.qComRnd = (List.zipWith (fun a b => b * a) (pows r2 10)
        (List.zipWith (· + ·) pd.rnd.comps pd.rnd.pads)).sum + wRnd := by
  obtain ⟨v1, com', a1, a2, a3, a4, a5, a6, a7, a8, a9, a10, a11⟩ := aggregateVerifier1_spec E tie
    v.toReadyToVerify vd r1 r2 st1 st2 B hB h1 h2 hr2 hne hs hk hlast hn hI hw hw2
  obtain ⟨w, hwd⟩ : ∃ w, w = vd.ix.w := ⟨_, rfl⟩
  obtain ⟨qG, q1, q2, q3, q4, -⟩ := mulLoop_spec (pows r2 10) vd.normConstr (by rw [pows_length, hn])
    hI.sorted hI.disjoint (fun i => r2 ^ (i / B))
    (by have := hI.factor hB r2; rwa [hn] at this) pd.quadWitnessG
    (by rw [hq]; exact sorted_tab (sortedSet_range _) _)
  have hmem : ∀ i, (∃ c ∈ vd.normConstr, i ∈ c.indexes) ↔ i < B * 10 := by
    intro i; rw [hI.mem hB, hn]
  have hqG : qG = tab (List.range (B * 10)) (fun i => x i * r2 ^ (i / B)) := by
    rw [map_eq_tab q2]
    have : keys qG = List.range (B * 10) := by
      apply sortedSet_ext (keys_sorted q2) (sortedSet_range _)
      intro i
      rw [q3, hmem, hq, keys_tab, List.mem_range]
      simp
    rw [this]
    apply tab_congr
    intro i hi
    rw [q4 i ((hmem i).2 (List.mem_range.1 hi)), hq, coef_tab (sortedSet_range _) _ _ hi]
  obtain ⟨rnd', k1, k2, k3⟩ := scaleRnds_spec pd.rnd r2
  have hwv : innerProductMap v1.bs pd.linWitness = wValue vd.linConstr r1 (B * 10) vd.ix.w x := by
    rw [Props.C17_value _ _ a7 (by rw [hl]; exact sorted_tab (sortedSet_range _) _),
      sum_eq_coef v1.bs (coef pd.linWitness) (List.range' (B * 10) (vd.ix.w - B * 10))
        (List.nodup_range') (fun i hi => by
          have := a8 i hi
          rw [List.mem_range'_1]; omega)]
    unfold wValue
    congr 1
    apply List.map_congr_left
    intro i hi
    rw [List.mem_range'_1] at hi
    rw [a9 i hi.1, hl, coef_tab (sortedSet_range _) _ _ (by rw [List.mem_range]; omega)]
  obtain ⟨wv, hwvd⟩ : ∃ wv, wv = wValue vd.linConstr r1 (B * 10) vd.ix.w x := ⟨_, rfl⟩
  rw [← hwvd] at hwv
  have hlt : ∀ i ∈ List.range (B * 10), i ≠ vd.ix.w := by
    intro i hi
    have := List.mem_range.1 hi
    omega
  have hlt' : ∀ i ∈ List.range vd.ix.w, i ≠ vd.ix.w := by
    intro i hi
    have := List.mem_range.1 hi
    omega
  have hputq : ∀ (y : ℕ → F) s, mapPut (tab (List.range (B * 10)) y) vd.ix.w s
      = tab (List.range (B * 10) ++ [vd.ix.w]) (fun i => if i = vd.ix.w then s else y i) := by
    intro y s
    rw [mapPut_append _ _ _ (by
      intro i hi
      rw [keys_tab, List.mem_range] at hi; omega), tab_snoc _ _ hlt]
  have hputl : mapPut pd.linWitness vd.ix.w wv
      = tab (List.range vd.ix.w ++ [vd.ix.w]) (fun i => if i = vd.ix.w then wv else x i) := by
    rw [hl, mapPut_append _ _ _ (by
      intro i hi
      rw [keys_tab, List.mem_range] at hi; omega), tab_snoc _ _ hlt']
  have hputb : mapPut v1.bs vd.ix.w (-1) = v1.bs ++ [(vd.ix.w, -1)] :=
    mapPut_append _ _ _ (fun i hi => (a8 i hi).2)
  have hputH : mapPut (tab (List.range (B * 10) ++ [vd.ix.w])
      (fun i => if i = vd.ix.w then wv else x i * r2 ^ (i / B))) vd.ix.w 0
      = tab (List.range (B * 10) ++ [vd.ix.w]) (fun i => if i = vd.ix.w then 0 else x i * r2 ^ (i / B)) := by
    have hss : SortedSet (List.range (B * 10) ++ [vd.ix.w]) := by
      unfold SortedSet
      rw [List.pairwise_append]
      refine ⟨List.pairwise_lt_range, by simp, ?_⟩
      intro a ha b hb
      rw [List.mem_singleton.1 hb]
      have := List.mem_range.1 ha
      omega
    have hso := sorted_tab hss (fun i => if i = vd.ix.w then wv else x i * r2 ^ (i / B))
    have hso' := mapPut_sorted _ hso vd.ix.w (0 : F)
    rw [map_eq_tab hso']
    have hkk : keys (mapPut (tab (List.range (B * 10) ++ [vd.ix.w])
      (fun i => if i = vd.ix.w then wv else x i * r2 ^ (i / B))) vd.ix.w 0)
      = List.range (B * 10) ++ [vd.ix.w] := by
      apply sortedSet_ext (keys_sorted hso') hss
      intro i
      rw [mapPut_keys, keys_tab]
      simp +contextual
    rw [hkk]
    apply tab_congr
    intro i hi
    rw [mapPut_coef _ hso, coef_tab hss _ _ hi]
    split_ifs <;> rfl
  -- the second verifier step
  have hv2 := aggregateVerifier2_spec E
    ({ v1 with linCom := v1.linCom + (wRnd • E.base + wv • vd.Gs.getD vd.ix.w 0),
               quadCom := v1.quadCom + (wRnd • E.base + wv • vd.Gs.getD vd.ix.w 0),
               bs := mapPut v1.bs vd.ix.w (-1) })
    ({ vd with com := { com' with w := wRnd • E.base + wv • vd.Gs.getD vd.ix.w 0 }, mer := st2,
               linConstr := vd.linConstr.map fun _ => ⟨[], 0⟩,
               normConstr := vd.normConstr.map fun _ => ⟨[], 0⟩ })
    (B * 10) (by omega) (by simp only; omega)
    (fun i => aggCoef vd.linConstr r1 i * (r2 ^ (i / B))⁻¹) _ u rho st3 st4 a4 a6 h3 h4
  refine ⟨{
      toReadyToVerify := ({ v1 with
        linCom := v1.linCom + (wRnd • E.base + wv • vd.Gs.getD vd.ix.w 0),
        quadCom := v1.quadCom + (wRnd • E.base + wv • vd.Gs.getD vd.ix.w 0),
        linCnstr := ⟨mapPut v1.bs vd.ix.w (-1), 0⟩,
        quadCnstr := ⟨List.range (B * 10) ++ [vd.ix.w],
        ((vd.normConstr.zip (pows r2 10)).map fun p => p.2 ^ 2 * p.1.equalsTo).sum
          - ((List.range (B * 10)).map fun i => u ^ i * u ^ i).sum
          + rho * (v1.linCnstr.equalsTo - ((List.range (B * 10)).map fun i =>
              aggCoef vd.linConstr r1 i * (r2 ^ (i / B))⁻¹ * u ^ i).sum)⟩,
        rVec := [], uVec := [], as := [], bs := [],
        deltaG := tab (List.range (B * 10)) (fun i =>
          aggCoef vd.linConstr r1 i * (r2 ^ (i / B))⁻¹ * -rho - u ^ i) ++ [(vd.ix.w, 0)],
        deltaH := tab (List.range (B * 10)) (fun i => u ^ i) ++ [(vd.ix.w, -rho)] }),
      lComRnd := rnd'.pt1 + rnd'.sk1 + rnd'.pt2 + rnd'.r + rnd'.sk2 + rnd'.y + wRnd,
      qComRnd := rnd'.dCompHi + rnd'.dCompLo + rnd'.rComp + rnd'.eComp1Hi + rnd'.eComp1Lo
        + rnd'.eComp2Hi + rnd'.eComp2Lo + rnd'.sk2Comp + rnd'.kCompHi + rnd'.kCompLo + wRnd,
      linWtns := v.linWtns, quadWtnsG := v.quadWtnsG, quadWtnsH := v.quadWtnsH },
    { vd with com := { com' with w := wRnd • E.base + wv • vd.Gs.getD vd.ix.w 0 }, mer := st4,
              linConstr := vd.linConstr.map fun _ => ⟨[], 0⟩,
              normConstr := vd.normConstr.map fun _ => ⟨[], 0⟩ },
    { pd with
      rnd := { rnd' with w := wRnd },
      linWitness := tab (keys v1.bs ++ [vd.ix.w]) (fun i => if i = vd.ix.w then wv else x i),
      quadWitnessG := tab (List.range (B * 10) ++ [vd.ix.w]) (fun i => if i = vd.ix.w then wv
        else x i * r2 ^ (i / B) - (aggCoef vd.linConstr r1 i * (r2 ^ (i / B))⁻¹ * -rho - u ^ i)),
      quadWitnessH := tab (List.range (B * 10) ++ [vd.ix.w]) (fun i => if i = vd.ix.w then rho
        else x i * r2 ^ (i / B) - u ^ i) },
    v1.bs, ?_, rfl, rfl, rfl, rfl, a7, a8, a9, ?_, ?_, ?_, ?_, ?_, ?_, rfl, ?_, ?_, ?_, ?_⟩
  · unfold aggregateProver
    rw [a1]
    simp only [Res.ok_bind]
    rw [← a3] at q1 k1
    rw [q1]
    simp only [Res.ok_bind]
    rw [k1]
    simp only [Res.ok_bind]
    rw [if_neg (by rw [hG]; simp), rd_getD (by rw [hG]; omega)]
    simp only [Res.ok_bind]
    rw [hwv, hv2]
    simp only [Res.ok_bind]
    rw [hqG, hputq, hputH, tab_snoc _ _ hlt, tab_snoc _ _ hlt, subLock_tab, subLock_tab]
    simp only [Res.ok_bind]
    rw [hputl, hputb]
    have hss : SortedSet (List.range vd.ix.w ++ [vd.ix.w]) := by
      rw [← List.range_succ]; exact sortedSet_range _
    have hsb : Sorted (v1.bs ++ [(vd.ix.w, -1)]) := by
      rw [← hputb]; exact mapPut_sorted _ a7 _ _
    rw [pruneLoop_eq _ _ (sorted_tab hss _) hsb (by
      intro i hi
      rw [keys_tab, ← List.range_succ, List.mem_range]
      simp only [keys, List.map_append, List.mem_append, List.map_cons, List.map_nil,
        List.mem_singleton] at hi
      rcases hi with hi | hi
      · have := a8 i hi; omega
      · omega)]
    have hkb : keys (v1.bs ++ [(vd.ix.w, -1)]) = keys v1.bs ++ [vd.ix.w] := by simp [keys]
    have e1 : tab (keys (v1.bs ++ [(vd.ix.w, -1)])) (coef (tab (List.range vd.ix.w ++ [vd.ix.w])
        fun i => if i = vd.ix.w then wv else x i))
        = tab (keys v1.bs ++ [vd.ix.w]) (fun i => if i = vd.ix.w then wv else x i) := by
      rw [hkb]
      apply tab_congr
      intro i hi
      rw [coef_tab hss]
      rw [← List.range_succ, List.mem_range]
      rcases List.mem_append.1 hi with hi | hi
      · have := a8 i hi; omega
      · have := List.mem_singleton.1 hi; omega
    rw [e1]
    refine congrArg Res.ok (congrArg₂ Prod.mk rfl (congrArg₂ Prod.mk rfl ?_))
    rw [ProverData.mk.injEq]
    refine ⟨rfl, rfl, rfl, ?_, ?_⟩
    · apply tab_congr
      intro i hi
      split_ifs <;> ring
    · apply tab_congr
      intro i hi
      split_ifs <;> ring
  · rw [← hputb]
  · rw [← hwvd]
  · rw [← a5]
  · exact tab_snoc _ _ hlt _ _
  · exact tab_snoc _ _ hlt _ _
  · rw [← hwvd]
  · simp only
    rw [a10, ← hwvd]
  · simp only
    rw [a11, ← hwvd]
  · rw [← k2]
    simp only [Blocks.lins, List.sum_cons, List.sum_nil]
    ring
  · rw [← k3]
    simp only [Blocks.comps, List.sum_cons, List.sum_nil]
    ring

end
end Verif
