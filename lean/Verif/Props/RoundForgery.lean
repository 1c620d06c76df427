/-
C84: what the acceptance of the final proofs of a round does not imply.
-/
import Verif.Props.Norm
import Verif.Props.Soundness
import Verif.Spec.RoundForgery

namespace Verif.Props
open Verif Verif.Spec

section
variable {F G : Type} [Field F] [DecidableEq F] [AddCommGroup G] [Module F G] [DecidableEq G]

omit [DecidableEq G] in
/-- **C84, the verifier's statement.** The statement that main.cpp's verifier uses, flattened by the prover's
object, is the one that it would compute from the public statement itself. -/
theorem C84_statement (E : Env F G) (coinsL coinsQ : ℕ → F × F) (v : ReadyToProve F G)
    (vd : VerifierData F G E.St) (pd : ProverData F) (rtv : ReadyToVerify F G) (merL merQ : E.St)
    (pfL : LinPf F G) (pfQ : QuadPf F G)
    (h : finalProve E coinsL coinsQ v vd pd = .ok (rtv, merL, merQ, pfL, pfQ)) :
    finalStatement E v.toReadyToVerify vd = .ok (rtv, merL, merQ) := by
  unfold finalProve at h
  simp only at h
  obtain ⟨⟨v1, pd1⟩, h1, h⟩ := Res.bind_eq_ok.1 h
  simp only at h
  obtain ⟨⟨v2, pd2⟩, h2, h⟩ := Res.bind_eq_ok.1 h
  simp only at h
  obtain ⟨⟨pL, sL⟩, -, h⟩ := Res.bind_eq_ok.1 h
  simp only at h
  obtain ⟨⟨pQ, sQ⟩, -, h⟩ := Res.bind_eq_ok.1 h
  have := Res.ok.inj h
  simp only [Prod.mk.injEq] at this
  obtain ⟨rfl, rfl, rfl, rfl, rfl⟩ := this
  unfold flattenLinPrv at h1
  split at h1
  · cases h1
  obtain ⟨u1, a1, h1⟩ := Res.bind_eq_ok.1 h1
  obtain ⟨rfl, rfl⟩ := Prod.mk.inj (Res.ok.inj h1)
  unfold flattenQuadPrv at h2
  obtain ⟨u2, a2, h2⟩ := Res.bind_eq_ok.1 h2
  obtain ⟨t, -, h2⟩ := Res.bind_eq_ok.1 h2
  obtain ⟨rfl, rfl⟩ := Prod.mk.inj (Res.ok.inj h2)
  unfold finalStatement
  simp only [a1, Res.ok_bind, a2]

/-- `C58_quadratic_forgery` for a verifier that uses offsets, as the one of main.cpp does. -/
theorem C84_offsets (E : Env F G) (coins : Nat → F × F) (pf : QuadPf F G) (r : F) (st : E.St)
    (as bs oG oH : List F) (gs hs : List G) (n : Nat) (eq : F) (hn1 : 1 < n) (hn2 : n ≤ 2 ^ 63)
    (hnp : ∀ k, n ≠ 2 ^ k) (ha : as.length = n) (hb : bs.length = n) (hg : gs.length = n) (hh : hs.length = n)
    (hoG : oG.length = n) (hoH : oH.length = n)
    (hC : pf.C = r • E.base + (mexp as gs + mexp oG gs) + (mexp bs hs + mexp oH hs)) :
    (0 ∈ forgeChallenges E coins pf.C st gs as hs bs n 1 (eq - dot as bs) ∧
      forgeQuad E coins pf r st gs as hs bs n 1 (eq - dot as bs) = .throw) ∨
    (0 ∉ forgeChallenges E coins pf.C st gs as hs bs n 1 (eq - dot as bs) ∧
      ∃ pf' st', forgeQuad E coins pf r st gs as hs bs n 1 (eq - dot as bs) = .ok (pf', st') ∧ pf'.C = pf.C ∧
        pf'.tag = pf.tag ∧ verifyQuadratic E pf' gs hs n eq st (some oG) (some oH) = .ok (true, st')) := by
  have hnp' : n < next2power n := by
    rw [next2power_eq hn1.le hn2]
    exact lt_of_le_of_ne (log2roundUp_le hn2).2 (hnp _)
  rcases forgeQuad_iff E coins pf r st as bs gs hs n 1 (eq - dot as bs) hn1 hn2 hnp' ha hb hg hh with
    h0 | ⟨h0, out, ho⟩
  · exact Or.inl h0
  rcases forgeQuad_spec E coins pf r st as bs gs hs n 1 (eq - dot as bs) hn1 hn2 hnp' ha hb hg hh with
    ⟨h, -⟩ | ⟨pf', h1, h2, h3, h4, h5, h6, h7⟩
  · rw [h] at ho; cases ho
  · right
    refine ⟨h0, pf', _, h1, h3, h2, ?_⟩
    obtain ⟨b, v1, v2⟩ := verifyQuadratic_eq E pf' gs hs n eq st (some oG) (some oH) hn1.le hn2 hg hh
      (by intro o ho; rw [← Option.some.inj ho]; exact hoG) (by intro o ho; rw [← Option.some.inj ho]; exact hoH)
      h4 h5 h6
    rw [v1, v2.2]
    rw [h7, hC]
    simp only [offList, Option.getD_some, one_mul, add_sub_cancel]
    abel

/-- The flattened statement. -/
theorem finalStatement_ok (E : Env F G) (v : ReadyToVerify F G) (vd : VerifierData F G E.St) (N : ℕ) (hN : 0 < N)
    (hw : N < vd.ix.w) (hG : vd.Gs.length = vd.ix.w + 1) (hH : N ≤ vd.Hs.length)
    (hkeys : ∀ k ∈ keys v.linCnstr.terms, k ≤ vd.ix.w)
    (hidx : v.quadCnstr.indexes = List.range N ++ [vd.ix.w]) (dG dH : ℕ → F)
    (hdG : v.deltaG = tab (List.range N ++ [vd.ix.w]) dG)
    (hdH : v.deltaH = tab (List.range N ++ [vd.ix.w]) dH) :
    finalStatement E v vd = .ok ({ v with
        linGs := (keys v.linCnstr.terms).map fun i => vd.Gs.getD i 0,
        linStmnt := v.linCnstr.terms.map Prod.snd, linCnstr := ⟨[], v.linCnstr.equalsTo⟩,
        quadGs := (List.range N).map (fun i => vd.Gs.getD i 0) ++ [vd.Gs.getD vd.ix.w 0],
        quadHs := (List.range N).map (fun i => vd.Hs.getD i 0) ++ [vd.Hs.getD (N - 1) 0],
        offstG := (List.range N ++ [vd.ix.w]).map dG, offstH := (List.range N ++ [vd.ix.w]).map dH },
      E.processLin vd.mer (str "linear") v.linCnstr, E.processQuad vd.mer (str "quadratic") v.quadCnstr) := by
  have hne : List.range N ≠ [] := by
    intro h
    have := congrArg List.length h
    simp only [List.length_range, List.length_nil] at this
    omega
  have hss : SortedSet (List.range N ++ [vd.ix.w]) := by
    unfold SortedSet
    rw [List.pairwise_append]
    refine ⟨List.pairwise_lt_range, by simp, ?_⟩
    intro a ha b hb
    rw [List.mem_singleton.1 hb]
    have := List.mem_range.1 ha
    omega
  have f2 := flattenQuadLoop_ok vd.Gs vd.Hs vd.ix.w v.deltaG v.deltaH (List.range N) hne
    (fun i h => by have := List.mem_range.1 h; constructor <;> omega)
    (fun i h => by have := List.mem_range.1 h; omega) (by omega) (by simpa using hH)
  have o1 : (List.range N ++ [vd.ix.w]).map (fun i => (mapFind v.deltaG i).getD 0)
      = (List.range N ++ [vd.ix.w]).map dG := by
    apply List.map_congr_left
    intro i hi
    rw [hdG, mapFind_tab hss _ hi]; rfl
  have o2 : (List.range N ++ [vd.ix.w]).map (fun i => (mapFind v.deltaH i).getD 0)
      = (List.range N ++ [vd.ix.w]).map dH := by
    apply List.map_congr_left
    intro i hi
    rw [hdH, mapFind_tab hss _ hi]; rfl
  rw [o1, o2, List.length_range] at f2
  unfold finalStatement flattenLinVer flattenQuadVer
  rw [flattenLinLoop_ok _ _ (fun k hk => by rw [hG]; have := hkeys k hk; omega)]
  simp only [Res.ok_bind]
  rw [hidx, f2]
  rfl

/-- The two final proofs, the quadratic one forged: nothing is assumed about the quadratic statement. -/
theorem final_forged (E : Env F G) (coinsL coinsQ : ℕ → F × F) (v : ReadyToVerify F G)
    (vd : VerifierData F G E.St) (N : ℕ) (hN : 0 < N) (hnp : ∀ k, N + 1 ≠ 2 ^ k) (hw : N < vd.ix.w)
    (hw2 : vd.ix.w < 2 ^ 31) (hG : vd.Gs.length = vd.ix.w + 1) (hH : N ≤ vd.Hs.length)
    (xl dG dH xg xh : ℕ → F) (rL rQ : F) (hts : v.linCnstr.terms ≠ []) (hsort : Sorted v.linCnstr.terms)
    (hkeys : ∀ k ∈ keys v.linCnstr.terms, k ≤ vd.ix.w)
    (hidx : v.quadCnstr.indexes = List.range N ++ [vd.ix.w])
    (hdG : v.deltaG = tab (List.range N ++ [vd.ix.w]) dG)
    (hdH : v.deltaH = tab (List.range N ++ [vd.ix.w]) dH)
    (hlin : LinSat v.linCnstr xl)
    (hlc : v.linCom = rL • E.base
      + ((keys v.linCnstr.terms).map fun i => xl i • vd.Gs.getD i 0).sum)
    (hqc : v.quadCom = rQ • E.base
      + ((List.range N).map fun i => (xg i + dG i) • vd.Gs.getD i 0 + (xh i + dH i) • vd.Hs.getD i 0).sum
      + (xg vd.ix.w + dG vd.ix.w) • vd.Gs.getD vd.ix.w 0
      + (xh vd.ix.w + dH vd.ix.w) • vd.Hs.getD (N - 1) 0) :
    ∃ rtv merL merQ xs as bs, finalStatement E v vd = .ok (rtv, merL, merQ) ∧
      rtv.linCom = v.linCom ∧ rtv.quadCom = v.quadCom ∧
      ((0 ∈ cheatChallenges E coinsL coinsQ rtv merL merQ xs as bs ∧
          cheat E coinsL coinsQ rtv merL merQ rL rQ xs as bs = .throw) ∨
       (0 ∉ cheatChallenges E coinsL coinsQ rtv merL merQ xs as bs ∧
        ∃ pfL pfQ, cheat E coinsL coinsQ rtv merL merQ rL rQ xs as bs = .ok (pfL, pfQ) ∧
          pfL.C = v.linCom ∧ pfQ.C = v.quadCom ∧
          (finalVerifyLin E rtv merL pfL = .ok true ∨
            (finalVerifyLin E rtv merL pfL = .throw ∧ (deriveLin E pfL rtv.linGs.length merL).x = 0)) ∧
          finalVerifyQuad E rtv merQ pfQ = .ok true)) := by
  refine ⟨_, _, _, (keys v.linCnstr.terms).map xl, (List.range N ++ [vd.ix.w]).map xg,
    (List.range N ++ [vd.ix.w]).map xh,
    finalStatement_ok E v vd N hN hw hG hH hkeys hidx dG dH hdG hdH, rfl, rfl, ?_⟩
  obtain ⟨Ig, hIg⟩ : ∃ l, l = (List.range N).map (fun i => vd.Gs.getD i 0) ++ [vd.Gs.getD vd.ix.w 0] :=
    ⟨_, rfl⟩
  obtain ⟨Ih, hIh⟩ : ∃ l, l = (List.range N).map (fun i => vd.Hs.getD i 0)
      ++ [vd.Hs.getD (N - 1) 0] := ⟨_, rfl⟩
  rw [← hIg, ← hIh]
  have lg : Ig.length = N + 1 := by rw [hIg]; simp
  have lh : Ih.length = N + 1 := by rw [hIh]; simp
  have lt : 1 ≤ v.linCnstr.terms.length := List.length_pos_iff.2 hts
  have lk : (keys v.linCnstr.terms).length = v.linCnstr.terms.length := by simp [keys]
  have h63 : (2 : ℕ) ^ 31 ≤ 2 ^ 63 := Nat.pow_le_pow_right (by omega) (by omega)
  have lk2 : v.linCnstr.terms.length ≤ 2 ^ 63 := by
    have h1 : (keys v.linCnstr.terms).length ≤ (List.range (vd.ix.w + 1)).length := by
      apply List.Subperm.length_le
      apply List.subperm_of_subset (nodup_keys hsort)
      intro k hk
      exact List.mem_range.2 (by have := hkeys k hk; omega)
    rw [lk, List.length_range] at h1
    omega
  have n63 : N + 1 ≤ 2 ^ 63 := by omega
  have q := C84_offsets E coinsQ ⟨str "Quadratic", v.quadCom, [], [], 0, 0, 0, 0, 0⟩ rQ
    (E.processQuad vd.mer (str "quadratic") v.quadCnstr) ((List.range N ++ [vd.ix.w]).map xg)
    ((List.range N ++ [vd.ix.w]).map xh) ((List.range N ++ [vd.ix.w]).map dG) ((List.range N ++ [vd.ix.w]).map dH)
    Ig Ih (N + 1) v.quadCnstr.equalsTo (by omega) n63 hnp (by simp) (by simp) lg lh (by simp) (by simp) (by
      have hg' : Ig = (List.range N ++ [vd.ix.w]).map fun i => vd.Gs.getD i 0 := by
        rw [hIg]; simp
      have hh' : ∀ z : ℕ → F, mexp ((List.range N ++ [vd.ix.w]).map z) Ih
          = ((List.range N).map fun i => z i • vd.Hs.getD i 0).sum
            + z vd.ix.w • vd.Hs.getD (N - 1) 0 := by
        intro z
        rw [hIh, List.map_append, mexp_append (by simp), mexp_map]
        simp [mexp]
      simp only
      rw [hqc, hg', mexp_map, mexp_map, hh', hh']
      simp only [List.map_append, List.sum_append, List.map_cons, List.map_nil, List.sum_cons,
        List.sum_nil, add_smul, sum_map_add']
      module)
  have p := C06_linear_prover_total E coinsL
    ⟨str "Linear", v.linCom, [], [], 0, 0, 0⟩ rL
    (E.processLin vd.mer (str "linear") v.linCnstr) ((keys v.linCnstr.terms).map xl)
    (v.linCnstr.terms.map Prod.snd) ((keys v.linCnstr.terms).map fun i => vd.Gs.getD i 0) _ lt lk2
    (by simp [lk]) (by simp) (by simp [lk]) rfl rfl
  simp only at q p
  unfold cheatChallenges cheat
  rw [List.mem_append]
  simp only [List.length_map, lg, lk]
  rcases p with ⟨z1, p1⟩ | ⟨z1, pL, sL, p1, -⟩
  · exact Or.inl ⟨Or.inl z1, by rw [p1]; rfl⟩
  rw [p1]
  simp only [Res.ok_bind]
  rcases q with ⟨z2, p2⟩ | ⟨z2, pQ, sQ, p2, cQ, -, accQ⟩
  · exact Or.inl ⟨Or.inr z2, by rw [p2]; rfl⟩
  refine Or.inr ⟨not_or.2 ⟨z1, z2⟩, pL, pQ, by rw [p2]; rfl, ?_, cQ, ?_, ?_⟩
  · exact ((C10_honest_length E coinsL rL (E.processLin vd.mer (str "linear") v.linCnstr)
      sL ((keys v.linCnstr.terms).map xl) (v.linCnstr.terms.map Prod.snd)
      ((keys v.linCnstr.terms).map fun i => vd.Gs.getD i 0)
      ((keys v.linCnstr.terms).map fun i => vd.Gs.getD i 0) _ lt lk2 (by simp [lk]) (by simp) (by simp [lk])
      (by simp [lk])).1 _ _ rfl rfl p1).2.2.1
  · have key := C07_linear_complete_offsets E coinsL _ pL rL _ sL
      ((keys v.linCnstr.terms).map xl) (v.linCnstr.terms.map Prod.snd)
      ((keys v.linCnstr.terms).map fun i => vd.Gs.getD i 0) _ none lt lk2 (by simp [lk]) (by simp)
      (by simp [lk]) (by simp) rfl rfl (by
        simp only [Option.getD_none, mexp_nil_left, add_zero]
        rw [mexp_map, hlc]) p1
    rw [dot_terms, show (v.linCnstr.terms.map fun p => p.2 * xl p.1).sum = v.linCnstr.equalsTo from hlin]
      at key
    unfold finalVerifyLin
    simp only [List.length_map, lk]
    rw [key]
    by_cases hx : (deriveLin E pL v.linCnstr.terms.length
        (E.processLin vd.mer (str "linear") v.linCnstr)).x = 0
    · right
      rw [if_pos hx]
      exact ⟨rfl, hx⟩
    · left
      rw [if_neg hx]
      rfl
  · unfold finalVerifyQuad
    simp only [lg]
    rw [accQ]
    rfl

/-- **C84, a round can be forged.** Take any values `x`, `y` of the variables, to which the commitments of a round
open: they need satisfy neither the linear constraints of the round nor its norm constraints, and the values
under the G and H generators may differ.  For all good challenges (`GoodChallenges`), there are a commitment to `w` and
a run of the cheating prover, which knows these openings only, whose two final proofs are for the commitments of the
verifier's statement and are both accepted; the prover fails only if a folding challenge is zero, and the linear
verifier may throw, like for an honest proof, if its last challenge is zero. -/
theorem C84_round_forgery (E : Env F G) (tie : List (CompIter F) → ℕ) (coinsL coinsQ : ℕ → F × F)
    (v : ReadyToVerify F G) (vd : VerifierData F G E.St) (kay enn tee : ℕ) (x y : ℕ → F) (rnd : Blocks F)
    (hix : IsLayout vd.ix kay 2 enn tee) (hw2 : vd.ix.w < 2 ^ 31) (hG : vd.Gs.length = vd.ix.w + 1)
    (hH : 260 * 10 ≤ vd.Hs.length) (hne : vd.linConstr ≠ []) (hs : ∀ c ∈ vd.linConstr, Sorted c.terms)
    (hk : ∀ c ∈ vd.linConstr, ∀ k ∈ keys c.terms, k < vd.ix.w)
    (hn : vd.normConstr.length = 10) (hI : NormBlocks vd.normConstr 260)
    (hO : BlocksOpen E.base vd.Gs vd.Hs x y vd.ix kay 2 enn tee vd.com rnd)
    (r1 r2 u rho : F) (st1 st2 st3 st4 : E.St)
    (h1 : E.newChallenge vd.mer (str "aggregateLinear") = (r1, st1))
    (h2 : E.newChallenge st1 (str "aggregateNorms") = (r2, st2))
    (h3 : E.newChallenge st2 (str "enforceNorm") = (u, st3))
    (h4 : E.newChallenge st3 (str "separareLinQuad") = (rho, st4))
    (hC : GoodChallenges vd x r1 r2) :
    ∃ (wCom : G) (v2 rtv : ReadyToVerify F G) (merL merQ : E.St) (rL rQ : F) (xs as bs : List F),
      publicStatement E tie v vd wCom = .ok (v2, st4) ∧
      finalStatement E v2 { vd with mer := st4 } = .ok (rtv, merL, merQ) ∧
      ((0 ∈ cheatChallenges E coinsL coinsQ rtv merL merQ xs as bs ∧
          cheat E coinsL coinsQ rtv merL merQ rL rQ xs as bs = .throw) ∨
       (0 ∉ cheatChallenges E coinsL coinsQ rtv merL merQ xs as bs ∧
        ∃ pfL pfQ, cheat E coinsL coinsQ rtv merL merQ rL rQ xs as bs = .ok (pfL, pfQ) ∧
          pfL.C = rtv.linCom ∧ pfQ.C = rtv.quadCom ∧
          (finalVerifyLin E rtv merL pfL = .ok true ∨
            (finalVerifyLin E rtv merL pfL = .throw ∧ (deriveLin E pfL rtv.linGs.length merL).x = 0)) ∧
          finalVerifyQuad E rtv merQ pfQ = .ok true)) := by
  have hw := layout_w hix
  obtain ⟨t, htd⟩ : ∃ t, t = ((List.range' (260 * 10) (vd.ix.w - 260 * 10)).map fun i =>
    aggCoef vd.linConstr r1 i * x i).sum := ⟨_, rfl⟩
  obtain ⟨v2, bs, a1, a2, a3, a4, a5, a6, a7, a8, a9, a10⟩ := publicStatement_spec E tie v vd
    (t • vd.Gs.getD vd.ix.w 0) r1 r2 u
    rho st1 st2 st3 st4 260 (by omega) h1 h2 h3 h4 hC.r2 hne hs hk hC.last hn hI (by omega) hw2
  have hq := hO.quad hix r2
  have hl := hO.lin hix
  obtain ⟨N, hN⟩ : ∃ N, N = 260 * 10 := ⟨_, rfl⟩
  obtain ⟨w, hwd⟩ : ∃ w, w = vd.ix.w := ⟨_, rfl⟩
  have hvis := hC.visible
  simp only [← hN, ← hwd] at hw hw2 hG hH htd a3 a4 a5 a6 a7 a8 a9 a10 hq hl hvis
  have hlt : ∀ i ∈ List.range N, i ≠ w := by
    intro i hi
    have := List.mem_range.1 hi
    omega
  have hkb : keys (bs ++ [(w, (-1 : F))]) = keys bs ++ [w] := by simp [keys]
  have hbw : ∀ i ∈ keys bs, i ≠ w := fun i hi => by have := a3 i hi; omega
  have hsb : Sorted (bs ++ [(w, (-1 : F))]) := by
    have := mapPut_append bs w (-1 : F) (fun i hi => (a3 i hi).2)
    rw [← this]; exact mapPut_sorted _ a2 _ _
  obtain ⟨xl, hxl⟩ : ∃ xl : ℕ → F, xl = fun i => if i = w then t else x i := ⟨_, rfl⟩
  obtain ⟨xg, hxg⟩ : ∃ xg : ℕ → F, xg = fun i =>
    (if i = w then t else x i * r2 ^ (i / 260)) - coef v2.deltaG i := ⟨_, rfl⟩
  obtain ⟨xh, hxh⟩ : ∃ xh : ℕ → F, xh = fun i =>
    (if i = w then 0 else y i * r2 ^ (i / 260)) - coef v2.deltaH i := ⟨_, rfl⟩
  have htab : ∀ f : ℕ → F, tab (List.range N ++ [w]) f
      = tab (List.range N ++ [w]) (coef (tab (List.range N ++ [w]) f)) := by
    intro f
    apply tab_congr
    intro i hi
    rw [coef_tab_snoc N w (by omega) _ hi]
  have hnp : ∀ k, N + 1 ≠ 2 ^ k := by
    intro k h
    rcases Nat.lt_or_ge k 12 with hk | hk
    · have := Nat.pow_le_pow_right (n := 2) (by omega) (show k ≤ 11 by omega)
      omega
    · have := Nat.pow_le_pow_right (n := 2) (by omega) hk
      omega
  have hacc := final_forged E coinsL coinsQ v2 { vd with mer := st4 }
    N (by omega) hnp (by simp only [← hwd]; omega) (by simp only [← hwd]; omega) (by simp only [← hwd]; exact hG) hH xl
    (coef v2.deltaG) (coef v2.deltaH) xg xh rnd.lins.sum ((List.zipWith (fun a b => b * a) (pows r2 10)
        (List.zipWith (· + ·) rnd.comps rnd.pads)).sum) (by simp only [a5]; simp) (by simp only [a5]; exact hsb) ?_ ?_ ?_ ?_
    ?_ ?_ ?_
  · obtain ⟨rtv, merL, merQ, xs, as, bs', b1, b2, b3, b4⟩ := hacc
    refine ⟨t • vd.Gs.getD w 0, v2, rtv, merL, merQ, rnd.lins.sum, (List.zipWith (fun a b => b * a) (pows r2 10)
        (List.zipWith (· + ·) rnd.comps rnd.pads)).sum, xs, as, bs', ?_, b1, ?_⟩
    · rw [hwd]; exact a1
    · rw [b2, b3]; exact b4
  · simp only [← hwd, a5]
    intro k hk
    rw [hkb] at hk
    rcases List.mem_append.1 hk with hk | hk
    · exact (a3 k hk).2.le
    · exact (List.mem_singleton.1 hk).le
  · simp only [← hwd, a6]
  · simp only [← hwd, a7]; exact htab _
  · simp only [← hwd, a8]; exact htab _
  · -- the linear constraint
    simp only [a5]
    unfold LinSat
    simp only [List.map_append, List.sum_append, List.map_cons, List.map_nil, List.sum_cons,
      List.sum_nil, add_zero]
    rw [hxl]
    simp only [if_true]
    have e : (bs.map fun p => p.2 * if p.1 = w then t else x p.1) = bs.map fun p => p.2 * x p.1 := by
      apply List.map_congr_left
      intro p hp
      have hpk : p.1 ∈ keys bs := List.mem_map.2 ⟨p, hp, rfl⟩
      rw [if_neg (hbw _ hpk)]
    rw [e, sum_eq_coef bs x (List.range' N (w - N)) List.nodup_range' (fun i hi => by
      have := a3 i hi
      rw [List.mem_range'_1]; omega)]
    have e2 : ((List.range' N (w - N)).map fun i => coef bs i * x i).sum = t := by
      rw [htd]
      congr 1
      apply List.map_congr_left
      intro i hi
      rw [List.mem_range'_1] at hi
      rw [a4 i hi.1]
    rw [e2]; ring
  · -- the linear commitment
    simp only [a9, hl, a5, hkb, List.map_append, List.sum_append]
    simp only [List.map_cons, List.map_nil, List.sum_cons, List.sum_nil, add_zero]
    rw [hxl]
    simp only [if_true]
    have e : ((keys bs).map fun i => (if i = w then t else x i) • vd.Gs.getD i 0).sum
        = ((List.range' N (w - N)).map fun i => x i • vd.Gs.getD i 0).sum := by
      have e1 : ((keys bs).map fun i => (if i = w then t else x i) • vd.Gs.getD i 0)
          = (keys bs).map fun i => x i • vd.Gs.getD i 0 := by
        apply List.map_congr_left
        intro i hi
        rw [if_neg (hbw i hi)]
      rw [e1]
      apply sum_subset_zero (nodup_keys a2) List.nodup_range'
      · intro i hi
        have := a3 i hi
        rw [List.mem_range'_1]; omega
      · intro i hi hn
        rw [List.mem_range'_1] at hi
        rcases hvis i (by omega) (by omega) with h | h
        · rw [h, zero_smul]
        · exfalso
          rw [← a4 i hi.1] at h
          exact h (coef_eq_zero _ _ hn)
    rw [e]
    module
  · -- the quadratic commitment
    simp only [a10, hq, ← hwd]
    rw [hxg, hxh]
    simp only [sub_add_cancel, if_true, zero_smul, add_zero]
    have e : ((List.range N).map fun i =>
        (if i = w then t else x i * r2 ^ (i / 260)) • vd.Gs.getD i 0
        + (if i = w then 0 else y i * r2 ^ (i / 260)) • vd.Hs.getD i 0)
        = (List.range N).map fun i => (x i * r2 ^ (i / 260)) • vd.Gs.getD i 0
            + (y i * r2 ^ (i / 260)) • vd.Hs.getD i 0 := by
      apply List.map_congr_left
      intro i hi
      rw [if_neg (hlt i hi), if_neg (hlt i hi)]
    rw [e]

omit [DecidableEq F] [DecidableEq G] in
theorem linLevels_nonzero (E : Env F G) (hE : ∀ b, E.scalarReduce b ≠ 0) (coins : Nat → F × F) (Fg : G) (m : ℕ) :
    ∀ n st k as bs gs, 0 ∉ linLevels E coins Fg m n st k as bs gs := by
  induction m with
  | zero => intros; simp [linLevels]
  | succ m ih =>
    intro n st k as bs gs h
    rw [linLevels] at h
    rcases List.mem_cons.1 h with h | h
    · exact hE _ h.symm
    · exact ih _ _ _ _ _ _ h

omit [DecidableEq F] [DecidableEq G] in
theorem quadLevels_nonzero (E : Env F G) (hE : ∀ b, E.scalarReduce b ≠ 0) (coins : Nat → F × F) (Fg : G) (m : ℕ) :
    ∀ n st k as bs gs hs, 0 ∉ quadLevels E coins Fg m n st k as bs gs hs := by
  induction m with
  | zero => intros; simp [quadLevels]
  | succ m ih =>
    intro n st k as bs gs hs h
    rw [quadLevels] at h
    rcases List.mem_cons.1 h with h | h
    · exact hE _ h.symm
    · exact ih _ _ _ _ _ _ _ h

/-- **C84, acceptance means nothing.** With transcripts that never answer zero, the two proofs of
`C84_round_forgery` exist and are accepted, whatever the committed values are. -/
theorem C84_accepted (E : Env F G) (hE : ∀ b, E.scalarReduce b ≠ 0) (tie : List (CompIter F) → ℕ)
    (v : ReadyToVerify F G) (vd : VerifierData F G E.St) (kay enn tee : ℕ) (x y : ℕ → F) (rnd : Blocks F)
    (hix : IsLayout vd.ix kay 2 enn tee) (hw2 : vd.ix.w < 2 ^ 31) (hG : vd.Gs.length = vd.ix.w + 1)
    (hH : 260 * 10 ≤ vd.Hs.length) (hne : vd.linConstr ≠ []) (hs : ∀ c ∈ vd.linConstr, Sorted c.terms)
    (hk : ∀ c ∈ vd.linConstr, ∀ k ∈ keys c.terms, k < vd.ix.w)
    (hn : vd.normConstr.length = 10) (hI : NormBlocks vd.normConstr 260)
    (hO : BlocksOpen E.base vd.Gs vd.Hs x y vd.ix kay 2 enn tee vd.com rnd)
    (r1 r2 u rho : F) (st1 st2 st3 st4 : E.St)
    (h1 : E.newChallenge vd.mer (str "aggregateLinear") = (r1, st1))
    (h2 : E.newChallenge st1 (str "aggregateNorms") = (r2, st2))
    (h3 : E.newChallenge st2 (str "enforceNorm") = (u, st3))
    (h4 : E.newChallenge st3 (str "separareLinQuad") = (rho, st4))
    (hC : GoodChallenges vd x r1 r2) :
    ∃ (wCom : G) (v2 rtv : ReadyToVerify F G) (merL merQ : E.St) (pfL : LinPf F G) (pfQ : QuadPf F G),
      publicStatement E tie v vd wCom = .ok (v2, st4) ∧
      finalStatement E v2 { vd with mer := st4 } = .ok (rtv, merL, merQ) ∧
      pfL.C = rtv.linCom ∧ pfQ.C = rtv.quadCom ∧
      finalVerifyLin E rtv merL pfL = .ok true ∧ finalVerifyQuad E rtv merQ pfQ = .ok true := by
  obtain ⟨wCom, v2, rtv, merL, merQ, rL, rQ, xs, as, bs, a1, a2, a3⟩ := C84_round_forgery E tie (fun _ => (0, 0))
    (fun _ => (0, 0)) v vd kay enn tee x y rnd hix hw2 hG hH hne hs hk hn hI hO r1 r2 u rho st1 st2 st3 st4 h1 h2 h3 h4 hC
  rcases a3 with ⟨h0, -⟩ | ⟨-, pfL, pfQ, -, b1, b2, b3, b4⟩
  · exfalso
    unfold cheatChallenges at h0
    rcases List.mem_append.1 h0 with h0 | h0
    · exact linLevels_nonzero E hE _ _ _ _ _ _ _ _ _ h0
    · unfold forgeChallenges at h0
      rcases List.mem_cons.1 h0 with h0 | h0
      · exact hE _ h0.symm
      · exact quadLevels_nonzero E hE _ _ _ _ _ _ _ _ _ _ h0
  · refine ⟨wCom, v2, rtv, merL, merQ, pfL, pfQ, a1, a2, b1, b2, ?_, b4⟩
    rcases b3 with b3 | ⟨-, b3⟩
    · exact b3
    · exact absurd b3 (hE _)

omit [DecidableEq F] [DecidableEq G] in
theorem comG_update_out (base : G) (Gs : List G) (x : ℕ → F) (start len : ℕ) (r : F) (j : ℕ) (t : F)
    (h : j < start ∨ start + len ≤ j) :
    comG base Gs (Function.update x j t) start len r = comG base Gs x start len r := by
  unfold comG
  congr 2
  apply List.map_congr_left
  intro i hi
  rw [List.mem_range'_1] at hi
  rw [Function.update_of_ne (by omega)]

omit [DecidableEq F] [DecidableEq G] in
theorem comGH_update_out (base : G) (Gs Hs : List G) (x y : ℕ → F) (start len : ℕ) (r : F) (j : ℕ) (t : F)
    (h : j < start ∨ start + len ≤ j) :
    comGH base Gs Hs (Function.update x j t) y start len r = comGH base Gs Hs x y start len r := by
  unfold comGH
  congr 2
  apply List.map_congr_left
  intro i hi
  rw [List.mem_range'_1] at hi
  rw [Function.update_of_ne (by omega)]

omit [DecidableEq F] [DecidableEq G] in
theorem comG_update_in (base : G) (Gs : List G) (x : ℕ → F) (start len : ℕ) (r : F) (j : ℕ) (t : F)
    (h1 : start ≤ j) (h2 : j < start + len) :
    comG base Gs (Function.update x j (x j + t)) start len r = comG base Gs x start len r + t • Gs.getD j 0 := by
  unfold comG
  rw [add_assoc]
  congr 1
  have key : ∀ L : List ℕ, L.Nodup → j ∈ L →
      (L.map fun i => Function.update x j (x j + t) i • Gs.getD i 0).sum
        = (L.map fun i => x i • Gs.getD i 0).sum + t • Gs.getD j 0 := by
    intro L
    induction L with
    | nil => simp
    | cons a L ih =>
      intro hn hj
      rw [List.nodup_cons] at hn
      simp only [List.map_cons, List.sum_cons]
      rcases List.mem_cons.1 hj with rfl | hj
      · have : (L.map fun i => Function.update x j (x j + t) i • Gs.getD i 0) = L.map fun i => x i • Gs.getD i 0 := by
          apply List.map_congr_left
          intro i hi
          rw [Function.update_of_ne (by rintro rfl; exact hn.1 hi)]
        rw [this, Function.update_self]
        module
      · rw [ih hn.2 hj, Function.update_of_ne (by rintro rfl; exact hn.1 hj)]
        module
  exact key _ List.nodup_range' (List.mem_range'_1.2 ⟨h1, h2⟩)

omit [DecidableEq F] [DecidableEq G] in
/-- Changing one value of the old key changes its commitment only. -/
theorem opens_update {base : G} {Gs Hs : List G} {x y : ℕ → F} {ix : Indexes} {kay enn tee : ℕ}
    {com : Blocks G} {rnd : Blocks F} (h : BlocksOpen base Gs Hs x y ix kay 2 enn tee com rnd)
    (hix : IsLayout ix kay 2 enn tee) (j : ℕ) (t : F) (h1 : ix.sk1 ≤ j) (h2 : j < ix.sk1 + kay * 2) :
    BlocksOpen base Gs Hs (Function.update x j (x j + t)) y ix kay 2 enn tee
      { com with sk1 := com.sk1 + t • Gs.getD j 0 } rnd := by
  have hlo : 2600 ≤ j ∧ (j < ix.sk2 ∨ ix.sk2 + kay * 2 ≤ j) ∧ j < ix.r ∧ j < ix.pt1 ∧ j < ix.pt2 ∧ j < ix.y ∧
      ix.dCompHi + 256 ≤ 2600 ∧ ix.dPadHi + 4 ≤ 2600 ∧ ix.dCompLo + 256 ≤ 2600 ∧ ix.dPadLo + 4 ≤ 2600 ∧
      ix.rComp + 256 ≤ 2600 ∧ ix.rPad + 4 ≤ 2600 ∧ ix.eComp1Hi + 256 ≤ 2600 ∧ ix.ePad1Hi + 4 ≤ 2600 ∧
      ix.eComp1Lo + 256 ≤ 2600 ∧ ix.ePad1Lo + 4 ≤ 2600 ∧ ix.eComp2Hi + 256 ≤ 2600 ∧ ix.ePad2Hi + 4 ≤ 2600 ∧
      ix.eComp2Lo + 256 ≤ 2600 ∧ ix.ePad2Lo + 4 ≤ 2600 ∧ ix.sk2Comp + 256 ≤ 2600 ∧ ix.sk2Pad + 4 ≤ 2600 ∧
      ix.kCompHi + 256 ≤ 2600 ∧ ix.kPadHi + 4 ≤ 2600 ∧ ix.kCompLo + 256 ≤ 2600 ∧ ix.kPadLo + 4 ≤ 2600 := by
    rcases hix with rfl | rfl <;>
      simp only [Indexes.swapSk, setIndexesNat, JLDIM, PAD_SIZE, LINYDIM] at h1 h2 ⊢ <;> omega
  obtain ⟨h0, hsk2, hr, hp1, hp2, hy, b1, b2, b3, b4, b5, b6, b7, b8, b9, b10, b11, b12, b13, b14, b15, b16, b17, b18,
    b19, b20⟩ := hlo
  constructor
  · rw [comGH_update_out _ _ _ _ _ _ _ _ _ _ (by omega)]; exact h.dCompHi
  · rw [comGH_update_out _ _ _ _ _ _ _ _ _ _ (by omega)]; exact h.dPadHi
  · rw [comGH_update_out _ _ _ _ _ _ _ _ _ _ (by omega)]; exact h.dCompLo
  · rw [comGH_update_out _ _ _ _ _ _ _ _ _ _ (by omega)]; exact h.dPadLo
  · rw [comGH_update_out _ _ _ _ _ _ _ _ _ _ (by omega)]; exact h.rComp
  · rw [comGH_update_out _ _ _ _ _ _ _ _ _ _ (by omega)]; exact h.rPad
  · rw [comGH_update_out _ _ _ _ _ _ _ _ _ _ (by omega)]; exact h.eComp1Hi
  · rw [comGH_update_out _ _ _ _ _ _ _ _ _ _ (by omega)]; exact h.ePad1Hi
  · rw [comGH_update_out _ _ _ _ _ _ _ _ _ _ (by omega)]; exact h.eComp1Lo
  · rw [comGH_update_out _ _ _ _ _ _ _ _ _ _ (by omega)]; exact h.ePad1Lo
  · rw [comGH_update_out _ _ _ _ _ _ _ _ _ _ (by omega)]; exact h.eComp2Hi
  · rw [comGH_update_out _ _ _ _ _ _ _ _ _ _ (by omega)]; exact h.ePad2Hi
  · rw [comGH_update_out _ _ _ _ _ _ _ _ _ _ (by omega)]; exact h.eComp2Lo
  · rw [comGH_update_out _ _ _ _ _ _ _ _ _ _ (by omega)]; exact h.ePad2Lo
  · rw [comGH_update_out _ _ _ _ _ _ _ _ _ _ (by omega)]; exact h.sk2Comp
  · rw [comGH_update_out _ _ _ _ _ _ _ _ _ _ (by omega)]; exact h.sk2Pad
  · rw [comGH_update_out _ _ _ _ _ _ _ _ _ _ (by omega)]; exact h.kCompHi
  · rw [comGH_update_out _ _ _ _ _ _ _ _ _ _ (by omega)]; exact h.kPadHi
  · rw [comGH_update_out _ _ _ _ _ _ _ _ _ _ (by omega)]; exact h.kCompLo
  · rw [comGH_update_out _ _ _ _ _ _ _ _ _ _ (by omega)]; exact h.kPadLo
  · rw [comG_update_in _ _ _ _ _ _ _ _ h1 h2, ← h.sk1]
  · rw [comG_update_out _ _ _ _ _ _ _ _ (by omega)]; exact h.sk2
  · rw [comG_update_out _ _ _ _ _ _ _ _ (by omega)]; exact h.r
  · rw [comG_update_out _ _ _ _ _ _ _ _ (by omega)]; exact h.pt1
  · rw [comG_update_out _ _ _ _ _ _ _ _ (by omega)]; exact h.pt2
  · rw [comG_update_out _ _ _ _ _ _ _ _ (by omega)]; exact h.y

/-- **C84, the commitment to the old key must be fixed in advance.** It is not absorbed in the round (`C83_not_bound`).
Take any values to which the commitments of a round open, satisfying nothing, and any challenges of
the aggregation, with `rho ≠ 0` and a value `j` of the old key that occurs in the aggregated constraint.  Then there is a
multiple of `G_j` such that, with this added to the commitment to the old key and nothing else changed, the code of the honest
prover makes final proofs that are accepted.  (This does not use the forgery of C58.) -/
theorem C84_old_key_last (E : Env F G) (tie : List (CompIter F) → ℕ) (coinsL coinsQ : ℕ → F × F)
    (v : ReadyToVerify F G) (vd : VerifierData F G E.St) (kay enn tee : ℕ) (x y : ℕ → F) (rnd : Blocks F)
    (hix : IsLayout vd.ix kay 2 enn tee) (hw2 : vd.ix.w < 2 ^ 31) (hG : vd.Gs.length = vd.ix.w + 1)
    (hH : 260 * 10 ≤ vd.Hs.length) (hne : vd.linConstr ≠ []) (hs : ∀ c ∈ vd.linConstr, Sorted c.terms)
    (hk : ∀ c ∈ vd.linConstr, ∀ k ∈ keys c.terms, k < vd.ix.w)
    (hn : vd.normConstr.length = 10) (hI : NormBlocks vd.normConstr 260)
    (hO : BlocksOpen E.base vd.Gs vd.Hs x y vd.ix kay 2 enn tee vd.com rnd)
    (r1 r2 u rho : F) (st1 st2 st3 st4 : E.St)
    (h1 : E.newChallenge vd.mer (str "aggregateLinear") = (r1, st1))
    (h2 : E.newChallenge st1 (str "aggregateNorms") = (r2, st2))
    (h3 : E.newChallenge st2 (str "enforceNorm") = (u, st3))
    (h4 : E.newChallenge st3 (str "separareLinQuad") = (rho, st4))
    (hC : GoodChallenges vd x r1 r2) (hrho : rho ≠ 0) (j : ℕ) (hj1 : vd.ix.sk1 ≤ j) (hj2 : j < vd.ix.sk1 + kay * 2)
    (hj : aggCoef vd.linConstr r1 j ≠ 0) :
    ∃ (t : F) (wCom : G) (v' : ReadyToProve F G) (pd' : ProverData F) (vd' : VerifierData F G E.St),
      vd' = { vd with com := { vd.com with sk1 := vd.com.sk1 + t • vd.Gs.getD j 0 } } ∧
      publicStatement E tie v vd' wCom = .ok (v'.toReadyToVerify, st4) ∧
      (∀ rtv merL merQ pfL pfQ,
        finalProve E coinsL coinsQ v' { vd' with mer := st4 } pd' = .ok (rtv, merL, merQ, pfL, pfQ) →
        rtv.linCom = v'.linCom ∧ rtv.quadCom = v'.quadCom ∧ pfL.C = v'.linCom ∧ pfQ.C = v'.quadCom ∧
        (finalVerifyLin E rtv merL pfL = .ok true ∨
          (finalVerifyLin E rtv merL pfL = .throw ∧ (deriveLin E pfL rtv.linGs.length merL).x = 0)) ∧
        finalVerifyQuad E rtv merQ pfQ = .ok true) ∧
      ((0 ∈ finalChallenges E coinsL coinsQ v' { vd' with mer := st4 } pd' ∧
        finalProve E coinsL coinsQ v' { vd' with mer := st4 } pd' = .throw) ∨
       (0 ∉ finalChallenges E coinsL coinsQ v' { vd' with mer := st4 } pd' ∧
        ∃ out, finalProve E coinsL coinsQ v' { vd' with mer := st4 } pd' = .ok out)) := by
  have hw := layout_w hix
  have hjr : 260 * 10 ≤ j ∧ j < vd.ix.w := by
    rcases hix with h | h <;> rw [h] at hj1 hj2 ⊢ <;>
      simp only [Indexes.swapSk, setIndexesNat, JLDIM, PAD_SIZE, LINYDIM] at hj1 hj2 ⊢ <;> omega
  -- how the defect depends on the value
  obtain ⟨d, hd⟩ : ∃ d, d = finalDefect vd.linConstr vd.normConstr x y
      ((List.range' (260 * 10) (vd.ix.w - 260 * 10)).map fun i => aggCoef vd.linConstr r1 i * x i).sum
      r1 r2 u rho := ⟨_, rfl⟩
  obtain ⟨t, ht⟩ : ∃ t, t = -d / (rho * aggCoef vd.linConstr r1 j) := ⟨_, rfl⟩
  have hdef : finalDefect vd.linConstr vd.normConstr (Function.update x j (x j + t)) y
      ((List.range' (260 * 10) (vd.ix.w - 260 * 10)).map fun i =>
        aggCoef vd.linConstr r1 i * Function.update x j (x j + t) i).sum r1 r2 u rho = 0 := by
    have e1 : ((List.range' (260 * 10) (vd.ix.w - 260 * 10)).map fun i =>
        aggCoef vd.linConstr r1 i * Function.update x j (x j + t) i).sum
        = ((List.range' (260 * 10) (vd.ix.w - 260 * 10)).map fun i => aggCoef vd.linConstr r1 i * x i).sum
          + aggCoef vd.linConstr r1 j * t := by
      have := comG_update_in (0 : F) ((List.range vd.ix.w).map fun i => aggCoef vd.linConstr r1 i) x (260 * 10)
        (vd.ix.w - 260 * 10) 0 j t hjr.1 (by omega)
      unfold comG at this
      have e : ∀ z : ℕ → F, ((List.range' (260 * 10) (vd.ix.w - 260 * 10)).map fun i =>
          z i • ((List.range vd.ix.w).map fun i => aggCoef vd.linConstr r1 i).getD i 0)
          = (List.range' (260 * 10) (vd.ix.w - 260 * 10)).map fun i => aggCoef vd.linConstr r1 i * z i := by
        intro z
        apply List.map_congr_left
        intro i hi
        rw [List.mem_range'_1] at hi
        rw [List.getD_eq_getElem?_getD, List.getElem?_map, List.getElem?_range (by omega)]
        simp [mul_comm]
      rw [e, e, List.getD_eq_getElem?_getD, List.getElem?_map, List.getElem?_range hjr.2] at this
      simp only [smul_eq_mul, zero_mul, mul_zero, zero_add, Option.map_some, Option.getD_some] at this
      rw [this]
      ring
    have e2 : finalDefect vd.linConstr vd.normConstr (Function.update x j (x j + t)) y
        (((List.range' (260 * 10) (vd.ix.w - 260 * 10)).map fun i => aggCoef vd.linConstr r1 i * x i).sum
          + aggCoef vd.linConstr r1 j * t) r1 r2 u rho = d + rho * (aggCoef vd.linConstr r1 j * t) := by
      rw [hd]
      unfold finalDefect
      have g1 : ((vd.normConstr.zip (pows r2 10)).map fun p =>
          p.2 ^ 2 * quadDefect p.1 (Function.update x j (x j + t)) y)
          = (vd.normConstr.zip (pows r2 10)).map fun p => p.2 ^ 2 * quadDefect p.1 x y := by
        apply List.map_congr_left
        intro p hp
        obtain ⟨k, hk', hpk⟩ := List.getElem_of_mem (List.of_mem_zip hp).1
        have hidx := hI k hk'
        have g : (p.1.indexes.map fun i => Function.update x j (x j + t) i * y i)
            = p.1.indexes.map fun i => x i * y i := by
          apply List.map_congr_left
          intro i hi
          rw [← hpk, hidx, List.mem_range'_1] at hi
          rw [Function.update_of_ne (by omega)]
        unfold quadDefect
        rw [g]
      have g2 : ((List.range (260 * 10)).map fun i =>
          u ^ i * (r2 ^ (i / 260) * (y i - Function.update x j (x j + t) i)))
          = (List.range (260 * 10)).map fun i => u ^ i * (r2 ^ (i / 260) * (y i - x i)) := by
        apply List.map_congr_left
        intro i hi
        have := List.mem_range.1 hi
        rw [Function.update_of_ne (by omega)]
      rw [g1, g2]
      ring
    rw [e1, e2, ht]
    field_simp
    ring
  have hg : GoodChallenges vd (Function.update x j (x j + t)) r1 r2 :=
    ⟨hC.r2, hC.last, fun i h1 h2 => by
      by_cases hij : i = j
      · right; rw [hij]; exact hj
      · rw [Function.update_of_ne hij]; exact hC.visible i h1 h2⟩
  obtain ⟨wCom, v', pd', a1, a2, a3⟩ := C63_acceptance E tie coinsL coinsQ v
    { vd with com := { vd.com with sk1 := vd.com.sk1 + t • vd.Gs.getD j 0 } } kay enn tee
    (Function.update x j (x j + t)) y rnd hix hw2 hG hH hne hs hk hn hI (opens_update hO hix j t hj1 hj2)
    r1 r2 u rho st1 st2 st3 st4 h1 h2 h3 h4 ⟨hg.r2, hg.last, hg.visible⟩ hdef
  exact ⟨t, wCom, v', pd', _, rfl, a1, a2, a3⟩

end

/-- The hypotheses of `C84_round_forgery` and `C84_old_key_last` can be met by values that violate the linear
constraint and all ten norm constraints, and that differ under the G and H generators. -/
theorem toyRound_exists (kay enn tee : ℕ) (hkay : 1 ≤ kay) (hs : (setIndexesNat kay 2 enn tee).w < 2 ^ 31) :
    ∃ (vd : VerifierData ℚ ℚ (toyEnv 2).St) (x y : ℕ → ℚ) (rnd : Blocks ℚ) (st1 st2 st3 st4 : (toyEnv 2).St) (j : ℕ),
      (∀ c ∈ vd.linConstr, ¬ LinSat c x) ∧ (∀ c ∈ vd.normConstr, ¬ QuadSat c x y) ∧ x 3 ≠ y 3 ∧
      IsLayout vd.ix kay 2 enn tee ∧ vd.ix.w < 2 ^ 31 ∧ vd.Gs.length = vd.ix.w + 1 ∧ 260 * 10 ≤ vd.Hs.length ∧
      vd.linConstr ≠ [] ∧ (∀ c ∈ vd.linConstr, Sorted c.terms) ∧
      (∀ c ∈ vd.linConstr, ∀ k ∈ keys c.terms, k < vd.ix.w) ∧ vd.normConstr.length = 10 ∧
      NormBlocks vd.normConstr 260 ∧ BlocksOpen (toyEnv 2).base vd.Gs vd.Hs x y vd.ix kay 2 enn tee vd.com rnd ∧
      (toyEnv 2).newChallenge vd.mer (str "aggregateLinear") = (2, st1) ∧
      (toyEnv 2).newChallenge st1 (str "aggregateNorms") = (2, st2) ∧
      (toyEnv 2).newChallenge st2 (str "enforceNorm") = (2, st3) ∧
      (toyEnv 2).newChallenge st3 (str "separareLinQuad") = (2, st4) ∧
      GoodChallenges vd x 2 2 ∧ vd.ix.sk1 ≤ j ∧ j < vd.ix.sk1 + kay * 2 ∧ aggCoef vd.linConstr (2 : ℚ) j ≠ 0 := by
  obtain ⟨ix, hix⟩ : ∃ ix, ix = setIndexesNat kay 2 enn tee := ⟨_, rfl⟩
  have hw : 260 * 10 + 128 ≤ ix.w := layout_w (Or.inl hix)
  rw [← hix] at hs
  have hsk : ix.sk1 = 2600 := by rw [hix]; rfl
  obtain ⟨x, hx⟩ : ∃ x : ℕ → ℚ, x = fun i => if i = 3 ∨ i = 2600 then 1 else 0 := ⟨_, rfl⟩
  obtain ⟨rnd, hrnd⟩ : ∃ rnd : Blocks ℚ, rnd = ⟨1, 2, 3, 4, 5, 6, 7, 8, 9, 10, 11, 12, 13, 14, 15, 16, 17,
    18, 19, 20, 21, 22, 23, 24, 25, 26, 27⟩ := ⟨_, rfl⟩
  obtain ⟨Gs, hGs⟩ : ∃ Gs : List ℚ, Gs = List.replicate (ix.w + 1) 3 := ⟨_, rfl⟩
  obtain ⟨Hs, hHs⟩ : ∃ Hs : List ℚ, Hs = List.replicate (260 * 10) 5 := ⟨_, rfl⟩
  have hGl : Gs.length = ix.w + 1 := by rw [hGs, List.length_replicate]
  have hHl : Hs.length = 260 * 10 := by rw [hHs, List.length_replicate]
  have hopen := demoCom_open (toyEnv 2).base Gs Hs x (fun _ => 0) ix kay 2 enn tee rnd
  generalize demoCom (toyEnv 2).base Gs Hs x (fun _ => 0) ix kay 2 enn tee rnd = com at hopen
  have h1 : ix.w - 1 ≠ 2600 := by omega
  refine ⟨{ demoVd [] Gs Hs ix com x (fun _ => 3) with linConstr := [⟨[(2600, 1), (ix.w - 1, 1)], 5⟩] }, x,
    fun _ => 0, rnd, _, _, _, _, 2600, ?_, ?_, ?_, Or.inl hix, hs, hGl, hHl.ge, by simp, ?_, ?_,
    by simp [demoVd], ?_, hopen, rfl, rfl, rfl, rfl, ⟨by norm_num, ?_, ?_⟩, hsk.le, ?_, ?_⟩
  · intro c hc
    obtain rfl := List.mem_singleton.1 hc
    have h3 : ix.w - 1 ≠ 3 := by omega
    unfold LinSat
    simp only [List.map_cons, List.map_nil, List.sum_cons, List.sum_nil, hx]
    rw [if_pos (Or.inr trivial), if_neg (by omega)]
    norm_num
  · intro c hc
    simp only [demoVd, List.mem_map] at hc
    obtain ⟨k, -, rfl⟩ := hc
    unfold QuadSat
    simp only [mul_zero]
    rw [List.sum_eq_zero (by intro z hz; obtain ⟨i, -, rfl⟩ := List.mem_map.1 hz; rfl)]
    norm_num
  · simp [hx]
  · intro c hc
    obtain rfl := List.mem_singleton.1 hc
    simp only [Sorted, List.pairwise_cons, List.mem_singleton, forall_eq, List.not_mem_nil,
      List.Pairwise.nil, and_true, false_imp_iff, implies_true]
    omega
  · intro c hc
    obtain rfl := List.mem_singleton.1 hc
    intro k hk
    simp only [keys, List.map_cons, List.map_nil, List.mem_cons, List.not_mem_nil, or_false] at hk
    change k < ix.w
    omega
  · intro k hk
    simp [demoVd]
  · simp only [demoVd, aggCoef, pows, coef]
    simp [h1.symm]
  · intro i hi1 hi2
    by_cases hi : i = 2600
    · right
      simp only [aggCoef, pows, coef, hi]
      simp [h1]
    · left
      rw [hx]
      simp only
      rw [if_neg (by omega)]
  · change 2600 < ix.sk1 + kay * 2
    omega
  · have h2 : ¬ ix.w = 2601 := by omega
    simp [aggCoef, pows, coef, h2]

end Verif.Props
