/-
The two final proofs as functions of the coins of their provers: every accepted pair is the output for exactly
one choice of the coins.
-/
import Verif.Lemmas.Final
import Verif.Lemmas.WitnessPerm

namespace Verif
open Verif.Spec

section
variable {F G : Type} [Field F] [DecidableEq F] [AddCommGroup G] [Module F G] [DecidableEq G]

/-- What acceptance of a linear proof means. -/
theorem linear_accepted (E : Env F G) (π : LinPf F G) (bs : List F) (gs : List G) (n : ℕ) (eq : F) (st st' : E.St)
    (hn1 : 1 ≤ n) (hn2 : n ≤ 2 ^ 63) (hb : bs.length = n) (hg : gs.length = n)
    (h : verifyLinear E π bs gs n eq st none = .ok (true, st')) :
    π.Ls.length = log2roundUp n ∧ π.Rs.length = log2roundUp n ∧ 0 ∉ (deriveLin E π n st).xs ∧
      LinEq E π bs gs eq [] (deriveLin E π n st) := by
  have hlen : ¬(π.Ls.length ≠ log2roundUp n ∨ π.Rs.length ≠ log2roundUp n) := by
    intro h'
    rw [verifyLinear_len E π _ _ _ _ _ _ h'] at h
    cases h
  push Not at hlen
  obtain ⟨hz, hnz⟩ := Props.C11_linear_verifier E π bs gs n eq st none hn1 hn2 hb hg (by simp) hlen.1 hlen.2
  by_cases h0 : 0 ∈ (deriveLin E π n st).xs ∨ (deriveLin E π n st).x = 0
  · rw [hz h0] at h; cases h
  · obtain ⟨b, hb1, hb2⟩ := hnz h0
    rw [h] at hb1
    have : true = b := congrArg Prod.fst (Res.ok.inj hb1)
    push Not at h0
    exact ⟨hlen.1, hlen.2, h0.1, hb2.1 this.symm⟩

/-- What acceptance of a quadratic proof means. -/
theorem quadratic_accepted (E : Env F G) (π : QuadPf F G) (gs hs : List G) (n : ℕ) (eq : F) (st st' : E.St)
    (uoff voff : List F) (hn1 : 1 ≤ n) (hn2 : n ≤ 2 ^ 63) (hg : gs.length = n) (hh : hs.length = n)
    (hu : uoff.length = n) (hv : voff.length = n)
    (h : verifyQuadratic E π gs hs n eq st (some uoff) (some voff) = .ok (true, st')) :
    π.Ls.length = log2roundUp n ∧ π.Rs.length = log2roundUp n ∧ 0 ∉ (deriveQuad E π n st).xs ∧
      QuadEq E π gs hs eq uoff voff (deriveQuad E π n st) := by
  have hlen : ¬(π.Ls.length ≠ log2roundUp n ∨ π.Rs.length ≠ log2roundUp n) := by
    intro h'
    rw [verifyQuadratic_len E π _ _ _ _ _ _ _ h'] at h
    cases h
  push Not at hlen
  obtain ⟨hz, hnz⟩ := Props.C11_quadratic_verifier E π gs hs n eq st (some uoff) (some voff) hn1 hn2 hg hh
    (by intro o ho; rw [← Option.some.inj ho]; exact hu) (by intro o ho; rw [← Option.some.inj ho]; exact hv)
    hlen.1 hlen.2
  by_cases h0 : 0 ∈ (deriveQuad E π n st).xs
  · rw [hz h0] at h; cases h
  · obtain ⟨b, hb1, hb2⟩ := hnz h0
    rw [h] at hb1
    have : true = b := congrArg Prod.fst (Res.ok.inj hb1)
    exact ⟨hlen.1, hlen.2, h0, hb2.1 this.symm⟩

/-- The provers' output determines their final transcript. -/
theorem proveLinear_out (E : Env F G) (coins : ℕ → F × F) (pf π : LinPf F G) (r : F) (st : E.St)
    (as bs : List F) (gs : List G) (n : ℕ) (hn1 : 1 ≤ n) (hn2 : n ≤ 2 ^ 63) (ha : as.length = n)
    (hb : bs.length = n) (hg : gs.length = n) (hL : pf.Ls = []) (hR : pf.Rs = []) :
    (∃ s, proveLinear E coins pf r st as bs gs n = .ok (π, s)) ↔
      proveLinear E coins pf r st as bs gs n = .ok (π, (deriveLin E π n st).st) := by
  refine ⟨?_, fun h => ⟨_, h⟩⟩
  rintro ⟨s, h⟩
  rcases proveLinear_spec E coins pf r st as bs gs n hn1 hn2 ha hb hg hL hR with ⟨ht, -⟩ | ⟨q, hq, -⟩
  · rw [h] at ht; cases ht
  · rw [h] at hq
    obtain ⟨rfl, rfl⟩ := Prod.mk.inj (Res.ok.inj hq)
    exact h

theorem proveQuadratic_out (E : Env F G) (coins : ℕ → F × F) (pf π : QuadPf F G) (r : F) (st : E.St)
    (as bs : List F) (gs hs : List G) (n : ℕ) (hn1 : 1 ≤ n) (hn2 : n ≤ 2 ^ 63) (ha : as.length = n)
    (hb : bs.length = n) (hg : gs.length = n) (hh : hs.length = n) (hL : pf.Ls = []) (hR : pf.Rs = []) :
    (∃ s, proveQuadratic E coins pf r st gs as hs bs n = .ok (π, s)) ↔
      proveQuadratic E coins pf r st gs as hs bs n = .ok (π, (deriveQuad E π n st).st) := by
  refine ⟨?_, fun h => ⟨_, h⟩⟩
  rintro ⟨s, h⟩
  rcases proveQuadratic_spec E coins pf r st as bs gs hs n hn1 hn2 ha hb hg hh hL hR with ⟨ht, -⟩ | ⟨q, hq, -⟩
  · rw [h] at ht; cases ht
  · rw [h] at hq
    obtain ⟨rfl, rfl⟩ := Prod.mk.inj (Res.ok.inj hq)
    exact h

/-- Exactly one choice of the coins makes `finalProve` output a given accepted pair of proofs. -/
theorem finalProve_coins (E : Env F G) (hB : Function.Bijective (fun s : F => s • E.base)) (v : ReadyToProve F G)
    (vd : VerifierData F G E.St) (pd : ProverData F) (N : ℕ) (hN : 0 < N) (hw : N < vd.ix.w)
    (hw2 : vd.ix.w < 2 ^ 31) (hG : vd.Gs.length = vd.ix.w + 1) (hH : N ≤ vd.Hs.length)
    (xl dG dH xg xh : ℕ → F) (hts : v.linCnstr.terms ≠ []) (hsort : Sorted v.linCnstr.terms)
    (hkeys : ∀ k ∈ keys v.linCnstr.terms, k ≤ vd.ix.w)
    (hidx : v.quadCnstr.indexes = List.range N ++ [vd.ix.w])
    (hlw : pd.linWitness = tab (keys v.linCnstr.terms) xl)
    (hdG : v.deltaG = tab (List.range N ++ [vd.ix.w]) dG)
    (hdH : v.deltaH = tab (List.range N ++ [vd.ix.w]) dH)
    (hqG : pd.quadWitnessG = tab (List.range N ++ [vd.ix.w]) xg)
    (hqH : pd.quadWitnessH = tab (List.range N ++ [vd.ix.w]) xh)
    (hlin : LinSat v.linCnstr xl) (hquad : QuadSat v.quadCnstr xg xh)
    (hlc : v.linCom = v.lComRnd • E.base
      + ((keys v.linCnstr.terms).map fun i => xl i • vd.Gs.getD i 0).sum)
    (hqc : v.quadCom = v.qComRnd • E.base
      + ((List.range N).map fun i => (xg i + dG i) • vd.Gs.getD i 0 + (xh i + dH i) • vd.Hs.getD i 0).sum
      + (xg vd.ix.w + dG vd.ix.w) • vd.Gs.getD vd.ix.w 0
      + (xh vd.ix.w + dH vd.ix.w) • vd.Hs.getD (N - 1) 0)
    (πL : LinPf F G) (πQ : QuadPf F G) (stL stQ : E.St)
    (htL : πL.tag = str "Linear") (htQ : πQ.tag = str "Quadratic") (hCL : πL.C = v.linCom) (hCQ : πQ.C = v.quadCom)
    (hvL : verifyLinear E πL (v.linCnstr.terms.map Prod.snd)
      ((keys v.linCnstr.terms).map fun i => vd.Gs.getD i 0) v.linCnstr.terms.length v.linCnstr.equalsTo
      (E.processLin vd.mer (str "linear") v.linCnstr) none = .ok (true, stL))
    (hvQ : verifyQuadratic E πQ ((List.range N).map (fun i => vd.Gs.getD i 0) ++ [vd.Gs.getD vd.ix.w 0])
      ((List.range N).map (fun i => vd.Hs.getD i 0) ++ [vd.Hs.getD (N - 1) 0]) (N + 1) v.quadCnstr.equalsTo
      (E.processQuad vd.mer (str "quadratic") v.quadCnstr) (some ((List.range N ++ [vd.ix.w]).map dG))
      (some ((List.range N ++ [vd.ix.w]).map dH)) = .ok (true, stQ))
    (hxQ : (deriveQuad E πQ (N + 1) (E.processQuad vd.mer (str "quadratic") v.quadCnstr)).x ≠ 0) :
    ∃ csL csQ : ℕ → F × F, ∀ coinsL coinsQ : ℕ → F × F,
      (∃ rtv m m', finalProve E coinsL coinsQ v vd pd = .ok (rtv, m, m', πL, πQ)) ↔
        (∀ i ≤ log2roundUp v.linCnstr.terms.length, coinsL i = csL i) ∧
        ∀ i ≤ log2roundUp (N + 1) + 1, coinsQ i = csQ i := by
  have hN' : (List.range N).length - 1 = N - 1 := by rw [List.length_range]
  obtain ⟨Ig, hIg⟩ : ∃ l, l = (List.range N).map (fun i => vd.Gs.getD i 0) ++ [vd.Gs.getD vd.ix.w 0] :=
    ⟨_, rfl⟩
  obtain ⟨Ih, hIh⟩ : ∃ l, l = (List.range N).map (fun i => vd.Hs.getD i 0) ++ [vd.Hs.getD (N - 1) 0] := ⟨_, rfl⟩
  have run := fun coinsL coinsQ => finalProve_run E coinsL coinsQ v vd pd N hN hw hG hH xl dG dH xg xh hkeys hidx
    hlw hdG hdH hqG hqH Ig Ih hIg (by rw [hN']; exact hIh)
  rw [← hIg, ← hIh] at hvQ
  have lg : Ig.length = N + 1 := by rw [hIg]; simp
  have lh : Ih.length = N + 1 := by rw [hIh]; simp
  have lt : 1 ≤ v.linCnstr.terms.length := List.length_pos_iff.2 hts
  have lk : (keys v.linCnstr.terms).length = v.linCnstr.terms.length := by simp [keys]
  have h63 : (2 : ℕ) ^ 31 ≤ 2 ^ 63 := Nat.pow_le_pow_right (by omega) (by omega)
  have lk2 : v.linCnstr.terms.length ≤ 2 ^ 63 := by
    have h1 : (keys v.linCnstr.terms).length ≤ (List.range (vd.ix.w + 1)).length := by
      apply List.Subperm.length_le
      apply List.subperm_of_subset (nodup_keys hsort)
      intro k hk
      exact List.mem_range.2 (by have := hkeys k hk; omega)
    rw [lk, List.length_range] at h1
    omega
  have n63 : N + 1 ≤ 2 ^ 63 := by omega
  obtain ⟨l1, l2, l3, l4⟩ := linear_accepted E πL _ _ _ _ _ _ lt lk2 (by simp) (by simp [lk]) hvL
  obtain ⟨q1, q2, q3, q4⟩ := quadratic_accepted E πQ _ _ _ _ _ _ _ _ (by omega) n63 lg lh (by simp) (by simp) hvQ
  have hq' : ((List.range N ++ [vd.ix.w]).map fun i => xg i * xh i).sum = v.quadCnstr.equalsTo := by
    have := hquad
    unfold QuadSat at this
    rwa [hidx] at this
  obtain ⟨csL, hL⟩ := proveLinear_coins E hB ⟨str "Linear", v.linCom, [], [], 0, 0, 0⟩ πL v.lComRnd
    (E.processLin vd.mer (str "linear") v.linCnstr) ((keys v.linCnstr.terms).map xl)
    (v.linCnstr.terms.map Prod.snd) ((keys v.linCnstr.terms).map fun i => vd.Gs.getD i 0)
    v.linCnstr.terms.length v.linCnstr.equalsTo lt lk2 (by simp [lk]) (by simp) (by simp [lk]) rfl rfl
    (by simp only; rw [mexp_map, hlc]) (by rw [dot_terms]; exact hlin) htL hCL l1 l2 l3 l4
  obtain ⟨csQ, hQ⟩ := proveQuadratic_coins E hB ⟨str "Quadratic", v.quadCom, [], [], 0, 0, 0, 0, 0⟩ πQ v.qComRnd
    (E.processQuad vd.mer (str "quadratic") v.quadCnstr) ((List.range N ++ [vd.ix.w]).map xg)
    ((List.range N ++ [vd.ix.w]).map xh) Ig Ih (N + 1) v.quadCnstr.equalsTo (by omega) n63 (by simp) (by simp) lg lh
    rfl rfl ((List.range N ++ [vd.ix.w]).map dG) ((List.range N ++ [vd.ix.w]).map dH) (by
      have hg' : Ig = (List.range N ++ [vd.ix.w]).map fun i => vd.Gs.getD i 0 := by
        rw [hIg]; simp
      have hh' : ∀ z : ℕ → F, mexp ((List.range N ++ [vd.ix.w]).map z) Ih
          = ((List.range N).map fun i => z i • vd.Hs.getD i 0).sum
            + z vd.ix.w • vd.Hs.getD (N - 1) 0 := by
        intro z
        rw [hIh, List.map_append, mexp_append (by simp), mexp_map]
        simp [mexp]
      simp only
      rw [hqc, hg', mexp_map, mexp_map, hh', hh']
      simp only [List.map_append, List.sum_append, List.map_cons, List.map_nil, List.sum_cons,
        List.sum_nil, add_smul, sum_map_add']
      module) (by rw [dot_map]; exact hq') htQ hCQ q1 q2 q3 hxQ q4
  refine ⟨csL, csQ, fun coinsL coinsQ => ?_⟩
  rw [← hL, ← hQ, run coinsL coinsQ,
    ← proveLinear_out E coinsL _ πL _ _ _ _ _ _ lt lk2 (by simp [lk]) (by simp) (by simp [lk]) rfl rfl,
    ← proveQuadratic_out E coinsQ _ πQ _ _ _ _ _ _ _ (by omega) n63 (by simp) (by simp) lg lh rfl rfl]
  constructor
  · rintro ⟨rtv, m, m', h⟩
    obtain ⟨⟨pL, sL⟩, p1, h⟩ := Res.bind_eq_ok.1 h
    obtain ⟨⟨pQ, sQ⟩, p2, h⟩ := Res.bind_eq_ok.1 h
    have := Res.ok.inj h
    simp only [Prod.mk.injEq] at this
    obtain ⟨-, -, -, rfl, rfl⟩ := this
    exact ⟨⟨_, p1⟩, ⟨_, p2⟩⟩
  · rintro ⟨⟨sL, p1⟩, ⟨sQ, p2⟩⟩
    rw [p1, Res.ok_bind, p2, Res.ok_bind]
    exact ⟨_, _, _, rfl⟩

end
end Verif
