/-
C44: the vectors that the final linear and quadratic proofs are run on (`flattenLinVer`,
`flattenQuadVer`, regevProofs.cpp:1085-1111).
-/
import Verif.Lemmas.Aggregate
import Verif.Props.Bulletproof

namespace Verif.Props
open Verif Verif.Spec

section
variable {F G : Type} [Field F] [DecidableEq F] [AddCommGroup G] [Module F G] {St : Type}

/-- **C44, linear.** When all indexes of the final linear constraint are in the range of the
generators, the flattened statement lists, in increasing order of the variables, the generator `G_i`
and the coefficient of each variable. -/
theorem C44_linear_generators (v : ReadyToVerify F G) (vd : VerifierData F G St)
    (h : ∀ k ∈ keys v.linCnstr.terms, k < vd.Gs.length) :
    ∃ v', flattenLinVer v vd = .ok v' ∧
      v'.linGs = (keys v.linCnstr.terms).map (fun i => vd.Gs.getD i 0) ∧
      v'.linStmnt = v.linCnstr.terms.map Prod.snd ∧ v'.linCnstr.equalsTo = v.linCnstr.equalsTo ∧
      v'.linCom = v.linCom := by
  unfold flattenLinVer
  rw [flattenLinLoop_ok _ _ h]
  exact ⟨_, rfl, rfl, rfl, rfl, rfl⟩

/-- **C44, quadratic.** What `flattenQuadVer` computes for the index set `is ∪ {w}` of the final
quadratic constraint: the G generators are those of the variables, the H generators too *except that
`w`, the last variable, gets the generator at position `|is|-1`* and not one of its own. -/
theorem C44_quadratic_generators (v : ReadyToVerify F G) (vd : VerifierData F G St) (is : List ℕ)
    (hi : v.quadCnstr.indexes = is ++ [vd.ix.w]) (h0 : is ≠ [])
    (h1 : ∀ i ∈ is, i < vd.ix.w ∧ i < vd.Hs.length) (h3 : vd.ix.w < vd.Gs.length)
    (h4 : is.length ≤ vd.Hs.length) :
    ∃ v', flattenQuadVer v vd = .ok v' ∧
      v'.quadGs = (is ++ [vd.ix.w]).map (fun i => vd.Gs.getD i 0) ∧
      v'.quadHs = is.map (fun i => vd.Hs.getD i 0) ++ [vd.Hs.getD (is.length - 1) 0] ∧
      v'.offstG = (is ++ [vd.ix.w]).map (fun i => (mapFind v.deltaG i).getD 0) ∧
      v'.offstH = (is ++ [vd.ix.w]).map (fun i => (mapFind v.deltaH i).getD 0) ∧
      v'.quadCnstr = v.quadCnstr ∧ v'.quadCom = v.quadCom := by
  unfold flattenQuadVer
  rw [hi, flattenQuadLoop_ok _ _ _ _ _ is h0 (fun i h => ⟨lt_trans (h1 i h).1 h3, (h1 i h).2⟩)
    (fun i h => Nat.ne_of_lt (h1 i h).1) h3 h4]
  exact ⟨_, rfl, by simp, rfl, by simp, by simp, rfl, rfl⟩

/-- The flattened quadratic statement for `N` quadratic variables. -/
theorem flattenQuad_shared (v : ReadyToVerify F G) (vd : VerifierData F G St) (getG getH : ℕ → G)
    (N : ℕ) (hN : 0 < N) (hw : N < vd.ix.w) (hG : vd.Gs = (List.range (vd.ix.w + 1)).map getG)
    (hH : vd.Hs = (List.range N).map getH ++ [getH vd.ix.w])
    (hi : v.quadCnstr.indexes = List.range N ++ [vd.ix.w]) :
    ∃ v', flattenQuadVer v vd = .ok v' ∧
      v'.quadGs = (List.range N).map getG ++ [getG vd.ix.w] ∧
      v'.quadHs = (List.range N).map getH ++ [getH (N - 1)] ∧
      v'.quadHs.getD N 0 = v'.quadHs.getD (N - 1) 0 := by
  have hlen : vd.Hs.length = N + 1 := by rw [hH]; simp
  have gG : ∀ i < vd.ix.w + 1, vd.Gs.getD i 0 = getG i := by
    intro i hi
    rw [hG, List.getD_eq_getElem?_getD, List.getElem?_map, List.getElem?_range hi]; rfl
  have gH : ∀ i < N, vd.Hs.getD i 0 = getH i := by
    intro i hi
    rw [hH, List.getD_eq_getElem?_getD, List.getElem?_append_left (by simpa using hi), List.getElem?_map,
      List.getElem?_range hi]; rfl
  have hne : List.range N ≠ [] := by
    intro h
    have := congrArg List.length h
    simp only [List.length_range, List.length_nil] at this
    omega
  obtain ⟨v', e1, e2, e3, -⟩ := C44_quadratic_generators v vd (List.range N) hi hne
    (fun i h => by have := List.mem_range.1 h; omega) (by rw [hG]; simp)
    (by rw [hlen, List.length_range]; omega)
  have e3' : v'.quadHs = (List.range N).map getH ++ [getH (N - 1)] := by
    rw [e3, List.length_range, gH (N - 1) (by omega)]
    congr 1
    apply List.map_congr_left
    intro i hi
    exact gH i (List.mem_range.1 hi)
  refine ⟨v', e1, ?_, e3', ?_⟩
  · rw [e2, List.map_append, List.map_singleton, gG _ (by omega)]
    congr 1
    apply List.map_congr_left
    intro i hi
    have := List.mem_range.1 hi
    exact gG i (by omega)
  · have h1 : v'.quadHs.getD N 0 = getH (N - 1) := by
      rw [e3', List.getD_eq_getElem?_getD, List.getElem?_append_right (by simp)]
      simp
    have h2 : v'.quadHs.getD (N - 1) 0 = getH (N - 1) := by
      rw [e3', List.getD_eq_getElem?_getD, List.getElem?_append_left (by simp; omega), List.getElem?_map,
        List.getElem?_range (by omega)]; rfl
    rw [h1, h2]

/-- **C44, the disagreement.** With the generators that `VerifierData` sets up and the index set
`{0,…,2599} ∪ {w}` of the final quadratic statement, the variable `w` does not get its own generator
`H_w`: its H generator is `H_2599`, the one of the last quadratic variable. -/
theorem C44_shared_generator (v : ReadyToVerify F G) (vd : VerifierData F G St) (getG getH : ℕ → G)
    (kay enn tee : ℕ) (hix : vd.ix = setIndexesNat kay 2 enn tee)
    (hg : (vd.Gs, vd.Hs) = computeGenerators getG getH vd.ix)
    (hi : v.quadCnstr.indexes = List.range 2600 ++ [vd.ix.w]) :
    ∃ v', flattenQuadVer v vd = .ok v' ∧
      v'.quadGs = (List.range 2600).map getG ++ [getG vd.ix.w] ∧
      v'.quadHs = (List.range 2600).map getH ++ [getH 2599] ∧
      v'.quadHs.getD 2600 0 = v'.quadHs.getD 2599 0 := by
  have hw : vd.ix.sk1 = 2600 ∧ 2600 < vd.ix.w := by
    rw [hix]; simp only [setIndexesNat, JLDIM, PAD_SIZE, LINYDIM, Nat.reduceAdd, true_and]; omega
  obtain ⟨v', e1, e2, e3, e4⟩ := flattenQuad_shared v vd getG getH 2600 (by omega) hw.2
    (congrArg Prod.fst hg) ((congrArg Prod.snd hg).trans (by rw [computeGenerators, hw.1])) hi
  exact ⟨v', e1, e2, e3, e4⟩

/-- **C44, the consequence.** With a shared last generator the commitment does not determine the
inner product: an opening `(x, y)` of a commitment whose last two G-values differ can be turned, for
*every* `b`, into an opening `(x, y')` of the same commitment with `⟨x, y'⟩ = b`. -/
theorem C44_not_binding (xs ys : List F) (x1 x2 y1 y2 : F) (gs hs : List G) (h : G)
    (hx : xs.length = ys.length) (hh : ys.length = hs.length) (hne : x1 ≠ x2) (b : F) :
    ∃ y1' y2' : F,
      mexp (ys ++ [y1', y2']) (hs ++ [h, h]) = mexp (ys ++ [y1, y2]) (hs ++ [h, h]) ∧
      dot (xs ++ [x1, x2]) (ys ++ [y1', y2']) = b := by
  have hsub : x2 - x1 ≠ 0 := sub_ne_zero.2 (Ne.symm hne)
  obtain ⟨d, hd⟩ : ∃ d : F, d = (b - dot (xs ++ [x1, x2]) (ys ++ [y1, y2])) / (x2 - x1) := ⟨_, rfl⟩
  have hd' : d * (x2 - x1) = b - dot (xs ++ [x1, x2]) (ys ++ [y1, y2]) := by
    rw [hd]; field_simp
  rw [dot_append hx] at hd'
  refine ⟨y1 - d, y2 + d, ?_, ?_⟩
  · rw [mexp_append hh, mexp_append hh]
    simp only [mexp, List.zipWith_cons_cons, List.zipWith_nil_left, List.sum_cons, List.sum_nil]
    module
  · rw [dot_append hx]
    simp only [dot, List.zipWith_cons_cons, List.zipWith_nil_left, List.sum_cons, List.sum_nil] at hd' ⊢
    linear_combination hd'

end

section
variable {F G : Type} [Field F] [DecidableEq F] [AddCommGroup G] [Module F G] [DecidableEq G]

/-- **C44, the consequence for the protocol.** Whatever the public value `b` of the quadratic
statement, a prover who knows *some* opening of the commitment with respect to generator vectors
whose last two H generators coincide, and whose last two G-values differ, also knows an opening with
which the library's own prover makes a proof that the verifier accepts for `b`; it fails only when a
folding challenge of that run is zero. -/
theorem C44_any_value_provable (E : Env F G) (pf : QuadPf F G) (r : F)
    (st : E.St) (xs ys : List F) (x1 x2 y1 y2 : F) (gs hs : List G) (h : G) (n : ℕ) (b : F)
    (hx : xs.length = n) (hy : ys.length = n) (hh : hs.length = n) (hg : gs.length = n + 2)
    (hn : n + 2 ≤ 2 ^ 63) (hL : pf.Ls = []) (hR : pf.Rs = []) (hne : x1 ≠ x2)
    (hC : pf.C = r • E.base + mexp (xs ++ [x1, x2]) gs + mexp (ys ++ [y1, y2]) (hs ++ [h, h])) :
    ∃ y1' y2' : F, ∀ coins : ℕ → F × F,
      (0 ∈ quadChallenges E coins pf.C st (xs ++ [x1, x2]) (ys ++ [y1', y2']) gs (hs ++ [h, h]) (n + 2) ∧
        proveQuadratic E coins pf r st gs (xs ++ [x1, x2]) (hs ++ [h, h]) (ys ++ [y1', y2']) (n + 2) = .throw) ∨
      (0 ∉ quadChallenges E coins pf.C st (xs ++ [x1, x2]) (ys ++ [y1', y2']) gs (hs ++ [h, h]) (n + 2) ∧
        ∃ pf' st',
          proveQuadratic E coins pf r st gs (xs ++ [x1, x2]) (hs ++ [h, h]) (ys ++ [y1', y2']) (n + 2)
            = .ok (pf', st') ∧ pf'.C = pf.C ∧
          verifyQuadratic E pf' gs (hs ++ [h, h]) (n + 2) b st none none = .ok (true, st')) := by
  obtain ⟨y1', y2', e1, e2⟩ := C44_not_binding xs ys x1 x2 y1 y2 gs hs h (by omega) (by omega) hne b
  refine ⟨y1', y2', fun coins => ?_⟩
  rcases C08_quadratic_prover_total E coins pf r st (xs ++ [x1, x2])
    (ys ++ [y1', y2']) gs (hs ++ [h, h]) (n + 2) (by omega) hn (by simp [hx]) (by simp [hy]) hg
    (by simp [hh]) hL hR with h0 | ⟨h0, pf', st', hp, -⟩
  · exact Or.inl h0
  refine Or.inr ⟨h0, pf', st', hp, ?_, ?_⟩
  · exact ((C10_honest_length E coins r st st' (xs ++ [x1, x2]) (ys ++ [y1', y2']) gs (hs ++ [h, h])
      (n + 2) (by omega) hn (by simp [hx]) (by simp [hy]) hg (by simp [hh])).2 pf pf' hL hR hp).2.2.1
  · have := C08_quadratic_complete E coins pf pf' r st st' (xs ++ [x1, x2]) (ys ++ [y1', y2']) gs
      (hs ++ [h, h]) (n + 2) none none (by omega) hn (by simp [hx]) (by simp [hy]) hg (by simp [hh])
      (by simp) (by simp) hL hR (by rw [hC, e1]; simp [mexp]) hp
    rw [e2] at this
    exact this

end

/-- A non-trivial instance of the non-binding commitment: two openings of one commitment, with inner
products 11 and 100. -/
example : ∃ y1' y2' : ℚ, mexp [y1', y2'] [(5 : ℚ), 5] = mexp [(3 : ℚ), 4] [(5 : ℚ), 5] ∧
    dot [(1 : ℚ), 2] [3, 4] = 11 ∧ dot [(1 : ℚ), 2] [y1', y2'] = 100 := by
  obtain ⟨a, b, h1, h2⟩ := C44_not_binding (F := ℚ) (G := ℚ) [] [] 1 2 3 4 [] [] 5 rfl rfl (by norm_num) 100
  exact ⟨a, b, by simpa using h1, by norm_num [dot], by simpa using h2⟩

/-- The hypotheses of the disagreement are met for every choice of generators and parameters. -/
example (v : ReadyToVerify ℚ ℚ) (vd : VerifierData ℚ ℚ Unit) (getG getH : ℕ → ℚ) (kay enn tee : ℕ)
    (ix : Indexes) (hix : ix = setIndexesNat kay 2 enn tee) (gens : List ℚ × List ℚ)
    (hg : gens = computeGenerators getG getH ix) : ∃ v',
    flattenQuadVer { v with quadCnstr := ⟨List.range 2600 ++ [ix.w], 7⟩ }
      { vd with Gs := gens.1, Hs := gens.2, ix := ix } = .ok v' ∧
    v'.quadHs.getD 2600 0 = v'.quadHs.getD 2599 0 := by
  obtain ⟨v', h1, -, -, h4⟩ := C44_shared_generator
    { v with quadCnstr := ⟨List.range 2600 ++ [ix.w], 7⟩ }
    { vd with Gs := gens.1, Hs := gens.2, ix := ix } getG getH kay enn tee hix hg rfl
  exact ⟨v', h1, h4⟩

end Verif.Props
