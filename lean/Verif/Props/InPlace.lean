/-
Property theorems C94: what the proof functions do to the caller's arrays.

`proveLinearI`, `proveQuadraticI` and `verifyLinearI` (Verif.Model.InPlace) are the low-level
functions acting on the caller's arrays; `leftBehind`, `leftGens` (Verif.Spec.InPlace) say
entry by entry what an array folded in place contains.
-/
import Verif.Lemmas.InPlace
import Verif.Props.Bulletproof

namespace Verif.Props
open Verif Spec

section
variable {F G : Type} [Field F] [AddCommGroup G] [Module F G] [DecidableEq F] [DecidableEq G]

/-- C94.  `proveLinear` on arrays with at least `n` entries: it yields the proof and the
transcript it yields for arrays of exactly `n` entries (or throws when that run does), the
entries from `n` on are untouched, and the first `n` entries are overwritten by the folded
ones, with the challenges of the proof for `bs` and `gs` and their inverses for `as`. -/
theorem C94_linear_prover (E : Env F G) (coins : Nat → F × F) (pf : LinPf F G) (r : F) (st : E.St)
    (as bs : List F) (gs : List G) (n : Nat) (hn1 : 1 ≤ n) (hn2 : n ≤ 2 ^ 63) (ha : n ≤ as.length)
    (hb : n ≤ bs.length) (hg : n ≤ gs.length) (hL : pf.Ls = []) (hR : pf.Rs = []) :
    (proveLinear E coins pf r st (as.take n) (bs.take n) (gs.take n) n = .throw ∧
      proveLinearI E coins pf r st as bs gs n = .throw) ∨
    ∃ pf' st', proveLinear E coins pf r st (as.take n) (bs.take n) (gs.take n) n = .ok (pf', st') ∧
      (let xs := (deriveLin E pf' n st).xs
       proveLinearI E coins pf r st as bs gs n =
        .ok ((pf', st'), leftBehind (xs.map (·⁻¹)) (as.take n) ++ as.drop n,
          leftBehind xs (bs.take n) ++ bs.drop n, leftGens xs (gs.take n) ++ gs.drop n)) := by
  simp only [proveLinear, proveLinearI]
  obtain ⟨st1, hst1⟩ : ∃ q, q = E.processPoint st lblC pf.C := ⟨_, rfl⟩
  obtain ⟨f, hf⟩ : ∃ q, q = E.newGenerator st1 lblF := ⟨_, rfl⟩
  rw [← hst1, ← hf]
  rcases proveLinLoopI_spec E coins f.1 (log2roundUp n) n (next2power n / 2)
    ⟨pf.Ls, pf.Rs, as, bs, gs, r, f.2, 0⟩ (level_log hn1 hn2) ha hb hg with
    ⟨h1, h2⟩ | ⟨e, Ls, Rs, h1, h2, hLs, hRs, heL, heR, hea, heb, heg⟩
  · left
    simp only [LinProverState.cut] at h1
    rw [h1, h2]
    exact ⟨rfl, rfl⟩
  · right
    simp only [LinProverState.cut] at h1 heL heR hea heb heg
    rw [hL, List.nil_append] at heL
    rw [hR, List.nil_append] at heR
    rw [h1, h2]
    simp only [Res.ok_bind]
    have la : 0 < e.as.length := by rw [hea]; simp; omega
    have lb : 0 < e.bs.length := by rw [heb]; simp; omega
    have lg : 0 < e.gs.length := by rw [heg]; simp; omega
    rw [rd_ok (p := e.gs.take 1) (by simp; omega), rd_ok (p := e.bs.take 1) (by simp; omega),
      rd_ok (p := e.as.take 1) (by simp; omega), rd_ok lg, rd_ok lb, rd_ok la]
    simp only [Res.ok_bind, List.getElem_take]
    refine ⟨_, _, rfl, ?_⟩
    simp only [deriveLin]
    rw [heL, heR]
    subst hst1
    subst hf
    simp only [Env.newGenerator, Env.processPoint, lblC, lblF] at hea heb heg
    rw [← hea, ← heb, ← heg]

/-- C94, the same for `proveQuadratic`: `gs` and `bs` are folded with the challenges of the
proof, `as` and `hs` with their inverses. -/
theorem C94_quadratic_prover (E : Env F G) (coins : Nat → F × F) (pf : QuadPf F G) (r : F) (st : E.St)
    (as bs : List F) (gs hs : List G) (n : Nat) (hn1 : 1 ≤ n) (hn2 : n ≤ 2 ^ 63) (ha : n ≤ as.length)
    (hb : n ≤ bs.length) (hg : n ≤ gs.length) (hh : n ≤ hs.length) (hL : pf.Ls = []) (hR : pf.Rs = []) :
    (proveQuadratic E coins pf r st (gs.take n) (as.take n) (hs.take n) (bs.take n) n = .throw ∧
      proveQuadraticI E coins pf r st gs as hs bs n = .throw) ∨
    ∃ pf' st', proveQuadratic E coins pf r st (gs.take n) (as.take n) (hs.take n) (bs.take n) n =
        .ok (pf', st') ∧
      (let xs := (deriveQuad E pf' n st).xs
       proveQuadraticI E coins pf r st gs as hs bs n =
        .ok ((pf', st'), leftGens xs (gs.take n) ++ gs.drop n,
          leftBehind (xs.map (·⁻¹)) (as.take n) ++ as.drop n,
          leftGens (xs.map (·⁻¹)) (hs.take n) ++ hs.drop n, leftBehind xs (bs.take n) ++ bs.drop n)) := by
  simp only [proveQuadratic, proveQuadraticI]
  obtain ⟨st1, hst1⟩ : ∃ q, q = E.processPoint st lblC pf.C := ⟨_, rfl⟩
  obtain ⟨f, hf⟩ : ∃ q, q = E.newGenerator st1 lblF := ⟨_, rfl⟩
  rw [← hst1, ← hf]
  rcases proveQuadLoopI_spec E coins f.1 (log2roundUp n) n (next2power n / 2)
    ⟨pf.Ls, pf.Rs, gs, as, hs, bs, r, f.2, 0⟩ (level_log hn1 hn2) ha hb hg hh with
    ⟨h1, h2⟩ | ⟨e, Ls, Rs, h1, h2, hLs, hRs, heL, heR, hea, heb, heg, heh⟩
  · left
    simp only [QuadProverState.cut] at h1
    rw [h1, h2]
    exact ⟨rfl, rfl⟩
  · right
    simp only [QuadProverState.cut] at h1 heL heR hea heb heg heh
    rw [hL, List.nil_append] at heL
    rw [hR, List.nil_append] at heR
    rw [h1, h2]
    simp only [Res.ok_bind]
    have la : 0 < e.as.length := by rw [hea]; simp; omega
    have lb : 0 < e.bs.length := by rw [heb]; simp; omega
    have lg : 0 < e.gs.length := by rw [heg]; simp; omega
    have lh : 0 < e.hs.length := by rw [heh]; simp; omega
    rw [rd_ok (p := e.gs.take 1) (by simp; omega), rd_ok (p := e.bs.take 1) (by simp; omega),
      rd_ok (p := e.as.take 1) (by simp; omega), rd_ok (p := e.hs.take 1) (by simp; omega),
      rd_ok lg, rd_ok lb, rd_ok la, rd_ok lh]
    simp only [Res.ok_bind, List.getElem_take]
    refine ⟨_, _, rfl, ?_⟩
    simp only [deriveQuad]
    rw [heL, heR]
    subst hst1
    subst hf
    simp only [Env.newGenerator, Env.processPoint, lblC, lblF] at hea heb heg heh
    rw [← hea, ← heb, ← heg, ← heh]

/-- C94.  `verifyLinear` on arrays with at least `n` entries: the outcome is that for arrays of
exactly `n` entries, and when it returns, the first `n` coefficients have been folded with the
challenges and the first `n` offsets multiplied by the final challenge.  (The generators, and
all arguments of `verifyQuadratic`, are only read.) -/
theorem C94_linear_verifier (E : Env F G) (pf : LinPf F G) (bs : List F) (gs : List G) (n : Nat) (eq : F)
    (st : E.St) (off : Option (List F)) (hn1 : 1 ≤ n) (hn2 : n ≤ 2 ^ 63) (hb : n ≤ bs.length)
    (hg : n ≤ gs.length) (ho : ∀ o, off = some o → n ≤ o.length) :
    verifyLinearI E pf bs gs n eq st off = (do
      let q ← verifyLinear E pf (bs.take n) (gs.take n) n eq st (off.map (List.take n))
      .ok (q, leftBehind (deriveLin E pf n st).xs (bs.take n) ++ bs.drop n,
        off.map (fun w => (w.take n).map (· * (deriveLin E pf n st).x) ++ w.drop n))) := by
  by_cases hlen : pf.Ls.length ≠ log2roundUp n ∨ pf.Rs.length ≠ log2roundUp n
  · rw [verifyLinear_len E pf _ _ n eq st _ hlen]
    simp only [verifyLinearI]
    rw [if_pos hlen]
    rfl
  have hlb : (bs.take n).length = n := by simp [hb]
  simp only [verifyLinearI, verifyLinear, deriveLin, Env.newGenerator, Env.processPoint, lblC, lblF, lblS,
    lblx, Env.newChallenge]
  rw [if_neg hlen, if_neg hlen, verifyLinLoop_eq E pf.Ls pf.Rs (log2roundUp n) n _ 0 _ _
    (level_log hn1 hn2) hlb (by omega) (by omega), verifyLinLoopI_eq E pf.Ls pf.Rs (log2roundUp n) n _ 0 bs _
    (level_log hn1 hn2) hb (by omega) (by omega)]
  simp only [List.drop_zero]
  obtain ⟨f, hf⟩ : ∃ f, f = E.challenge (E.commit st [67] (E.pointBytes pf.C)) [70] 32 := ⟨_, rfl⟩
  simp only [← hf]
  obtain ⟨c, hc⟩ : ∃ c, c = foldChallenges E n f.2 pf.Ls pf.Rs := ⟨_, rfl⟩
  simp only [← hc]
  have hcl : c.1.length = log2roundUp n := by rw [hc]; simp; omega
  by_cases hx : (0 : F) ∈ c.1
  · rw [if_pos hx, if_pos hx]; rfl
  rw [if_neg hx, if_neg hx]
  simp only [Res.ok_bind]
  obtain ⟨ch, hch⟩ : ∃ ch, ch = E.challenge (E.commit c.2 [83] (E.pointBytes pf.S)) [120] 64 := ⟨_, rfl⟩
  simp only [← hch]
  rw [multiExp_ok le_rfl (by omega), multiExp_ok le_rfl (by simp; omega)]
  simp only [Res.ok_bind, inverseOf]
  by_cases hx0 : E.scalarReduce ch.1 = 0
  · rw [if_pos hx0]; rfl
  rw [if_neg hx0]
  simp only [Res.ok_bind]
  have hle := (log2roundUp_le hn2).2
  rw [foldAll_singleton c.1 (bs.take n) (by omega) (by rw [hcl]; omega)]
  have hfirst : rd (leftBehind c.1 (bs.take n) ++ bs.drop n) 0 = .ok (foldedSum c.1 (bs.take n)) := by
    rw [rd_ok (by simp; omega), List.getElem_append_left (by simp; omega)]
    simp only [leftBehind, List.getElem_map, List.getElem_range, leftAt_zero]
  have hG : rdN (gs.take n) n = rdN gs n := by
    rw [rdN_ok hg, rdN_ok (by simp [hg]), List.take_take, min_self]
  rw [hfirst, rd_ok (p := [foldedSum c.1 (bs.take n)]) (by simp)]
  cases off with
  | none =>
    simp only [Option.map_none, Res.ok_bind, expSubsetProduct, multiExp, hG, bind_assoc]
    rfl
  | some w =>
    have hw := ho w rfl
    have e1 : List.take n (List.take n w) = List.take n w := by rw [List.take_take, min_self]
    simp only [Option.map_some]
    rw [rdN_ok hw, rdN_ok (by simp [hw])]
    simp only [Res.ok_bind, expSubsetProduct, multiExp, hG, bind_assoc, e1]
    rw [rdN_ok (by simp; omega), rdN_ok (p := List.map _ (List.take n w)) (by simp [hw]),
      List.take_append_of_le_length (by simp [hw])]
    simp only [Res.ok_bind]
    rfl

/-- C94.  What this means entry by entry, for a vector of `n > 1` entries and one challenge per
level: the entries from the split position on (half of `n` rounded up to a power of two) are
unchanged in an array of scalars and multiplied by the first challenge in an array of
generators, and the first entry is the sum of all entries times the subset products. -/
theorem C94_entries (xs : List F) (v : List G) (hn1 : 1 < v.length) (hn2 : v.length ≤ 2 ^ 63)
    (hx : xs.length = log2roundUp v.length) :
    (leftBehind xs v).length = v.length ∧ (leftGens xs v).length = v.length ∧
    (∀ i, next2power v.length / 2 ≤ i → i < v.length →
      (leftBehind xs v)[i]? = v[i]? ∧ (leftGens xs v)[i]? = v[i]?.map (fun g => xs.headD 1 • g)) ∧
    (leftBehind xs v)[0]? = some (foldedSum xs v) ∧ (leftGens xs v)[0]? = some (foldedSum xs v) := by
  have hl := level_log (n := v.length) (by omega) hn2
  rw [← hx] at hl
  refine ⟨by simp, by simp, ?_, ?_, ?_⟩
  · intro i hi hv
    cases xs with
    | nil => simp [Level] at hl; omega
    | cons x xs =>
      rw [List.length_cons] at hl
      obtain ⟨h1, h2, h3, h4⟩ := hl.half
      rw [h4] at hi h1 h2
      have hz := subsetProd_high x xs (i := 0) (Nat.two_pow_pos _)
      rw [add_zero, subsetProd_zero, mul_one] at hz
      have e : leftAt (x :: xs) v i = v[i] := by
        rw [leftAt_high x xs v hi hv (by omega), List.getD_eq_getElem _ _ hv]
      constructor
      · rw [List.getElem?_eq_getElem (by simpa using hv), List.getElem?_eq_getElem hv]
        simp only [leftBehind, List.getElem_map, List.getElem_range, e]
      · rw [List.getElem?_eq_getElem (by simpa using hv), List.getElem?_eq_getElem hv]
        simp only [leftGens, List.getElem_map, List.getElem_range, e, Option.map_some, List.headD_cons]
        rw [topBit_high (k := xs.length) hi (by omega), hz]
  · rw [List.getElem?_eq_getElem (by simp; omega)]
    simp only [leftBehind, List.getElem_map, List.getElem_range, leftAt_zero]
  · rw [List.getElem?_eq_getElem (by simp; omega)]
    simp only [leftGens, List.getElem_map, List.getElem_range, leftAt_zero, topBit, if_true,
      subsetProd_zero, one_smul]

example : leftBehind [(2 : ℚ), 3] [(1 : ℚ), 10, 100] = [231, 10, 100] := by
  rw [leftBehind_cons _ _ _ (by simp) (by simp), leftBehind_cons _ _ _ (by simp [foldP]) (by simp [foldP]),
    leftBehind_nil _ (by simp [foldP])]
  norm_num [foldP]
  show [(201 : ℚ) + 30] ++ [10, 100] = _
  norm_num

/-- C94.  Verifying an accepted proof a second time, from the same transcript state but with
the coefficients as the first verification left them: the answer is "accepted" exactly when
`a · Σ_j c_j z_j b_j` is zero or the derived generator is, where `z_j` is the `j`-th subset
product of the challenges and `c_j` the number of challenges in it.  So apart from proofs of
length one a statement must be copied before it is verified. -/
theorem C94_verify_again (E : Env F G) (pf : LinPf F G) (bs bs' : List F) (gs : List G) (n : Nat) (eq : F)
    (st st' : E.St) (o : Option (List F)) (hn1 : 1 ≤ n) (hn2 : n ≤ 2 ^ 63) (hb : bs.length = n)
    (hg : gs.length = n) (h : verifyLinearI E pf bs gs n eq st none = .ok ((true, st'), bs', o)) :
    ∃ b bs'', verifyLinearI E pf bs' gs n eq st none = .ok ((b, st'), bs'', none) ∧
      (b = true ↔ (pf.a * countedSum (deriveLin E pf n st).xs bs) • (deriveLin E pf n st).Fg = 0) := by
  have hlen : pf.Ls.length = log2roundUp n ∧ pf.Rs.length = log2roundUp n := by
    by_contra hc
    have hc' : pf.Ls.length ≠ log2roundUp n ∨ pf.Rs.length ≠ log2roundUp n := by
      by_contra h'; push Not at h'; exact hc h'
    rw [C94_linear_verifier E pf bs gs n eq st none hn1 hn2 hb.ge hg.ge (by simp),
      verifyLinear_len E pf _ _ n eq st _ hc'] at h
    cases h
  have hxl : (deriveLin E pf n st).xs.length = log2roundUp n := by
    simp only [deriveLin, length_foldChallenges]; omega
  rw [C94_linear_verifier E pf bs gs n eq st none hn1 hn2 hb.ge hg.ge (by simp),
    List.take_of_length_le hb.le, List.take_of_length_le hg.le, List.drop_of_length_le hb.le,
    List.append_nil] at h
  simp only [Option.map_none] at h
  have C := fun bs hb => C11_linear_verifier E pf bs gs n eq st none hn1 hn2 hb hg (by simp) hlen.1 hlen.2
  by_cases h0 : 0 ∈ (deriveLin E pf n st).xs ∨ (deriveLin E pf n st).x = 0
  · rw [(C bs hb).1 h0] at h; cases h
  obtain ⟨b1, hv1, hb1⟩ := (C bs hb).2 h0
  rw [hv1] at h
  obtain ⟨⟨rfl, rfl⟩, rfl, rfl⟩ : (b1 = true ∧ (deriveLin E pf n st).st = st') ∧
      leftBehind (deriveLin E pf n st).xs bs = bs' ∧ none = o := by
    simpa using h
  have hb' : (leftBehind (deriveLin E pf n st).xs bs).length = n := by simp [hb]
  obtain ⟨b2, hv2, hb2⟩ := (C _ hb').2 h0
  refine ⟨b2, leftBehind (deriveLin E pf n st).xs (leftBehind (deriveLin E pf n st).xs bs), ?_, ?_⟩
  · rw [C94_linear_verifier E pf _ gs n eq st none hn1 hn2 hb'.ge hg.ge (by simp),
      List.take_of_length_le hb'.le, List.take_of_length_le hg.le, List.drop_of_length_le hb'.le,
      List.append_nil, Option.map_none, hv2]
    rfl
  · have hlev : Levels (deriveLin E pf n st).xs bs.length := by
      have hl := level_log (n := n) hn1 hn2
      rw [← hxl] at hl
      rw [hb]
      cases hxs : (deriveLin E pf n st).xs with
      | nil => rw [hxs] at hl; exact hl
      | cons x xs =>
        rw [hxs, List.length_cons] at hl
        obtain ⟨h1, h2, h3, h4⟩ := hl.half
        rw [h4] at h1 h2
        exact ⟨h1.le, h2⟩
    have e1 := hb1.1 rfl
    rw [hb2]
    unfold LinEq at e1 ⊢
    rw [e1, foldedSum_leftBehind _ _ hlev, mul_add, add_smul]
    constructor
    · intro h
      have h' := add_left_cancel (add_right_cancel h)
      exact left_eq_add.1 h'
    · intro h
      rw [h, add_zero]

/-- A proof for the toy environment with two entries. -/
private def pf2 : LinPf ℚ ℚ := ⟨[], 0, [0], [0], 99, 1, 0⟩

/-- An accepted proof that the second verification of the same statement object rejects: two
entries, all challenges `2`, derived generator `32`. -/
example : ∃ st bs', verifyLinearI (toyEnv 2) pf2 [1, 1] [1, 1] 2 0 [] none = .ok ((true, st), bs', none) ∧
    ∃ bs'', verifyLinearI (toyEnv 2) pf2 bs' [1, 1] 2 0 [] none = .ok ((false, st), bs'', none) := by
  have hl : log2roundUp 2 = 1 := by decide +kernel
  have hF : (deriveLin (toyEnv 2) pf2 2 []).Fg = 32 := by
    show ((List.replicate 32 _).length : ℚ) = 32
    rw [List.length_replicate]; norm_num
  have hxs : (deriveLin (toyEnv 2) pf2 2 []).xs = [2] := rfl
  have hx : (deriveLin (toyEnv 2) pf2 2 []).x = 2 := rfl
  have hb : (toyEnv 2).base = 1 := rfl
  have hv := C94_linear_verifier (toyEnv 2) pf2 [1, 1] [1, 1] 2 0 [] none (by norm_num) (by norm_num)
    (by simp) (by simp) (by simp)
  obtain ⟨b, h1, h2⟩ := (C11_linear_verifier (toyEnv 2) pf2 [1, 1] [1, 1] 2 0 []
    none (by norm_num) (by norm_num) rfl rfl (by simp) hl.symm hl.symm).2 (by rw [hxs, hx]; norm_num)
  have hb : b = true := by
    rw [h2, LinEq, hF, hxs, hx, hb]
    norm_num [pf2, mexp, foldedSum, subsetProd, List.range_succ]
  subst hb
  simp only [List.take_succ_cons, List.take_zero, Option.map_none, h1, Res.ok_bind] at hv
  obtain ⟨b', bs'', h3, h4⟩ := C94_verify_again (toyEnv 2) pf2 [1, 1] _ [1, 1] 2 0 [] _ none (by norm_num)
    (by norm_num) rfl rfl hv
  refine ⟨_, _, hv, bs'', ?_⟩
  have : b' = false := by
    rw [← Bool.not_eq_true, h4, hF, hxs]
    norm_num [pf2, countedSum, bitCount, subsetProd, List.range_succ, Finset.sum_range_succ,
      Finset.filter_singleton]
  rw [h3, this]

end
end Verif.Props
