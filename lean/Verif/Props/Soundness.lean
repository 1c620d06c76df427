/-
Properties C13 and C58: linear proofs are special sound; quadratic proofs of statements whose length
is not a power of two are not sound.
-/
import Verif.Lemmas.Soundness
import Verif.Lemmas.Forgery
import Verif.Lemmas.BPTag
import Verif.Spec.Toy

namespace Verif.Props
open Verif Verif.Spec

section
variable {F G : Type} [Field F] [AddCommGroup G] [Module F G] [DecidableEq F] [DecidableEq G]

/-- **C13, extraction.** From a tree of accepted conversations for one commitment `C` and one
generator `F`, the extractor computes `r` and a vector `a` (of the right length, after cutting off the
padding) that open `C` up to a multiple of `F`: `C + eq·F = r·base + Σ (a_i + o_i) G_i + <a,b>·F`. -/
theorem C13_linear_extract (base : G) (gs : List G) (bs : List F) (eq : F) (off : Option (List F)) (C Fg : G)
    (t : LinTree F G) (hn1 : 1 ≤ gs.length) (hn2 : gs.length ≤ 2 ^ 63) (hb : bs.length = gs.length)
    (ho : ∀ o, off = some o → o.length = gs.length)
    (ht : t.Accepted base gs bs eq off C Fg [] [] []) :
    (t.extract.2.take gs.length).length = gs.length ∧
    C + eq • Fg = t.extract.1 • base + mexp (t.extract.2.take gs.length) gs + mexp (off.getD []) gs
      + dot (t.extract.2.take gs.length) bs • Fg := by
  obtain ⟨m, h1, -, h2⟩ := linTree_good hn1 hn2 hb ho t [] [] [] rfl rfl ht
  simp only [List.length_nil, Nat.zero_add] at h1
  have hle := (level_log hn1 hn2).le
  have hhl : (hat Fg gs bs).length = gs.length := by simp [hat, hb]
  rw [foldPre_nil] at h2
  obtain ⟨l, e⟩ := linGood_extract base t m _ _ (by rw [hhl, ← h1]; exact hle) h2
  rw [← h1] at l
  refine ⟨by rw [List.length_take]; omega, ?_⟩
  rw [mexp_hat _ _ _ _ hb.symm] at e
  rw [mexp_take_left _ _ _ le_rfl, dot_take_left _ _ _ hb.le]
  simp only [mexp_nil_left, List.map_nil, add_zero] at e
  rw [sub_eq_iff_eq_add] at e
  rw [e]; abel

/-- **C13, soundness.** From two such trees, for the same commitment and two values `F₁, F₂` of the
generator, the extractor computes an opening `r, a` of `C` (up to the offsets) with `<a,b> = eq`, or else
the scalar `φ` below is not zero and `(ρ, α, φ, ψ)` is a non-trivial linear relation between the
generators `base, G_i, F₁, F₂`. -/
theorem C13_linear_sound (base : G) (gs : List G) (bs : List F) (eq : F) (off : Option (List F)) (C F₁ F₂ : G)
    (t₁ t₂ : LinTree F G) (hn1 : 1 ≤ gs.length) (hn2 : gs.length ≤ 2 ^ 63) (hb : bs.length = gs.length)
    (ho : ∀ o, off = some o → o.length = gs.length)
    (h₁ : t₁.Accepted base gs bs eq off C F₁ [] [] []) (h₂ : t₂.Accepted base gs bs eq off C F₂ [] [] []) :
    let a := t₁.extract.2.take gs.length
    let a' := t₂.extract.2.take gs.length
    let ρ := t₁.extract.1 - t₂.extract.1
    let α := List.zipWith (· - ·) a a'
    let φ := dot a bs - eq
    let ψ := eq - dot a' bs
    a.length = gs.length ∧ α.length = gs.length ∧
    ρ • base + mexp α gs + φ • F₁ + ψ • F₂ = 0 ∧
    (φ = 0 → C = t₁.extract.1 • base + mexp a gs + mexp (off.getD []) gs ∧ dot a bs = eq) := by
  obtain ⟨l1, e1⟩ := C13_linear_extract base gs bs eq off C F₁ t₁ hn1 hn2 hb ho h₁
  obtain ⟨l2, e2⟩ := C13_linear_extract base gs bs eq off C F₂ t₂ hn1 hn2 hb ho h₂
  intro a a' ρ α φ ψ
  have hα : mexp α gs = mexp a gs - mexp a' gs := by
    have : ∀ (p q : List F) (gs : List G), p.length = q.length →
        mexp (List.zipWith (· - ·) p q) gs = mexp p gs - mexp q gs := by
      intro p
      induction p with
      | nil => intro q gs h; obtain rfl : q = [] := List.length_eq_zero_iff.1 h.symm; simp
      | cons x p ih =>
        intro q gs h
        match q, gs, h with
        | y :: q, [], _ => simp
        | y :: q, g :: gs, h =>
          simp only [List.zipWith_cons_cons, mexp_cons, ih q gs (by simpa using h)]; module
    exact this a a' gs (l1.trans l2.symm)
  refine ⟨l1, by simp only [α, List.length_zipWith, a, a', l1, l2, min_self], ?_, fun hφ => ?_⟩
  · rw [hα]
    linear_combination (norm := module) e2 - e1
  · have hd : dot a bs = eq := sub_eq_zero.1 hφ
    refine ⟨?_, hd⟩
    have e1' : C + eq • F₁ = t₁.extract.1 • base + mexp a gs + mexp (off.getD []) gs + dot a bs • F₁ := e1
    rw [hd] at e1'
    exact add_right_cancel e1'

end

/-- A tree of accepted conversations: `n = 2`, witness `(1, 2)`, statement `(3, 4)`, so `<a,b> = 11`;
`base = 1`, `G = (10, 100)`, `F = 1000`, all numbers rational; challenges `1, -1, 2` and then `1, 2`. -/
def toyTree : LinTree ℚ ℚ :=
  .node 4100 6020 1 (-1) 2
    (.leaf 0 1 3 0 2 6 0) (.leaf 0 1 (-1) 0 2 (-2) 0) (.leaf 0 1 2 0 2 4 0)

example : toyTree.Accepted 1 [10, 100] [3, 4] 11 none 210 1000 [] [] [] := by
  have hlog : log2roundUp 2 = 1 := log2roundUp_two_pow (k := 1) (by norm_num)
  refine ⟨by norm_num, by norm_num, by norm_num, ⟨by norm_num, ?_, ?_⟩, ⟨by norm_num, ?_, ?_⟩, ⟨by norm_num, ?_, ?_⟩⟩ <;>
    refine linAccepted_of (by simp) (by simp) (by simp) (by simp) (by simp [hlog]) (by simp) (by simp)
      (by norm_num) (by norm_num) ?_ <;>
    norm_num [mexp, foldedSum, subsetProd, List.range_succ]

/-- The extractor finds the witness. -/
example : toyTree.extract = (0, [1, 2]) := by
  norm_num [toyTree, LinTree.extract, comb3, weight]

/-! ### C58: quadratic proofs -/

section
variable {F G : Type} [Field F] [AddCommGroup G] [Module F G] [DecidableEq F] [DecidableEq G]

/-- **C58.** For every length `n > 1` that is not a power of two, all generators, every commitment to
vectors `as`, `bs` and every value `eq` whatsoever, the cheating prover makes a proof that
`verifyQuadratic` accepts for the claim `<as,bs> = eq`; it fails only if a folding challenge is zero,
as the honest prover does. -/
theorem C58_quadratic_forgery (E : Env F G) (coins : Nat → F × F) (pf : QuadPf F G) (r : F) (st : E.St)
    (as bs : List F) (gs hs : List G) (n : Nat) (eq : F) (hn1 : 1 < n) (hn2 : n ≤ 2 ^ 63)
    (hnp : ∀ k, n ≠ 2 ^ k) (ha : as.length = n) (hb : bs.length = n) (hg : gs.length = n) (hh : hs.length = n)
    (hC : pf.C = r • E.base + mexp as gs + mexp bs hs) :
    (0 ∈ forgeChallenges E coins pf.C st gs as hs bs n 1 (eq - dot as bs) ∧
      forgeQuad E coins pf r st gs as hs bs n 1 (eq - dot as bs) = .throw) ∨
    (0 ∉ forgeChallenges E coins pf.C st gs as hs bs n 1 (eq - dot as bs) ∧
      ∃ pf' st', forgeQuad E coins pf r st gs as hs bs n 1 (eq - dot as bs) = .ok (pf', st') ∧ pf'.C = pf.C ∧
        pf'.tag = pf.tag ∧ verifyQuadratic E pf' gs hs n eq st none none = .ok (true, st')) := by
  have hnp' : n < next2power n := by
    rw [next2power_eq hn1.le hn2]
    exact lt_of_le_of_ne (log2roundUp_le hn2).2 (hnp _)
  rcases forgeQuad_iff E coins pf r st as bs gs hs n 1 (eq - dot as bs) hn1 hn2 hnp' ha hb hg hh with
    h0 | ⟨h0, out, ho⟩
  · exact Or.inl h0
  rcases forgeQuad_spec E coins pf r st as bs gs hs n 1 (eq - dot as bs) hn1 hn2 hnp' ha hb hg hh with
    ⟨h, -⟩ | ⟨pf', h1, h2, h3, h4, h5, h6, h7⟩
  · rw [h] at ho; cases ho
  · right
    refine ⟨h0, pf', _, h1, h3, h2, ?_⟩
    obtain ⟨b, v1, v2⟩ := verifyQuadratic_eq E pf' gs hs n eq st none none hn1.le hn2 hg hh (by simp) (by simp) h4 h5 h6
    rw [v1, v2.2]
    rw [h7, hC]
    simp [offList]


omit [DecidableEq F] [DecidableEq G] in
theorem mexp_zeros (n : Nat) (gs : List G) : mexp (List.replicate n (0 : F)) gs = 0 := by
  induction n generalizing gs with
  | zero => simp
  | succ n ih => cases gs with
    | nil => simp
    | cons g gs => simp [List.replicate_succ, ih]

/-- Low-level forgery from zero vectors. -/
theorem forge_zero (E : Env F G) (coins : Nat → F × F) (tag : Bytes) (r : F) (st : E.St)
    (gs hs : List G) (n : Nat) (eq : F) (hn1 : 1 < n) (hn2 : n ≤ 2 ^ 63)
    (hnp : ∀ k, n ≠ 2 ^ k) (hg : gs.length = n) (hh : hs.length = n)
    (hnz : 0 ∉ forgeChallenges E coins (r • E.base) st gs (List.replicate n 0) hs (List.replicate n 0) n 1 eq) :
    ∃ pf st', forgeQuad E coins ⟨tag, r • E.base, [], [], 0, 0, 0, 0, 0⟩ r st gs (List.replicate n 0) hs
        (List.replicate n 0) n 1 eq = .ok (pf, st') ∧ pf.tag = tag ∧ pf.C = r • E.base ∧
      verifyQuadratic E pf gs hs n eq st none none = .ok (true, st') := by
  have hd : dot (List.replicate n (0 : F)) (List.replicate n 0) = 0 := by rw [dot_eq_mexp, mexp_zeros]
  have := C58_quadratic_forgery E coins ⟨tag, r • E.base, [], [], 0, 0, 0, 0, 0⟩ r st (List.replicate n 0)
    (List.replicate n 0) gs hs n eq hn1 hn2 hnp (by simp) (by simp) hg hh (by simp [mexp_zeros])
  rw [hd, sub_zero] at this
  rcases this with ⟨h, -⟩ | ⟨-, pf, st', h1, h2, h3, h4⟩
  · exact absurd h hnz
  · exact ⟨pf, st', h1, h3, h2, h4⟩

/-- **C58, public interface.** For every quadratic constraint on a number of indexes that is not a power
of two, whatever value it claims, and every tag, the cheating prover makes a proof that
`verifyQuadratic(cnstr, proof)` accepts, from a commitment to zero vectors, whenever none of its folding
challenges is zero. -/
theorem C58_tag_forgery (E : Env F G) (coins : Nat → F × F) (tag : Bytes) (r : F) (c : QuadConstraint F)
    (h1 : 1 < c.indexes.length) (h2 : c.indexes.length ≤ 2 ^ 20) (hnp : ∀ k, c.indexes.length ≠ 2 ^ k)
    (hnz : 0 ∉ forgeChallenges E coins (r • E.base) (E.processQuad (E.newCtx tag) lblConstraint c)
      (c.indexes.map (E.getG tag)) (List.replicate c.indexes.length 0) (c.indexes.map (E.getH tag))
      (List.replicate c.indexes.length 0) c.indexes.length 1 c.equalsTo) :
    ∃ pf st', forgeQuad E coins ⟨tag, r • E.base, [], [], 0, 0, 0, 0, 0⟩ r
        (E.processQuad (E.newCtx tag) lblConstraint c)
        (c.indexes.map (E.getG tag)) (List.replicate c.indexes.length 0) (c.indexes.map (E.getH tag))
        (List.replicate c.indexes.length 0) c.indexes.length 1 c.equalsTo = .ok (pf, st') ∧
      verifyQuadraticTag E c pf = .ok true := by
  obtain ⟨pf, st', e1, e2, -, e3⟩ := forge_zero E coins tag r (E.processQuad (E.newCtx tag) lblConstraint c)
    (c.indexes.map (E.getG tag)) (c.indexes.map (E.getH tag)) c.indexes.length c.equalsTo h1 (by omega) hnp
    (by simp) (by simp) hnz
  refine ⟨pf, st', e1, ?_⟩
  rw [verifyQuadraticTag, e2, mkFlatQuad_verifier E tag c h1.le h2]
  simp only [Res.ok_bind, List.length_map]
  rw [e3]
  rfl

/-- **C58, norms.** Likewise for `verifyNormSquared`: any squared norm can be "proved" for any set of
indexes whose size is not a power of two.  With `z` the challenge drawn for the norm, the value forged
for the inner product is `norm - z² - z⁴ - … `. -/
theorem C58_norm_forgery (E : Env F G) (coins : Nat → F × F) (tag : Bytes) (r : F) (indexes : List Nat) (norm : F)
    (h1 : 1 < indexes.length) (h2 : indexes.length ≤ 2 ^ 20) (hnp : ∀ k, indexes.length ≠ 2 ^ k)
    (z : F) (st : E.St) (hz : E.newChallenge (E.processQuad (E.newCtx tag) lblNorm ⟨indexes, norm⟩) lblx = (z, st))
    (eq : F) (heq : eq = norm - ((List.range indexes.length).map fun i => (z ^ 2) ^ (i + 1)).sum)
    (hnz : 0 ∉ forgeChallenges E coins (r • E.base) st
      (indexes.map (E.getG tag)) (List.replicate indexes.length 0) (indexes.map (E.getH tag))
      (List.replicate indexes.length 0) indexes.length 1 eq) :
    ∃ pf st', forgeQuad E coins ⟨tag, r • E.base, [], [], 0, 0, 0, 0, 0⟩ r st
        (indexes.map (E.getG tag)) (List.replicate indexes.length 0) (indexes.map (E.getH tag))
        (List.replicate indexes.length 0) indexes.length 1 eq = .ok (pf, st') ∧
      verifyNormSquared E indexes norm pf = .ok true := by
  obtain ⟨pf, st', e1, e2, -, e3⟩ := forge_zero E coins tag r st
    (indexes.map (E.getG tag)) (indexes.map (E.getH tag)) indexes.length eq h1 (by omega) hnp (by simp) (by simp) hnz
  refine ⟨pf, st', e1, ?_⟩
  rw [verifyNormSquared, e2, mkFlatQuad_verifier E tag _ h1.le h2]
  simp only [Res.ok_bind, List.length_map, hz]
  simp only [normShiftVer_eq, ← pow_two, ← pow_succ', ← heq]
  rw [e3]
  rfl

end

/-- A proof that three zeros have squared norm 5. -/
example : ∃ pf, verifyNormSquared (toyEnv 2) [0, 1, 2] 5 pf = .ok true := by
  obtain ⟨pf, -, -, h⟩ := C58_norm_forgery (toyEnv 2) (fun _ => (1, 2)) [] 3 [0, 1, 2] 5 (by simp) (by simp)
    (fun k hk => by
      rcases k with _ | _ | k
      · simp at hk
      · simp at hk
      · have := Nat.one_le_two_pow (n := k)
        simp [pow_succ] at hk; omega) _ _ rfl _ rfl (by
        have hnz : ∀ b, (toyEnv 2).scalarReduce b ≠ 0 := by intro b; simp [toyEnv]
        unfold forgeChallenges
        rw [List.mem_cons, not_or]
        exact ⟨(hnz _).symm, quadLevels_ne_zero (toyEnv 2) hnz _ _ _ _ _ _ _ _ _ _⟩)
  exact ⟨pf, h⟩

end Verif.Props
