/-
Property theorems C96: how many exponentiations proving and verifying take.

The functions ending in `C` (Verif.Model.Count) are the proof functions with the effect of
`Point::counter`; `Counts p q N` (Verif.Spec.Count) says that `p` has the outcome of `q` and that
the counter has advanced by `N` less the number of trivial products.
-/
import Verif.Lemmas.Count
import Verif.Props.Bulletproof

namespace Verif.Props
open Verif Spec

section
variable {F G : Type} [Field F] [AddCommGroup G] [Module F G] [DecidableEq F] [DecidableEq G]

/-- C96.  A multi-exponentiation advances the counter by the number of positions where neither
the exponent is zero nor the generator is the identity. -/
theorem C96_multi_exp (Gs : List G) (xs : List F) (n : Nat) (hG : n ≤ Gs.length) (hx : n ≤ xs.length)
    (c : Counter) :
    ∃ m, multiExp Gs n xs = .ok m ∧
      multiExpC Gs n xs c = .ok (m,
        ⟨c.counter + ((Gs.zip xs).take n).countP (fun e => decide (e.1 ≠ 0 ∧ e.2 ≠ 0)),
          c.trivial + ((Gs.zip xs).take n).countP (fun e => decide (e.1 = 0 ∨ e.2 = 0))⟩) := by
  have key : ∀ (gs : List G) (xs : List F) (a : G) (c : Counter), gs.length = xs.length →
      multiExpAccC a gs xs c = .ok (multiExpAcc a gs xs,
        ⟨c.counter + (gs.zip xs).countP (fun e => decide (e.1 ≠ 0 ∧ e.2 ≠ 0)),
          c.trivial + (gs.zip xs).countP (fun e => decide (e.1 = 0 ∨ e.2 = 0))⟩) := by
    intro gs
    induction gs with
    | nil => intro xs a c _; rfl
    | cons g gs ih =>
      intro xs a c h
      cases xs with
      | nil => simp at h
      | cons x xs =>
        have e : multiExpAccC a (g :: gs) (x :: xs) c = multiExpAccC (a + x • g) gs xs
            (if g = 0 ∨ x = 0 then { c with trivial := c.trivial + 1 }
              else { c with counter := c.counter + 1 }) := rfl
        rw [e, ih xs _ _ (by simpa using h)]
        by_cases h0 : g = 0 ∨ x = 0
        · have h0' : ¬ (g ≠ 0 ∧ x ≠ 0) := by tauto
          simp only [if_pos h0, List.zip_cons_cons, List.countP_cons, decide_eq_true_eq, if_neg h0',
            multiExpAcc]
          congr 3
          omega
        · have h0' : g ≠ 0 ∧ x ≠ 0 := by tauto
          simp only [if_neg h0, List.zip_cons_cons, List.countP_cons, decide_eq_true_eq, if_pos h0',
            multiExpAcc]
          congr 3
          omega
  refine ⟨multiExpAcc 0 (Gs.take n) (xs.take n), ?_, ?_⟩
  · unfold multiExp
    rw [rdN_ok hG, rdN_ok hx]
    rfl
  · have e : multiExpC Gs n xs c = (rdN Gs n >>= fun gs => rdN xs n >>= fun ys =>
        multiExpAccC 0 gs ys c) := by
      unfold multiExpC
      rw [rdN_ok hG, rdN_ok hx]
      rfl
    rw [e, rdN_ok hG, rdN_ok hx, Res.ok_bind, Res.ok_bind,
      key _ _ _ _ (by rw [List.length_take, List.length_take]; omega), List.zip, List.take_zipWith]

/-- C96.  A commitment to `n` values takes `n + 2` products of a point with a scalar. -/
theorem C96_commit (base : G) (Gs : List G) (xs : List F) (n : Nat) (r : F) (Fg : G) (alpha : F) :
    Counts (commitC base Gs xs n r Fg alpha) (commit base Gs xs n r Fg alpha) (n + 2) :=
  commitC_counts base Gs xs n r Fg alpha

/-- C96.  The low-level linear prover. -/
theorem C96_linear_prover (E : Env F G) (coins : Nat → F × F) (pf : LinPf F G) (r : F) (st : E.St)
    (as bs : List F) (gs : List G) (n : Nat) (h1 : 1 ≤ n) (h2 : n ≤ 2 ^ 63) :
    Counts (proveLinearC E coins pf r st as bs gs n) (proveLinear E coins pf r st as bs gs n)
      (3 * n + 4 * Nat.clog 2 n) := by
  rw [← log2roundUp_clog h2]
  exact proveLinearC_counts E coins pf r st as bs gs n h1 h2

/-- C96.  The low-level linear verifier. -/
theorem C96_linear_verifier (E : Env F G) (pf : LinPf F G) (bs : List F) (gs : List G) (n : Nat)
    (eq : F) (st : E.St) (w : Option (List F)) (h2 : n ≤ 2 ^ 63) :
    Counts (verifyLinearC E pf bs gs n eq st w) (verifyLinear E pf bs gs n eq st w)
      (n + 2 * Nat.clog 2 n + 4) := by
  rw [← log2roundUp_clog h2]
  exact verifyLinearC_counts E pf bs gs n eq st w

/-- C96.  The low-level quadratic prover. -/
theorem C96_quadratic_prover (E : Env F G) (coins : Nat → F × F) (pf : QuadPf F G) (r : F)
    (st : E.St) (gs : List G) (as : List F) (hs : List G) (bs : List F) (n : Nat) (h1 : 1 ≤ n)
    (h2 : n ≤ 2 ^ 63) :
    Counts (proveQuadraticC E coins pf r st gs as hs bs n)
      (proveQuadratic E coins pf r st gs as hs bs n) (6 * n + 4 * Nat.clog 2 n) := by
  rw [← log2roundUp_clog h2]
  exact proveQuadraticC_counts E coins pf r st gs as hs bs n h1 h2

/-- C96.  The low-level quadratic verifier. -/
theorem C96_quadratic_verifier (E : Env F G) (pf : QuadPf F G) (gs hs : List G) (n : Nat)
    (eq : F) (st : E.St) (u v : Option (List F)) (h2 : n ≤ 2 ^ 63) :
    Counts (verifyQuadraticC E pf gs hs n eq st u v) (verifyQuadratic E pf gs hs n eq st u v)
      (2 * n + 2 * Nat.clog 2 n + 5) := by
  rw [← log2roundUp_clog h2]
  exact verifyQuadraticC_counts E pf gs hs n eq st u v

private theorem lin_len (E : Env F G) (tag : Bytes) (c : LinConstraint F) (xes : PtxtVec F) :
    c.terms.length ≤ 2 ^ 20 ∨ mkFlatLin E tag c xes = .throw := by
  by_cases h : c.terms.length ≤ 2 ^ 20
  · exact Or.inl h
  · right
    unfold mkFlatLin
    dsimp only
    rw [if_pos (by omega)]

private theorem quad_len (E : Env F G) (tag : Bytes) (c : QuadConstraint F) (xes ys : PtxtVec F) :
    c.indexes.length ≤ 2 ^ 20 ∨ mkFlatQuad E tag c xes ys = .throw := by
  by_cases h : c.indexes.length ≤ 2 ^ 20
  · exact Or.inl h
  · right
    unfold mkFlatQuad
    dsimp only
    rw [if_pos (by omega)]

/-- C96.  `proveLinear(tag, constraint, witness)`: the commitment and the proof. -/
theorem C96_linear_prover_tag (E : Env F G) (coins : Nat → F × F) (r : F) (tag : Bytes)
    (c : LinConstraint F) (xes : PtxtVec F) :
    Counts (proveLinearTagC E coins r tag c xes) (proveLinearTag E coins r tag c xes)
      (4 * c.terms.length + 4 * Nat.clog 2 c.terms.length + 2) := by
  rcases lin_len E tag c xes with h | h
  · rw [← log2roundUp_clog (h.trans (by norm_num))]
    exact proveLinearTagC_counts E coins r tag c xes
  · intro s
    unfold proveLinearTagC proveLinearTag
    rw [h]
    rfl

/-- C96.  `verifyLinear(constraint, proof)`. -/
theorem C96_linear_verifier_tag (E : Env F G) (c : LinConstraint F) (pf : LinPf F G) :
    Counts (verifyLinearTagC E c pf) (verifyLinearTag E c pf)
      (c.terms.length + 2 * Nat.clog 2 c.terms.length + 4) := by
  rcases lin_len E pf.tag c [] with h | h
  · rw [← log2roundUp_clog (h.trans (by norm_num))]
    exact verifyLinearTagC_counts E c pf
  · intro s
    unfold verifyLinearTagC verifyLinearTag
    rw [h]
    rfl

/-- C96.  `proveQuadratic(tag, constraint, xs, ys)`: the commitment and the proof. -/
theorem C96_quadratic_prover_tag (E : Env F G) (coins : Nat → F × F) (r : F) (tag : Bytes)
    (c : QuadConstraint F) (xs ys : PtxtVec F) :
    Counts (proveQuadraticTagC E coins r tag c xs ys) (proveQuadraticTag E coins r tag c xs ys)
      (8 * c.indexes.length + 4 * Nat.clog 2 c.indexes.length + 2) := by
  rcases quad_len E tag c xs ys with h | h
  · rw [← log2roundUp_clog (h.trans (by norm_num))]
    exact proveQuadraticTagC_counts E coins r tag c xs ys
  · intro s
    unfold proveQuadraticTagC proveQuadraticTag
    rw [h]
    rfl

/-- C96.  `verifyQuadratic(constraint, proof)`. -/
theorem C96_quadratic_verifier_tag (E : Env F G) (c : QuadConstraint F) (pf : QuadPf F G) :
    Counts (verifyQuadraticTagC E c pf) (verifyQuadraticTag E c pf)
      (2 * c.indexes.length + 2 * Nat.clog 2 c.indexes.length + 5) := by
  rcases quad_len E pf.tag c [] [] with h | h
  · rw [← log2roundUp_clog (h.trans (by norm_num))]
    exact verifyQuadraticTagC_counts E c pf
  · intro s
    unfold verifyQuadraticTagC verifyQuadraticTag
    rw [h]
    rfl

/-- C96.  `proveNormSquared`. -/
theorem C96_norm_prover (E : Env F G) (coins : Nat → F × F) (r : F) (pf : QuadPf F G)
    (st : E.St) (vec : PtxtVec F) :
    Counts (proveNormSquaredC E coins r pf st vec) (proveNormSquared E coins r pf st vec)
      (8 * vec.length + 4 * Nat.clog 2 vec.length + 2) := by
  have hv : (normConstraint vec).indexes.length = vec.length := by simp [normConstraint_eq]
  rcases quad_len E pf.tag (normConstraint vec) vec vec with h | h
  · rw [hv] at h
    rw [← log2roundUp_clog (h.trans (by norm_num))]
    exact proveNormSquaredC_counts E coins r pf st vec
  · intro s
    unfold proveNormSquaredC proveNormSquared
    simp only [h]
    rfl

/-- C96.  `verifyNormSquared`. -/
theorem C96_norm_verifier (E : Env F G) (idx : List Nat) (normSq : F) (pf : QuadPf F G) :
    Counts (verifyNormSquaredC E idx normSq pf) (verifyNormSquared E idx normSq pf)
      (2 * idx.length + 2 * Nat.clog 2 idx.length + 5) := by
  rcases quad_len E pf.tag ⟨idx, normSq⟩ [] [] with h | h
  · rw [← log2roundUp_clog (show idx.length ≤ 2 ^ 63 from h.trans (by norm_num))]
    exact verifyNormSquaredC_counts E idx normSq pf
  · intro s
    unfold verifyNormSquaredC verifyNormSquared
    simp only [h]
    rfl

end

/-- Three values, one of them zero: two exponentiations are counted. -/
example : multiExpC [(7 : ℚ), 8, 9] 3 [(1 : ℚ), 0, 3] ⟨10, 0⟩ = .ok (34, ⟨12, 1⟩) := by
  decide +kernel

/-- An honest run on three values returns and takes 17 products. -/
example : ∃ v d t, d + t = 17 ∧ proveLinearC (toyEnv 2) (fun k => ((k : ℚ), 3)) ⟨[1], 50, [], [], 0, 0, 0⟩
    5 [] [1, 2, 3] [4, 5, 6] [(7 : ℚ), 8, 9] 3 ⟨0, 0⟩ = .ok (v, ⟨d, t⟩) := by
  obtain ⟨p, s, h, -⟩ := ((C06_linear_prover_total (toyEnv 2) (fun k => ((k : ℚ), 3))
    ⟨[1], 50, [], [], 0, 0, 0⟩ 5 [] [1, 2, 3] [4, 5, 6] [7, 8, 9] 3
    (by norm_num) (by norm_num) rfl rfl rfl rfl rfl).resolve_left
      fun h => linChallenges_ne_zero (toyEnv 2) (by intro b; simp [toyEnv]) _ _ _ _ _ _ _ h.1).2
  have hc := C96_linear_prover (toyEnv 2) (fun k => ((k : ℚ), 3)) ⟨[1], 50, [], [], 0, 0, 0⟩ 5 []
    [1, 2, 3] [4, 5, 6] [(7 : ℚ), 8, 9] 3 (by norm_num) (by norm_num) ⟨0, 0⟩
  rw [h] at hc
  obtain ⟨d, t, hdt, e⟩ := hc
  have : Nat.clog 2 3 = 2 := by decide +kernel
  refine ⟨(p, s), d, t, by omega, ?_⟩
  simpa using e

end Verif.Props
