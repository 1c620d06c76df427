/-
C100: what a norm-squared proof shows.

The verifier of a norm draws a challenge `x` to test that the two vectors of the quadratic statement
are the same vector, but it draws it before it has seen the commitment (bulletproof.cpp:451-455; the
commitment is hashed in `verifyQuadratic`).  A prover can therefore choose the vectors after the
challenge, and prove any norm it likes, for any number of variables.
-/
import Verif.Spec.NormProof
import Verif.Lemmas.Batch
import Verif.Props.QuadSound
import Verif.Props.TopBit
import Mathlib.NumberTheory.LegendreSymbol.QuadraticReciprocity

namespace Verif.Props
open Verif.Sc Verif.Spec

section
variable {F G : Type} [Field F] [DecidableEq F] [DecidableEq G] [AddCommGroup G] [Module F G]

omit [DecidableEq F] in
/-- The inner product of the committed vectors. -/
theorem C100_inner (x : F) (n : ℕ) (v w : ℕ → F) :
    dot (normUp x n v) (normDown x n w) =
      innerUpTo n v w + normTest x n v w - ((List.range n).map fun i => (x ^ 2) ^ (i + 1)).sum := by
  unfold normUp normDown innerUpTo normTest
  rw [dot_range]
  induction n with
  | zero => simp
  | succ n ih =>
    simp only [List.range_succ, List.map_append, List.sum_append, List.map_cons, List.map_nil, List.sum_cons,
      List.sum_nil, Finset.sum_range_succ] at ih ⊢
    rw [ih]
    ring

/-- A prover that commits to `v_i + x^(i+1)` and `w_i - x^(i+1)` after it has seen the challenge `x` and then
follows the protocol convinces the verifier iff the inner product of `v` and `w` and the test for
their equality sum up to the claimed norm. -/
theorem C100_norm_exact (E : Env F G) (coins : Nat → F × F) (tag : Bytes) (r : F) (indexes : List Nat) (normSq : F)
    (v w : ℕ → F) (pf : QuadPf F G) (x : F) (st st' : E.St) (h1 : 1 ≤ indexes.length)
    (h2 : indexes.length ≤ 2 ^ 20)
    (hx : E.newChallenge (E.processQuad (E.newCtx tag) lblNorm ⟨indexes, normSq⟩) lblx = (x, st)) (C : G)
    (hC : C = r • E.base + mexp (normUp x indexes.length v) (indexes.map (E.getG tag)) +
      mexp (normDown x indexes.length w) (indexes.map (E.getH tag)))
    (hp : proveQuadratic E coins ⟨tag, C, [], [], 0, 0, 0, 0, 0⟩ r st (indexes.map (E.getG tag))
      (normUp x indexes.length v) (indexes.map (E.getH tag)) (normDown x indexes.length w) indexes.length =
      .ok (pf, st')) :
    pf.C = C ∧ pf.tag = tag ∧ ∃ b, verifyNormSquared E indexes normSq pf = .ok b ∧
      (b = true ↔ normSq • (E.newGenerator (E.processPoint st lblC C) lblF).1 =
        (innerUpTo indexes.length v w + normTest x indexes.length v w) •
          (E.newGenerator (E.processPoint st lblC C) lblF).1) := by
  have hu : (normUp x indexes.length v).length = indexes.length := by simp [normUp]
  have hd : (normDown x indexes.length w).length = indexes.length := by simp [normDown]
  rcases proveQuadratic_spec E coins ⟨tag, C, [], [], 0, 0, 0, 0, 0⟩ r st (normUp x indexes.length v)
    (normDown x indexes.length w) (indexes.map (E.getG tag)) (indexes.map (E.getH tag)) indexes.length h1 (by omega)
    hu hd (by simp) (by simp) rfl rfl with ⟨ht, -⟩ | ⟨q, hq, hq1, hq2, hq3, hq4, hq5, hq6⟩
  · rw [ht] at hp; cases hp
  · rw [hq] at hp
    obtain rfl : q = pf := congrArg Prod.fst (Res.ok.inj hp)
    refine ⟨hq2, hq1, ?_⟩
    obtain ⟨S, hS⟩ : ∃ S, S = ((List.range indexes.length).map fun i => (x ^ 2) ^ (i + 1)).sum := ⟨_, rfl⟩
    obtain ⟨b, hb, hiff⟩ := (C11_quadratic_verifier E q (indexes.map (E.getG tag)) (indexes.map (E.getH tag))
      indexes.length (normSq - S) st none none h1 (by omega) (by simp) (by simp) (by simp) (by simp) hq3 hq4).2 hq5
    refine ⟨b, ?_, hiff.trans ?_⟩
    · rw [verifyNormSquared, hq1, mkFlatQuad_verifier E tag _ h1 h2]
      simp only [Res.ok_bind, List.length_map, hx]
      simp only [normShiftVer_eq, ← pow_two, ← pow_succ', ← hS]
      rw [hb]
      rfl
    · rw [Option.getD_none, hq6]
      have hF : (deriveQuad E q indexes.length st).Fg = (E.newGenerator (E.processPoint st lblC C) lblF).1 := by
        simp only [deriveQuad, Env.newGenerator, Env.processPoint]
        rw [hq2]
        rfl
      rw [hF]
      simp only [mexp_nil_left, add_zero]
      rw [← hC, add_right_inj, C100_inner, ← hS]
      generalize (E.newGenerator (E.processPoint st lblC C) lblF).1 = Fg
      rw [sub_smul, sub_smul, sub_left_inj]

/-- Any claim: for every index set and every number there are vectors with which the verifier is convinced
that the committed vector has this squared norm.  The first of the vectors is zero. -/
theorem C100_norm_forgery (E : Env F G) (coins : Nat → F × F) (tag : Bytes) (r : F) (indexes : List Nat)
    (normSq : F) (w : ℕ → F) (pf : QuadPf F G) (x : F) (st st' : E.St) (h1 : 1 ≤ indexes.length)
    (h2 : indexes.length ≤ 2 ^ 20)
    (hx : E.newChallenge (E.processQuad (E.newCtx tag) lblNorm ⟨indexes, normSq⟩) lblx = (x, st)) (hx0 : x ≠ 0)
    (hw : w = fun i => if i = 0 then normSq / x else 0) (C : G)
    (hC : C = r • E.base + mexp (normUp x indexes.length 0) (indexes.map (E.getG tag)) +
      mexp (normDown x indexes.length w) (indexes.map (E.getH tag)))
    (hp : proveQuadratic E coins ⟨tag, C, [], [], 0, 0, 0, 0, 0⟩ r st (indexes.map (E.getG tag))
      (normUp x indexes.length 0) (indexes.map (E.getH tag)) (normDown x indexes.length w) indexes.length =
      .ok (pf, st')) :
    pf.C = C ∧ pf.tag = tag ∧ verifyNormSquared E indexes normSq pf = .ok true := by
  obtain ⟨e1, e2, b, e3, e4⟩ := C100_norm_exact E coins tag r indexes normSq 0 w pf x st st' h1 h2 hx C hC hp
  refine ⟨e1, e2, ?_⟩
  rw [e3]
  have : b = true := e4.2 (by
    congr 1
    unfold innerUpTo normTest
    rw [hw, Finset.sum_eq_zero (fun i _ => by simp), zero_add,
      Finset.sum_eq_single 0 (fun i _ hi => by simp [hi]) (fun h => absurd (Finset.mem_range.2 h1) h)]
    simp
    field_simp)
  rw [this]

omit [DecidableEq F] in
/-- If the vectors were fixed before the challenge, the test would be sound: unless they are equal and have the
claimed norm, it holds for at most as many challenges as there are variables. -/
theorem C100_fixed_first (n : ℕ) (normSq : F) (v w : ℕ → F) (xs : Finset F)
    (hxs : ∀ x ∈ xs, normSq = innerUpTo n v w + normTest x n v w) (hc : n < xs.card) :
    (∀ i < n, v i = w i) ∧ innerUpTo n v v = normSq := by
  obtain ⟨f, hf⟩ : ∃ f : ℕ → F, f = fun j => match j with
      | 0 => innerUpTo n v w - normSq
      | i + 1 => w i - v i := ⟨_, rfl⟩
  have hp : (∑ j ∈ Finset.range (n + 1), Polynomial.C (f j) * Polynomial.X ^ j : Polynomial F) = 0 := by
    refine Polynomial.eq_zero_of_natDegree_lt_card_of_eval_eq_zero' _ xs (fun x hx => ?_)
      ((poly_natDegree _ _).trans_lt (by simpa using hc))
    rw [Polynomial.eval_finset_sum, Finset.sum_range_succ']
    simp only [Polynomial.eval_mul, Polynomial.eval_C, Polynomial.eval_pow, Polynomial.eval_X, pow_zero, mul_one]
    have := hxs x hx
    rw [hf]
    unfold normTest at this
    linear_combination -this
  have hcoef : ∀ j < n + 1, f j = 0 := by
    intro j hj
    rw [← poly_coeff (n + 1) f j hj, hp, Polynomial.coeff_zero]
  have hvw : ∀ i < n, v i = w i := by
    intro i hi
    have := hcoef (i + 1) (by omega)
    rw [hf] at this
    exact (sub_eq_zero.1 this).symm
  refine ⟨hvw, ?_⟩
  have h0 := hcoef 0 (by omega)
  rw [hf] at h0
  rw [← sub_eq_zero.1 h0]
  exact Finset.sum_congr rfl fun i hi => by rw [hvw i (Finset.mem_range.1 hi)]

end

/-- No scalar has square 2. -/
theorem C100_no_root (v : ZMod order) : v * v ≠ 2 := by
  intro h
  have h8 : order % 8 = 5 := by decide +kernel
  rcases (ZMod.exists_sq_eq_two_iff (p := order) (by unfold order; norm_num)).1 ⟨v, h.symm⟩ with h' | h' <;> omega

/-! ### The hypotheses can be met -/

/-- So there is an accepted proof that the square of a single committed scalar is 2. -/
example : ∃ pf : QuadPf (ZMod order) (ZMod order), verifyNormSquared toyCurveEnv [0] 2 pf = .ok true ∧
    ∀ v : ZMod order, v * v ≠ 2 := by
  have hu : normUp (1 : ZMod order) 1 0 = [1] := by simp [normUp]
  have hd : normDown (1 : ZMod order) 1 (fun i => if i = 0 then 2 / 1 else 0) = [1] := by
    simp [normDown]
    norm_num
  obtain ⟨q, hq, -⟩ := toy_one ((4 : ZMod order) • 1 + mexp [(1 : ZMod order)] [3] + mexp [(1 : ZMod order)] [3]) 4 1 1
  exact ⟨q, (C100_norm_forgery toyCurveEnv (fun _ => (1, 2)) [] 4 [0] 2 (fun i => if i = 0 then 2 / 1 else 0) q 1 () ()
    (by simp) (by simp) rfl one_ne_zero rfl
    ((4 : ZMod order) • 1 + mexp [(1 : ZMod order)] [3] + mexp [(1 : ZMod order)] [3])
    (by rw [List.length_singleton, hu, hd]; rfl) (by rw [List.length_singleton, hu, hd]; exact hq)).2.2, C100_no_root⟩

/-- Two rational numbers whose squares sum up to -7, in an environment in which all challenges are 2. -/
example : ∃ pf, verifyNormSquared (toyEnv 2) [3, 5] (-7) pf = .ok true := by
  obtain ⟨w, hw⟩ : ∃ w : ℕ → ℚ, w = fun i => if i = 0 then -7 / 2 else 0 := ⟨_, rfl⟩
  obtain ⟨x, st, hx⟩ : ∃ x st, (toyEnv 2).newChallenge ((toyEnv 2).processQuad ((toyEnv 2).newCtx []) lblNorm
    ⟨[3, 5], -7⟩) lblx = (x, st) := ⟨_, _, rfl⟩
  obtain rfl : x = 2 := by
    have := congrArg Prod.fst hx
    simpa [Env.newChallenge, toyEnv] using this.symm
  obtain ⟨C, hC⟩ : ∃ C, C = (3 : ℚ) • (toyEnv 2).base + mexp (normUp (2 : ℚ) 2 0) ([3, 5].map ((toyEnv 2).getG [])) +
      mexp (normDown 2 2 w) ([3, 5].map ((toyEnv 2).getH [])) := ⟨_, rfl⟩
  obtain ⟨p, s, h, -⟩ := ((C08_quadratic_prover_total (toyEnv 2) (fun _ => (1, 2)) ⟨[], C, [], [], 0, 0, 0, 0, 0⟩ 3 st
    (normUp (2 : ℚ) 2 0) (normDown 2 2 w) ([3, 5].map ((toyEnv 2).getG [])) ([3, 5].map ((toyEnv 2).getH [])) 2
    (by norm_num) (by norm_num) (by simp [normUp]) (by simp [normDown]) (by simp) (by simp) rfl rfl).resolve_left
      fun h => quadChallenges_ne_zero (toyEnv 2) (by intro b; simp [toyEnv]) _ _ _ _ _ _ _ _ h.1).2
  exact ⟨p, (C100_norm_forgery (toyEnv 2) (fun _ => (1, 2)) [] 3 [3, 5] (-7) w p 2 st s (by simp) (by simp) hx
    (by norm_num) hw C hC h).2.2⟩

/-- Fixed vectors: (1, 2) twice. -/
example (v w : ℕ → ℚ) (hv : v = fun i : ℕ => (i : ℚ) + 1) (hw : w = fun i : ℕ => (i : ℚ) + 1) :
    (∀ i < 2, v i = w i) ∧ innerUpTo 2 v v = 5 :=
  C100_fixed_first 2 5 v w {1, 2, 3} (by
    intro x _
    simp [innerUpTo, normTest, Finset.sum_range_succ, hv, hw]
    norm_num) (by decide)

end Verif.Props
