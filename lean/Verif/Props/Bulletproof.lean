/-
Property theorems C06-C12 and C14: completeness of the bulletproofs, exactness of the
verifiers, transcripts in step.

`E : Env F G` is an arbitrary environment: any field of scalars, any vector space of points,
any deterministic transcript hash, any hash to the group.  `coins` are the values returned by
`newBlindingFactors`.
-/
import Verif.Lemmas.BPTag
import Verif.Lemmas.Honest
import Verif.Spec.Toy

namespace Verif.Props
open Verif Spec

section
variable {F G : Type} [Field F] [AddCommGroup G] [Module F G] [DecidableEq F] [DecidableEq G]

/-! ### C06, C07: linear proofs -/

/-- C06/C07.  Completeness of linear proofs, with optional witness offsets.  The prover is run
on the witness `as`, `pf.C` commits to `as + offsets`, and the statement is `⟨as,bs⟩ = eq`.
Then the verifier, started in the same transcript state, accepts, unless the last challenge
is zero, in which case it throws. -/
theorem C07_linear_complete_offsets (E : Env F G) (coins : Nat → F × F) (pf pf' : LinPf F G) (r : F)
    (st st' : E.St) (as bs : List F) (gs : List G) (n : Nat) (off : Option (List F))
    (hn1 : 1 ≤ n) (hn2 : n ≤ 2 ^ 63) (ha : as.length = n) (hb : bs.length = n) (hg : gs.length = n)
    (ho : ∀ o, off = some o → o.length = n) (hL : pf.Ls = []) (hR : pf.Rs = [])
    (hC : pf.C = r • E.base + mexp as gs + mexp (off.getD []) gs)
    (hp : proveLinear E coins pf r st as bs gs n = .ok (pf', st')) :
    verifyLinear E pf' bs gs n (dot as bs) st off =
      if (deriveLin E pf' n st).x = 0 then .throw else .ok (true, st') := by
  rcases proveLinear_spec E coins pf r st as bs gs n hn1 hn2 ha hb hg hL hR with
    ⟨ht, _⟩ | ⟨q, hq, -, hqC, hqL, hqR, hq0, hqE⟩
  · rw [ht] at hp; cases hp
  · rw [hq] at hp
    obtain ⟨rfl, rfl⟩ : q = pf' ∧ (deriveLin E q n st).st = st' := by
      have := Res.ok.inj hp; exact ⟨congrArg Prod.fst this, congrArg Prod.snd this⟩
    by_cases hx : (deriveLin E q n st).x = 0
    · rw [if_pos hx]
      exact verifyLinear_zero E q bs gs n _ st off hn1 hn2 hb (Or.inr hx)
    · rw [if_neg hx]
      obtain ⟨b, hb1, hb2⟩ := verifyLinear_eq E q bs gs n (dot as bs) st off hn1 hn2 hb hg ho hqL hqR hq0 hx
      rw [hb1, hb2.2]
      rw [hqE]
      congr 1
      rw [hC]
      unfold offList
      abel

/-- C06.  Completeness of linear proofs. -/
theorem C06_linear_complete (E : Env F G) (coins : Nat → F × F) (pf pf' : LinPf F G) (r : F)
    (st st' : E.St) (as bs : List F) (gs : List G) (n : Nat)
    (hn1 : 1 ≤ n) (hn2 : n ≤ 2 ^ 63) (ha : as.length = n) (hb : bs.length = n) (hg : gs.length = n)
    (hL : pf.Ls = []) (hR : pf.Rs = [])
    (hC : commit E.base gs as n r = .ok pf.C)
    (hp : proveLinear E coins pf r st as bs gs n = .ok (pf', st')) :
    verifyLinear E pf' bs gs n (dot as bs) st none =
      if (deriveLin E pf' n st).x = 0 then .throw else .ok (true, st') := by
  refine C07_linear_complete_offsets E coins pf pf' r st st' as bs gs n none hn1 hn2 ha hb hg
    (by simp) hL hR ?_ hp
  rw [commit, multiExp_ok hg.ge ha.ge, List.take_of_length_le ha.le, List.take_of_length_le hg.le] at hC
  have := Res.ok.inj hC
  rw [← this]; simp

/-- C06.  When the linear prover succeeds: it never has undefined behaviour, it throws exactly when one
of the folding challenges of its run is zero, and otherwise it returns a proof, whose folding challenges,
as the verifier will derive them, are those of the run. -/
theorem C06_linear_prover_total (E : Env F G) (coins : Nat → F × F) (pf : LinPf F G) (r : F) (st : E.St)
    (as bs : List F) (gs : List G) (n : Nat) (hn1 : 1 ≤ n) (hn2 : n ≤ 2 ^ 63) (ha : as.length = n)
    (hb : bs.length = n) (hg : gs.length = n) (hL : pf.Ls = []) (hR : pf.Rs = []) :
    (0 ∈ linChallenges E coins pf.C st as bs gs n ∧ proveLinear E coins pf r st as bs gs n = .throw) ∨
    (0 ∉ linChallenges E coins pf.C st as bs gs n ∧
      ∃ pf' st', proveLinear E coins pf r st as bs gs n = .ok (pf', st') ∧
        (deriveLin E pf' n st).xs = linChallenges E coins pf.C st as bs gs n) :=
  proveLinear_iff E coins pf r st as bs gs n hn1 hn2 ha hb hg hL hR

/-- C06, the converse on honest runs: a proof made by the prover code for a commitment to `as`
is accepted for exactly one value, `⟨as,bs⟩`, unless the derived generator `F` is zero. -/
theorem C06_linear_exact (E : Env F G) (coins : Nat → F × F) (pf pf' : LinPf F G) (r : F)
    (st st' : E.St) (as bs : List F) (gs : List G) (n : Nat) (eq : F)
    (hn1 : 1 ≤ n) (hn2 : n ≤ 2 ^ 63) (ha : as.length = n) (hb : bs.length = n) (hg : gs.length = n)
    (hL : pf.Ls = []) (hR : pf.Rs = []) (hC : commit E.base gs as n r = .ok pf.C)
    (hp : proveLinear E coins pf r st as bs gs n = .ok (pf', st'))
    (hx : (deriveLin E pf' n st).x ≠ 0) (hF : (deriveLin E pf' n st).Fg ≠ 0) :
    verifyLinear E pf' bs gs n eq st none = .ok (decide (eq = dot as bs), st') := by
  rw [commit, multiExp_ok hg.ge ha.ge, List.take_of_length_le ha.le, List.take_of_length_le hg.le] at hC
  have hC' : pf.C = r • E.base + mexp as gs := by
    have := Res.ok.inj hC; rw [← this]; simp
  rcases proveLinear_spec E coins pf r st as bs gs n hn1 hn2 ha hb hg hL hR with
    ⟨ht, _⟩ | ⟨q, hq, -, hqC, hqL, hqR, hq0, hqE⟩
  · rw [ht] at hp; cases hp
  · rw [hq] at hp
    obtain ⟨rfl, rfl⟩ : q = pf' ∧ (deriveLin E q n st).st = st' := by
      have := Res.ok.inj hp; exact ⟨congrArg Prod.fst this, congrArg Prod.snd this⟩
    obtain ⟨b, hb1, hb2⟩ := verifyLinear_eq E q bs gs n eq st none hn1 hn2 hb hg (by simp) hqL hqR hq0 hx
    rw [hb1]
    congr 2
    rw [Bool.eq_iff_iff, hb2, decide_eq_true_eq, hqE]
    rw [hC']
    simp only [offList, Option.getD_none, mexp_nil_left, add_zero]
    constructor
    · intro h
      have h1 := smul_right_injective G hx h
      have h2 : eq • (deriveLin E q n st).Fg = dot as bs • (deriveLin E q n st).Fg := add_left_cancel h1
      exact smul_left_injective F hF h2
    · rintro rfl; rfl

/-- Non-vacuity: a run of the prover with three elements in the toy environment. -/
example : ∃ pf' st', proveLinear (toyEnv 2) (fun k => ((k : ℚ), 3)) ⟨[1], 1 * 5 + (1 * 7 + (2 * 8 + 3 * 9)), [], [], 0, 0, 0⟩
      5 [] [1, 2, 3] [4, 5, 6] [7, 8, 9] 3 = .ok (pf', st') ∧
    (deriveLin (toyEnv 2) pf' 3 []).x ≠ 0 := by
  obtain ⟨p, s, h, -⟩ := ((C06_linear_prover_total (toyEnv 2) (fun k => ((k : ℚ), 3))
    ⟨[1], 1 * 5 + (1 * 7 + (2 * 8 + 3 * 9)), [], [], 0, 0, 0⟩ 5 [] [1, 2, 3] [4, 5, 6] [7, 8, 9] 3
    (by norm_num) (by norm_num) rfl rfl rfl rfl rfl).resolve_left
      fun h => linChallenges_ne_zero (toyEnv 2) (by intro b; simp [toyEnv]) _ _ _ _ _ _ _ h.1).2
  exact ⟨p, s, h, by simp [deriveLin, toyEnv]⟩

/-! ### C08: quadratic proofs -/

/-- C08.  Completeness of quadratic proofs with optional offsets: the prover is run on `as`,
`bs`; `pf.C` commits to `as + uoff`, `bs + voff`; the verifier then accepts `⟨as,bs⟩`. -/
theorem C08_quadratic_complete (E : Env F G) (coins : Nat → F × F) (pf pf' : QuadPf F G) (r : F)
    (st st' : E.St) (as bs : List F) (gs hs : List G) (n : Nat) (uoff voff : Option (List F))
    (hn1 : 1 ≤ n) (hn2 : n ≤ 2 ^ 63) (ha : as.length = n) (hb : bs.length = n) (hg : gs.length = n)
    (hh : hs.length = n) (hu : ∀ o, uoff = some o → o.length = n) (hv : ∀ o, voff = some o → o.length = n)
    (hL : pf.Ls = []) (hR : pf.Rs = [])
    (hC : pf.C = r • E.base + mexp as gs + mexp bs hs + mexp (uoff.getD []) gs + mexp (voff.getD []) hs)
    (hp : proveQuadratic E coins pf r st gs as hs bs n = .ok (pf', st')) :
    verifyQuadratic E pf' gs hs n (dot as bs) st uoff voff = .ok (true, st') := by
  rcases proveQuadratic_spec E coins pf r st as bs gs hs n hn1 hn2 ha hb hg hh hL hR with
    ⟨ht, _⟩ | ⟨q, hq, -, hqC, hqL, hqR, hq0, hqE⟩
  · rw [ht] at hp; cases hp
  · rw [hq] at hp
    obtain ⟨rfl, rfl⟩ : q = pf' ∧ (deriveQuad E q n st).st = st' := by
      have := Res.ok.inj hp; exact ⟨congrArg Prod.fst this, congrArg Prod.snd this⟩
    obtain ⟨b, hb1, hb2⟩ := verifyQuadratic_eq E q gs hs n (dot as bs) st uoff voff hn1 hn2 hg hh hu hv
      hqL hqR hq0
    rw [hb1, hb2.2]
    rw [hqE]
    rw [hC]
    rfl

/-- C08, the converse on honest runs: the proof is accepted for exactly one value, `⟨as,bs⟩`,
unless the derived generator `F` is zero. -/
theorem C08_quadratic_exact (E : Env F G) (coins : Nat → F × F) (pf pf' : QuadPf F G) (r : F)
    (st st' : E.St) (as bs : List F) (gs hs : List G) (n : Nat) (uoff voff : Option (List F)) (eq : F)
    (hn1 : 1 ≤ n) (hn2 : n ≤ 2 ^ 63) (ha : as.length = n) (hb : bs.length = n) (hg : gs.length = n)
    (hh : hs.length = n) (hu : ∀ o, uoff = some o → o.length = n) (hv : ∀ o, voff = some o → o.length = n)
    (hL : pf.Ls = []) (hR : pf.Rs = [])
    (hC : pf.C = r • E.base + mexp as gs + mexp bs hs + mexp (uoff.getD []) gs + mexp (voff.getD []) hs)
    (hp : proveQuadratic E coins pf r st gs as hs bs n = .ok (pf', st'))
    (hF : (deriveQuad E pf' n st).Fg ≠ 0) :
    verifyQuadratic E pf' gs hs n eq st uoff voff = .ok (decide (eq = dot as bs), st') := by
  rcases proveQuadratic_spec E coins pf r st as bs gs hs n hn1 hn2 ha hb hg hh hL hR with
    ⟨ht, _⟩ | ⟨q, hq, -, hqC, hqL, hqR, hq0, hqE⟩
  · rw [ht] at hp; cases hp
  · rw [hq] at hp
    obtain ⟨rfl, rfl⟩ : q = pf' ∧ (deriveQuad E q n st).st = st' := by
      have := Res.ok.inj hp; exact ⟨congrArg Prod.fst this, congrArg Prod.snd this⟩
    obtain ⟨b, hb1, hb2⟩ := verifyQuadratic_eq E q gs hs n eq st uoff voff hn1 hn2 hg hh hu hv
      hqL hqR hq0
    rw [hb1]
    congr 2
    rw [Bool.eq_iff_iff, hb2, decide_eq_true_eq, hqE, hC]
    constructor
    · intro h
      have h2 : eq • (deriveQuad E q n st).Fg = dot as bs • (deriveQuad E q n st).Fg := add_left_cancel h
      exact smul_left_injective F hF h2
    · rintro rfl; rfl

/-- C08.  When the quadratic prover succeeds: it never has undefined behaviour, it throws exactly when one
of the folding challenges of its run is zero, and otherwise it returns a proof, whose folding challenges
are those of the run. -/
theorem C08_quadratic_prover_total (E : Env F G) (coins : Nat → F × F) (pf : QuadPf F G) (r : F) (st : E.St)
    (as bs : List F) (gs hs : List G) (n : Nat) (hn1 : 1 ≤ n) (hn2 : n ≤ 2 ^ 63) (ha : as.length = n)
    (hb : bs.length = n) (hg : gs.length = n) (hh : hs.length = n) (hL : pf.Ls = []) (hR : pf.Rs = []) :
    (0 ∈ quadChallenges E coins pf.C st as bs gs hs n ∧ proveQuadratic E coins pf r st gs as hs bs n = .throw) ∨
    (0 ∉ quadChallenges E coins pf.C st as bs gs hs n ∧
      ∃ pf' st', proveQuadratic E coins pf r st gs as hs bs n = .ok (pf', st') ∧
        (deriveQuad E pf' n st).xs = quadChallenges E coins pf.C st as bs gs hs n) :=
  proveQuadratic_iff E coins pf r st as bs gs hs n hn1 hn2 ha hb hg hh hL hR

example : ∃ pf' st', proveQuadratic (toyEnv 2) (fun k => ((k : ℚ), 3)) ⟨[1], 5, [], [], 0, 0, 0, 0, 0⟩
      5 [] [7, 8, 9] [1, 2, 3] [1, 1, 2] [4, 5, 6] 3 = .ok (pf', st') := by
  obtain ⟨p, s, h, -⟩ := ((C08_quadratic_prover_total (toyEnv 2) (fun k => ((k : ℚ), 3))
    ⟨[1], 5, [], [], 0, 0, 0, 0, 0⟩ 5 [] [1, 2, 3] [4, 5, 6] [7, 8, 9] [1, 1, 2] 3
    (by norm_num) (by norm_num) rfl rfl rfl rfl rfl rfl).resolve_left
      fun h => quadChallenges_ne_zero (toyEnv 2) (by intro b; simp [toyEnv]) _ _ _ _ _ _ _ _ h.1).2
  exact ⟨p, s, h⟩

/-- Zero challenges do make the provers throw: here the transcript hash returns zero only. -/
example : proveLinear (toyEnv 0) (fun k => ((k : ℚ), 3)) ⟨[1], 50, [], [], 0, 0, 0⟩
      5 [] [1, 2, 3] [4, 5, 6] [7, 8, 9] 3 = .throw :=
  ((C06_linear_prover_total (toyEnv 0) (fun k => ((k : ℚ), 3)) ⟨[1], 50, [], [], 0, 0, 0⟩ 5 []
    [1, 2, 3] [4, 5, 6] [7, 8, 9] 3 (by norm_num) (by norm_num) rfl rfl rfl rfl rfl).resolve_right
      fun h => h.1 (by
        have : Nat.clog 2 3 = 2 := by decide +kernel
        simp [linChallenges, this, linLevels, toyEnv])).2

/-! ### C10: proof length -/

/-- C10.  Honest proofs carry exactly `log2roundUp n` L- and R-points. -/
theorem C10_honest_length (E : Env F G) (coins : Nat → F × F) (r : F) (st st' : E.St)
    (as bs : List F) (gs hs : List G) (n : Nat)
    (hn1 : 1 ≤ n) (hn2 : n ≤ 2 ^ 63) (ha : as.length = n) (hb : bs.length = n) (hg : gs.length = n)
    (hh : hs.length = n) :
    (∀ pf pf' : LinPf F G, pf.Ls = [] → pf.Rs = [] → proveLinear E coins pf r st as bs gs n = .ok (pf', st') →
      pf'.Ls.length = log2roundUp n ∧ pf'.Rs.length = log2roundUp n ∧ pf'.C = pf.C ∧ pf'.tag = pf.tag) ∧
    (∀ pf pf' : QuadPf F G, pf.Ls = [] → pf.Rs = [] →
      proveQuadratic E coins pf r st gs as hs bs n = .ok (pf', st') →
      pf'.Ls.length = log2roundUp n ∧ pf'.Rs.length = log2roundUp n ∧ pf'.C = pf.C ∧ pf'.tag = pf.tag) := by
  constructor
  · intro pf pf' hL hR hp
    rcases proveLinear_spec E coins pf r st as bs gs n hn1 hn2 ha hb hg hL hR with
      ⟨ht, _⟩ | ⟨q, hq, hqt, hqC, hqL, hqR, -⟩
    · rw [ht] at hp; cases hp
    · rw [hq] at hp
      have := congrArg Prod.fst (Res.ok.inj hp)
      simp only at this
      subst this
      exact ⟨hqL, hqR, hqC, hqt⟩
  · intro pf pf' hL hR hp
    rcases proveQuadratic_spec E coins pf r st as bs gs hs n hn1 hn2 ha hb hg hh hL hR with
      ⟨ht, _⟩ | ⟨q, hq, hqt, hqC, hqL, hqR, -⟩
    · rw [ht] at hp; cases hp
    · rw [hq] at hp
      have := congrArg Prod.fst (Res.ok.inj hp)
      simp only at this
      subst this
      exact ⟨hqL, hqR, hqC, hqt⟩

/-- C10.  A proof whose L- or R-list has any other length makes both verifiers throw,
whatever the rest of the proof, the statement and the arrays are. -/
theorem C10_wrong_length_throws (E : Env F G) (n : Nat) (eq : F) (st : E.St) (bs : List F) (gs hs : List G)
    (uoff voff : Option (List F)) :
    (∀ pf : LinPf F G, pf.Ls.length ≠ log2roundUp n ∨ pf.Rs.length ≠ log2roundUp n →
      verifyLinear E pf bs gs n eq st uoff = .throw) ∧
    (∀ pf : QuadPf F G, pf.Ls.length ≠ log2roundUp n ∨ pf.Rs.length ≠ log2roundUp n →
      verifyQuadratic E pf gs hs n eq st uoff voff = .throw) :=
  ⟨fun pf h => verifyLinear_len E pf bs gs n eq st uoff h,
   fun pf h => verifyQuadratic_len E pf gs hs n eq st uoff voff h⟩

example : (([] : List ℚ).length ≠ log2roundUp 3) := by decide +kernel

/-! ### C11: acceptance is one group equation -/

/-- C11.  For every proof object with the right number of points, `verifyLinear` throws if a
derived challenge is zero, and otherwise returns whether the verification equation `LinEq`
holds, and the transcript state.  In particular it never has undefined behaviour. -/
theorem C11_linear_verifier (E : Env F G) (pf : LinPf F G) (bs : List F) (gs : List G) (n : Nat) (eq : F)
    (st : E.St) (off : Option (List F)) (hn1 : 1 ≤ n) (hn2 : n ≤ 2 ^ 63) (hb : bs.length = n)
    (hg : gs.length = n) (ho : ∀ o, off = some o → o.length = n)
    (hL : pf.Ls.length = log2roundUp n) (hR : pf.Rs.length = log2roundUp n) :
    (0 ∈ (deriveLin E pf n st).xs ∨ (deriveLin E pf n st).x = 0 →
      verifyLinear E pf bs gs n eq st off = .throw) ∧
    (¬(0 ∈ (deriveLin E pf n st).xs ∨ (deriveLin E pf n st).x = 0) →
      ∃ b, verifyLinear E pf bs gs n eq st off = .ok (b, (deriveLin E pf n st).st) ∧
        (b = true ↔ LinEq E pf bs gs eq (off.getD []) (deriveLin E pf n st))) := by
  refine ⟨fun h => verifyLinear_zero E pf bs gs n eq st off hn1 hn2 hb h, fun h => ?_⟩
  push_neg at h
  exact verifyLinear_eq E pf bs gs n eq st off hn1 hn2 hb hg ho hL hR h.1 h.2

/-- C11 for quadratic proofs. -/
theorem C11_quadratic_verifier (E : Env F G) (pf : QuadPf F G) (gs hs : List G) (n : Nat) (eq : F)
    (st : E.St) (uoff voff : Option (List F)) (hn1 : 1 ≤ n) (hn2 : n ≤ 2 ^ 63) (hg : gs.length = n)
    (hh : hs.length = n) (hu : ∀ o, uoff = some o → o.length = n) (hv : ∀ o, voff = some o → o.length = n)
    (hL : pf.Ls.length = log2roundUp n) (hR : pf.Rs.length = log2roundUp n) :
    (0 ∈ (deriveQuad E pf n st).xs → verifyQuadratic E pf gs hs n eq st uoff voff = .throw) ∧
    (0 ∉ (deriveQuad E pf n st).xs →
      ∃ b, verifyQuadratic E pf gs hs n eq st uoff voff = .ok (b, (deriveQuad E pf n st).st) ∧
        (b = true ↔ QuadEq E pf gs hs eq (uoff.getD []) (voff.getD []) (deriveQuad E pf n st))) :=
  ⟨fun h => verifyQuadratic_zero E pf gs hs n eq st uoff voff hn1 hn2 h,
   fun h => verifyQuadratic_eq E pf gs hs n eq st uoff voff hn1 hn2 hg hh hu hv hL hR h⟩

/-- Both cases occur: with challenges equal to 2 the equation decides, and it rejects some
proof (all points zero but `r ≠ 0`). -/
example : ∃ b, verifyLinear (toyEnv 2) ⟨[], 0, [0, 0], [0, 0], 0, 0, 1⟩ [1, 2, 3] [4, 5, 6] 3 0 [] none =
    .ok (b, (deriveLin (toyEnv 2) ⟨[], 0, [0, 0], [0, 0], 0, 0, 1⟩ 3 []).st) ∧ b = false := by
  obtain ⟨b, h1, h2⟩ := (C11_linear_verifier (toyEnv 2) ⟨[], 0, [0, 0], [0, 0], 0, 0, 1⟩ [1, 2, 3] [4, 5, 6] 3 0 []
    none (by norm_num) (by norm_num) rfl rfl (by simp) (by decide +kernel) (by decide +kernel)).2
    (by simp [deriveLin, foldChallenges, toyEnv])
  refine ⟨b, h1, ?_⟩
  rw [← Bool.not_eq_true, h2]
  simp [LinEq, deriveLin, foldChallenges, toyEnv, mexp]

/-! ### C12: transcripts in step -/

/-- C12.  The verifier, run on an honest proof (for any claimed value and offsets), ends in the
same transcript state as the prover, and the challenges it uses are derived from the proof alone.
Everything that follows on that transcript is therefore the same for both sides. -/
theorem C12_linear_in_step (E : Env F G) (coins : Nat → F × F) (pf pf' : LinPf F G) (r : F)
    (st stP : E.St) (as bs bs' : List F) (gs gs' : List G) (n : Nat) (eq : F) (off : Option (List F))
    (b : Bool) (stV : E.St)
    (hn1 : 1 ≤ n) (hn2 : n ≤ 2 ^ 63) (ha : as.length = n) (hb : bs.length = n) (hg : gs.length = n)
    (hb' : bs'.length = n) (hg' : gs'.length = n)
    (ho : ∀ o, off = some o → o.length = n) (hL : pf.Ls = []) (hR : pf.Rs = [])
    (hp : proveLinear E coins pf r st as bs gs n = .ok (pf', stP))
    (hv : verifyLinear E pf' bs' gs' n eq st off = .ok (b, stV)) : stV = stP := by
  rcases proveLinear_spec E coins pf r st as bs gs n hn1 hn2 ha hb hg hL hR with
    ⟨ht, _⟩ | ⟨q, hq, -, -, hqL, hqR, hq0, -⟩
  · rw [ht] at hp; cases hp
  · rw [hq] at hp
    obtain ⟨rfl, rfl⟩ : q = pf' ∧ (deriveLin E q n st).st = stP := by
      have := Res.ok.inj hp; exact ⟨congrArg Prod.fst this, congrArg Prod.snd this⟩
    by_cases hx : (deriveLin E q n st).x = 0
    · rw [verifyLinear_zero E q bs' gs' n _ st off hn1 hn2 hb' (Or.inr hx)] at hv; cases hv
    · obtain ⟨b', h1, -⟩ := verifyLinear_eq E q bs' gs' n eq st off hn1 hn2 hb' hg' ho hqL hqR hq0 hx
      rw [h1] at hv
      exact (congrArg Prod.snd (Res.ok.inj hv)).symm

/-- C12 for quadratic proofs. -/
theorem C12_quadratic_in_step (E : Env F G) (coins : Nat → F × F) (pf pf' : QuadPf F G) (r : F)
    (st stP : E.St) (as bs : List F) (gs hs gs' hs' : List G) (n : Nat) (eq : F) (uoff voff : Option (List F))
    (b : Bool) (stV : E.St)
    (hn1 : 1 ≤ n) (hn2 : n ≤ 2 ^ 63) (ha : as.length = n) (hb : bs.length = n) (hg : gs.length = n)
    (hh : hs.length = n) (hg' : gs'.length = n) (hh' : hs'.length = n)
    (hu : ∀ o, uoff = some o → o.length = n) (hv : ∀ o, voff = some o → o.length = n)
    (hL : pf.Ls = []) (hR : pf.Rs = [])
    (hp : proveQuadratic E coins pf r st gs as hs bs n = .ok (pf', stP))
    (hver : verifyQuadratic E pf' gs' hs' n eq st uoff voff = .ok (b, stV)) : stV = stP := by
  rcases proveQuadratic_spec E coins pf r st as bs gs hs n hn1 hn2 ha hb hg hh hL hR with
    ⟨ht, _⟩ | ⟨q, hq, -, -, hqL, hqR, hq0, -⟩
  · rw [ht] at hp; cases hp
  · rw [hq] at hp
    obtain ⟨rfl, rfl⟩ : q = pf' ∧ (deriveQuad E q n st).st = stP := by
      have := Res.ok.inj hp; exact ⟨congrArg Prod.fst this, congrArg Prod.snd this⟩
    obtain ⟨b', h1, -⟩ := verifyQuadratic_eq E q gs' hs' n eq st uoff voff hn1 hn2 hg' hh' hu hv hqL hqR hq0
    rw [h1] at hver
    exact (congrArg Prod.snd (Res.ok.inj hver)).symm

/-! ### C14: tag-level wrappers -/

/-- C14.  Linear round trip: for every constraint with 1..2^20 terms and every satisfying witness
on the same indexes, the produced proof verifies (or the verifier throws, if the final
challenge happens to be zero). -/
theorem C14_linear_roundtrip (E : Env F G) (coins : Nat → F × F) (r : F) (tag : Bytes)
    (c : LinConstraint F) (xes : PtxtVec F) (pf : LinPf F G)
    (h1 : 1 ≤ c.terms.length) (h2 : c.terms.length ≤ 2 ^ 20)
    (hk : xes.map (·.1) = c.terms.map (·.1))
    (hsat : dot (xes.map (·.2)) (c.terms.map (·.2)) = c.equalsTo)
    (hp : proveLinearTag E coins r tag c xes = .ok pf) :
    verifyLinearTag E c pf = .ok true ∨
    (verifyLinearTag E c pf = .throw ∧
      (deriveLin E pf c.terms.length (E.processLin (E.newCtx tag) lblConstraint c)).x = 0) := by
  have hl : xes.length = c.terms.length := by simpa using congrArg List.length hk
  rw [proveLinearTag, mkFlatLin_prover E tag c xes h1 h2 hk] at hp
  simp only [Res.ok_bind, List.length_map] at hp
  rw [commit, multiExp_ok (by simp) (by simp [hl])] at hp
  simp only [Res.ok_bind, List.length_map] at hp
  obtain ⟨⟨pf', st'⟩, hp1, hp2⟩ := Res.bind_eq_ok.1 hp
  simp only [Res.ok.injEq] at hp2
  subst hp2
  have htag : pf'.tag = tag :=
    ((C10_honest_length E coins r _ st' _ _ _ (c.terms.map (fun e => E.getG tag e.1)) c.terms.length h1
      (by omega) (by rw [List.length_map, hl]) (by rw [List.length_map]) (by rw [List.length_map])
      (by rw [List.length_map])).1 _ pf' (by rfl) (by rfl) hp1).2.2.2
  have hv := C07_linear_complete_offsets E coins _ pf' r _ st' (xes.map (·.2)) (c.terms.map (·.2)) _
    c.terms.length none h1 (by omega) (by simp [hl]) (by simp) (by simp) (by simp) rfl rfl
    (by simp only [Option.getD_none, mexp_nil_left, add_zero, zero_smul]
        rw [List.take_of_length_le (by first | (simp only [List.length_map]; omega) | simp | omega), List.take_of_length_le (by first | (simp only [List.length_map]; omega) | simp | omega)]) hp1
  rw [verifyLinearTag, htag, mkFlatLin_verifier E tag c h1 h2]
  simp only [Res.ok_bind, List.length_map]
  rw [hsat] at hv
  rw [hv]
  by_cases hx : (deriveLin E pf' c.terms.length (E.processLin (E.newCtx tag) lblConstraint c)).x = 0
  · right; rw [if_pos hx]; exact ⟨rfl, hx⟩
  · left; rw [if_neg hx]; rfl

/-- C14.  Quadratic round trip. -/
theorem C14_quadratic_roundtrip (E : Env F G) (coins : Nat → F × F) (r : F) (tag : Bytes)
    (c : QuadConstraint F) (xs ys : PtxtVec F) (pf : QuadPf F G)
    (h1 : 1 ≤ c.indexes.length) (h2 : c.indexes.length ≤ 2 ^ 20)
    (hx : xs.map (·.1) = c.indexes) (hy : ys.map (·.1) = c.indexes)
    (hsat : dot (xs.map (·.2)) (ys.map (·.2)) = c.equalsTo)
    (hp : proveQuadraticTag E coins r tag c xs ys = .ok pf) :
    verifyQuadraticTag E c pf = .ok true := by
  have hlx : xs.length = c.indexes.length := by simpa using congrArg List.length hx
  have hly : ys.length = c.indexes.length := by simpa using congrArg List.length hy
  rw [proveQuadraticTag, mkFlatQuad_prover E tag c xs ys h1 h2 hx hy] at hp
  simp only [Res.ok_bind, List.length_map] at hp
  rw [commit2, multiExp_ok (by simp) (by simp [hlx]), multiExp_ok (by simp) (by simp [hly])] at hp
  simp only [Res.ok_bind, List.length_map] at hp
  obtain ⟨⟨pf', st'⟩, hp1, hp2⟩ := Res.bind_eq_ok.1 hp
  simp only [Res.ok.injEq] at hp2
  subst hp2
  have htag : pf'.tag = tag :=
    ((C10_honest_length E coins r _ st' _ _ _ _ c.indexes.length h1
      (by omega) (by rw [List.length_map, hlx]) (by rw [List.length_map, hly]) (by rw [List.length_map])
      (by rw [List.length_map])).2 _ pf' (by rfl) (by rfl) hp1).2.2.2
  have hv := C08_quadratic_complete E coins _ pf' r _ st' (xs.map (·.2)) (ys.map (·.2)) _ _
    c.indexes.length none none h1 (by omega) (by simp [hlx]) (by simp [hly]) (by simp) (by simp) (by simp)
    (by simp) rfl rfl
    (by simp only [Option.getD_none, mexp_nil_left, add_zero, zero_smul]
        rw [List.take_of_length_le (by first | (simp only [List.length_map]; omega) | simp | omega), List.take_of_length_le (by first | (simp only [List.length_map]; omega) | simp | omega),
          List.take_of_length_le (by first | (simp only [List.length_map]; omega) | simp | omega), List.take_of_length_le (by first | (simp only [List.length_map]; omega) | simp | omega)]) hp1
  rw [verifyQuadraticTag, htag, mkFlatQuad_verifier E tag c h1 h2]
  simp only [Res.ok_bind, List.length_map]
  rw [hsat] at hv
  rw [hv]
  rfl

/-- C14.  A non-empty witness whose index set differs from that of the constraint makes the
provers throw. -/
theorem C14_mismatch_throws (E : Env F G) (coins : Nat → F × F) (r : F) (tag : Bytes) :
    (∀ (c : LinConstraint F) (xes : PtxtVec F), xes ≠ [] → xes.map (·.1) ≠ c.terms.map (·.1) →
      proveLinearTag E coins r tag c xes = .throw) ∧
    (∀ (c : QuadConstraint F) (xs ys : PtxtVec F), xs ≠ [] ∨ ys ≠ [] →
      xs.map (·.1) ≠ c.indexes ∨ ys.map (·.1) ≠ c.indexes →
      proveQuadraticTag E coins r tag c xs ys = .throw) := by
  constructor
  · intro c xes h0 hk
    rw [proveLinearTag, mkFlatLin_mismatch E tag c xes h0 hk]; rfl
  · intro c xs ys h0 hk
    rw [proveQuadraticTag, mkFlatQuad_mismatch E tag c xs ys h0 hk]; rfl

/-- C14, disagreement with the expectation that every mismatch is detected: an empty witness is
taken for "no witness" and the provers read past the end of an empty array. -/
theorem C14_empty_witness_ub (E : Env F G) (coins : Nat → F × F) (r : F) (tag : Bytes) :
    (∀ c : LinConstraint F, 1 ≤ c.terms.length → c.terms.length ≤ 2 ^ 20 →
      proveLinearTag E coins r tag c [] = .ub) ∧
    (∀ c : QuadConstraint F, 1 ≤ c.indexes.length → c.indexes.length ≤ 2 ^ 20 →
      proveQuadraticTag E coins r tag c [] [] = .ub) := by
  constructor
  · intro c h1 h2
    rw [proveLinearTag, mkFlatLin_verifier E tag c h1 h2]
    simp only [Res.ok_bind, List.length_map, commit, multiExp]
    rw [rdN_ok (by simp), Res.ok_bind, rdN, if_neg (by rw [List.length_nil]; omega)]
    rfl
  · intro c h1 h2
    rw [proveQuadraticTag, mkFlatQuad_verifier E tag c h1 h2]
    simp only [Res.ok_bind, List.length_map, commit2, multiExp]
    rw [rdN_ok (by simp), Res.ok_bind, rdN, if_neg (by rw [List.length_nil]; omega)]
    rfl

/-- C14.  Empty constraints and constraints with more than 2^20 terms are rejected by both sides. -/
theorem C14_size_limits (E : Env F G) (coins : Nat → F × F) (r : F) (tag : Bytes) :
    (∀ (c : LinConstraint F) (xes : PtxtVec F) (pf : LinPf F G), c.terms.length < 1 ∨ c.terms.length > 2 ^ 20 →
      proveLinearTag E coins r tag c xes = .throw ∧ verifyLinearTag E c pf = .throw) ∧
    (∀ (c : QuadConstraint F) (xs ys : PtxtVec F) (pf : QuadPf F G),
      c.indexes.length < 1 ∨ c.indexes.length > 2 ^ 20 →
      proveQuadraticTag E coins r tag c xs ys = .throw ∧ verifyQuadraticTag E c pf = .throw) := by
  constructor
  · intro c xes pf h
    constructor
    · rw [proveLinearTag, mkFlatLin]; simp only; rw [if_pos h]; rfl
    · rw [verifyLinearTag, mkFlatLin]; simp only; rw [if_pos h]; rfl
  · intro c xs ys pf h
    constructor
    · rw [proveQuadraticTag, mkFlatQuad]; simp only; rw [if_pos h]; rfl
    · rw [verifyQuadraticTag, mkFlatQuad]; simp only; rw [if_pos h]; rfl

/-- C14.  With matching indexes the provers throw exactly when a folding challenge of their run is zero,
and otherwise succeed. -/
theorem C14_prover_succeeds (E : Env F G) (coins : Nat → F × F) (r : F) (tag : Bytes) :
    (∀ (c : LinConstraint F) (xes : PtxtVec F), 1 ≤ c.terms.length → c.terms.length ≤ 2 ^ 20 →
      xes.map (·.1) = c.terms.map (·.1) → ∀ xs, xs = linChallenges E coins
          (r • E.base + mexp (xes.map (·.2)) (c.terms.map fun e => E.getG tag e.1))
          (E.processLin (E.newCtx tag) lblConstraint c) (xes.map (·.2)) (c.terms.map (·.2))
          (c.terms.map fun e => E.getG tag e.1) c.terms.length →
        (0 ∈ xs ∧ proveLinearTag E coins r tag c xes = .throw) ∨
        (0 ∉ xs ∧ ∃ pf, proveLinearTag E coins r tag c xes = .ok pf)) ∧
    (∀ (c : QuadConstraint F) (us vs : PtxtVec F), 1 ≤ c.indexes.length → c.indexes.length ≤ 2 ^ 20 →
      us.map (·.1) = c.indexes → vs.map (·.1) = c.indexes → ∀ xs, xs = quadChallenges E coins
          (r • E.base + mexp (us.map (·.2)) (c.indexes.map (E.getG tag))
            + mexp (vs.map (·.2)) (c.indexes.map (E.getH tag)))
          (E.processQuad (E.newCtx tag) lblConstraint c) (us.map (·.2)) (vs.map (·.2))
          (c.indexes.map (E.getG tag)) (c.indexes.map (E.getH tag)) c.indexes.length →
        (0 ∈ xs ∧ proveQuadraticTag E coins r tag c us vs = .throw) ∨
        (0 ∉ xs ∧ ∃ pf, proveQuadraticTag E coins r tag c us vs = .ok pf)) := by
  constructor
  · intro c xes h1 h2 hk xs hxs
    have hl : xes.length = c.terms.length := by simpa using congrArg List.length hk
    rw [proveLinearTag, mkFlatLin_prover E tag c xes h1 h2 hk]
    simp only [Res.ok_bind, List.length_map]
    rw [commit, multiExp_ok (by simp) (by simp [hl]), List.take_of_length_le (by simp [hl]),
      List.take_of_length_le (by simp)]
    simp only [Res.ok_bind, zero_smul, add_zero]
    have h := C06_linear_prover_total E coins
      ⟨tag, r • E.base + mexp (xes.map (·.2)) (c.terms.map fun e => E.getG tag e.1), [], [], 0, 0, 0⟩ r
      (E.processLin (E.newCtx tag) lblConstraint c) (xes.map (·.2)) (c.terms.map (·.2))
      (c.terms.map (fun e => E.getG tag e.1)) c.terms.length h1 (by omega) (by rw [List.length_map, hl])
      (by rw [List.length_map]) (by rw [List.length_map]) rfl rfl
    rw [← hxs] at h
    rcases h with ⟨h0, h⟩ | ⟨h0, pf, st, h, -⟩
    · exact Or.inl ⟨h0, by rw [h]; rfl⟩
    · exact Or.inr ⟨h0, pf, by rw [h]; rfl⟩
  · intro c us vs h1 h2 hx hy xs hxs
    have hlx : us.length = c.indexes.length := by simpa using congrArg List.length hx
    have hly : vs.length = c.indexes.length := by simpa using congrArg List.length hy
    rw [proveQuadraticTag, mkFlatQuad_prover E tag c us vs h1 h2 hx hy]
    simp only [Res.ok_bind, List.length_map]
    rw [commit2, multiExp_ok (by simp) (by simp [hlx]), multiExp_ok (by simp) (by simp [hly]),
      List.take_of_length_le (by simp [hlx]), List.take_of_length_le (by simp),
      List.take_of_length_le (by simp [hly]), List.take_of_length_le (by simp)]
    simp only [Res.ok_bind, zero_smul, add_zero]
    have h := C08_quadratic_prover_total E coins
      ⟨tag, r • E.base + mexp (us.map (·.2)) (c.indexes.map (E.getG tag))
            + mexp (vs.map (·.2)) (c.indexes.map (E.getH tag)), [], [], 0, 0, 0, 0, 0⟩ r
      (E.processQuad (E.newCtx tag) lblConstraint c) (us.map (·.2))
      (vs.map (·.2)) (c.indexes.map (E.getG tag)) (c.indexes.map (E.getH tag)) c.indexes.length h1 (by omega)
      (by rw [List.length_map, hlx]) (by rw [List.length_map, hly]) (by rw [List.length_map])
      (by rw [List.length_map]) rfl rfl
    rw [← hxs] at h
    rcases h with ⟨h0, h⟩ | ⟨h0, pf, st, h, -⟩
    · exact Or.inl ⟨h0, by rw [h]; rfl⟩
    · exact Or.inr ⟨h0, pf, by rw [h]; rfl⟩

/-- Non-vacuity of the round trip: `2·x₃ + 5·x₇ = 24` with `x₃ = 2`, `x₇ = 4`. -/
example : ∃ pf, proveLinearTag (toyEnv 2) (fun k => ((k : ℚ), 3)) 7 [1] ⟨[(3, 2), (7, 5)], 24⟩ [(3, 2), (7, 4)] = .ok pf ∧
    dot (([(3, 2), (7, 4)] : PtxtVec ℚ).map (·.2)) (([(3, 2), (7, 5)] : PtxtVec ℚ).map (·.2)) = 24 := by
  obtain ⟨-, pf, h⟩ := (((C14_prover_succeeds (toyEnv 2) (fun k => ((k : ℚ), 3)) 7 [1]).1
    ⟨[(3, 2), (7, 5)], 24⟩ [(3, 2), (7, 4)] (by simp) (by simp) rfl) _ rfl).resolve_left
      fun h => linChallenges_ne_zero (toyEnv 2) (by intro b; simp [toyEnv]) _ _ _ _ _ _ _ h.1
  exact ⟨pf, h, by norm_num [dot]⟩

/-! ### C09: norm-squared proofs -/

/-- C09.  `proveNormSquared`, called with the transcript that `verifyNormSquared` will create
from the tag, returns the squared norm of the vector and a proof that verifies for it. -/
theorem C09_norm_squared (E : Env F G) (coins : Nat → F × F) (r : F) (pf pf' : QuadPf F G) (vec : PtxtVec F)
    (norm : F) (h1 : 1 ≤ vec.length) (h2 : vec.length ≤ 2 ^ 20) (hL : pf.Ls = []) (hR : pf.Rs = [])
    (hp : proveNormSquared E coins r pf (E.newCtx pf.tag) vec = .ok (norm, pf')) :
    norm = dot (vec.map (·.2)) (vec.map (·.2)) ∧
    verifyNormSquared E (vec.map (·.1)) norm pf' = .ok true := by
  rw [proveNormSquared, normConstraint_eq,
    mkFlatQuad_prover E pf.tag _ vec vec (by simpa using h1) (by simpa using h2) rfl rfl] at hp
  simp only [Res.ok_bind, List.length_map] at hp
  generalize hch : E.newChallenge (E.processQuad (E.newCtx pf.tag) lblNorm _) lblx = ch at hp
  have hlen := normShift_length ch.1 (vec.map (·.2)) ch.1 (dot (vec.map (·.2)) (vec.map (·.2)))
  have hdot := normShift_dot ch.1 (vec.map (·.2)) ch.1 (dot (vec.map (·.2)) (vec.map (·.2)))
  have hver := normShift_ver ch.1 (vec.map (·.2)) ch.1 (dot (vec.map (·.2)) (vec.map (·.2)))
  generalize hns : normShift ch.1 ch.1 (dot (vec.map (·.2)) (vec.map (·.2))) (vec.map (·.2)) (vec.map (·.2)) = ns at *
  obtain ⟨wG, wH, eq'⟩ := ns
  simp only [List.length_map] at hlen hdot hver
  simp only at hp
  rw [commit2, multiExp_ok (by simp) (by simp [hlen.1]), multiExp_ok (by simp) (by simp [hlen.2])] at hp
  simp only [Res.ok_bind] at hp
  obtain ⟨⟨pf1, st'⟩, hp1, hp2⟩ := Res.bind_eq_ok.1 hp
  simp only [Res.ok.injEq, Prod.mk.injEq] at hp2
  obtain ⟨rfl, rfl⟩ := hp2
  refine ⟨rfl, ?_⟩
  have hv := C08_quadratic_complete E coins _ pf1 r ch.2 st' wG wH ((vec.map (·.1)).map (E.getG pf.tag))
    ((vec.map (·.1)).map (E.getH pf.tag)) vec.length none none h1 (by omega) hlen.1 hlen.2 (by simp) (by simp)
    (by simp) (by simp) (by exact hL) (by exact hR)
    (by simp only [Option.getD_none, mexp_nil_left, add_zero, zero_smul]
        rw [List.take_of_length_le (by first | (simp only [List.length_map]; omega) | simp | omega), List.take_of_length_le (by simp [hlen.1]),
          List.take_of_length_le (by first | (simp only [List.length_map]; omega) | simp | omega), List.take_of_length_le (by simp [hlen.2])]) hp1
  have htag : pf1.tag = pf.tag :=
    ((C10_honest_length E coins r _ st' _ _ _ _ vec.length h1
      (by omega) hlen.1 hlen.2 (by simp) (by simp)).2 _ pf1 (by exact hL) (by exact hR) hp1).2.2.2
  rw [verifyNormSquared, htag,
    mkFlatQuad_verifier E pf.tag _ (by simpa using h1) (by simpa using h2)]
  simp only [Res.ok_bind, List.length_map, hch]
  have : normShiftVer (ch.1 * ch.1) vec.length (ch.1 * ch.1) (dot (vec.map (·.2)) (vec.map (·.2))) =
      dot wG wH := by
    rw [← hver]; linear_combination -hdot
  rw [this, hv]
  rfl

/-- C09.  The norm prover throws exactly when a folding challenge of its run is zero, and otherwise
succeeds.  With `z` the challenge drawn for the norm, the run is on the witnesses
`(v₀ + z, v₁ + z², v₂ + z³, …)` and `(v₀ - z, v₁ - z², …)`. -/
theorem C09_norm_prover_succeeds (E : Env F G) (coins : Nat → F × F) (r : F) (pf : QuadPf F G) (st : E.St)
    (vec : PtxtVec F) (h1 : 1 ≤ vec.length) (h2 : vec.length ≤ 2 ^ 20) (hL : pf.Ls = []) (hR : pf.Rs = [])
    (z : F) (st' : E.St) (hz : E.newChallenge (E.processQuad st lblNorm
      ⟨vec.map (·.1), dot (vec.map (·.2)) (vec.map (·.2))⟩) lblx = (z, st')) (us vs : List F)
    (hus : us = (List.range vec.length).map fun i => (vec.map (·.2)).getD i 0 + z ^ (i + 1))
    (hvs : vs = (List.range vec.length).map fun i => (vec.map (·.2)).getD i 0 - z ^ (i + 1))
    (gs hs : List G) (hgs : gs = vec.map fun e => E.getG pf.tag e.1) (hhs : hs = vec.map fun e => E.getH pf.tag e.1)
    (xs : List F) (hxs : xs = quadChallenges E coins (r • E.base + mexp us gs + mexp vs hs) st' us vs gs hs vec.length) :
    (0 ∈ xs ∧ proveNormSquared E coins r pf st vec = .throw) ∨
    (0 ∉ xs ∧ ∃ norm pf', proveNormSquared E coins r pf st vec = .ok (norm, pf')) := by
  rw [proveNormSquared, normConstraint_eq,
    mkFlatQuad_prover E pf.tag _ vec vec (by simpa using h1) (by simpa using h2) rfl rfl]
  simp only [Res.ok_bind, List.length_map, hz]
  have hw := normShift_wit z (vec.map (·.2)) z (dot (vec.map (·.2)) (vec.map (·.2)))
  have e1 : (vec.map (·.1)).map (E.getG pf.tag) = gs := by rw [hgs, List.map_map]; rfl
  have e2 : (vec.map (·.1)).map (E.getH pf.tag) = hs := by rw [hhs, List.map_map]; rfl
  simp only [List.length_map, ← pow_succ', ← hus, ← hvs] at hw
  have lu : us.length = vec.length := by rw [hus]; simp
  have lv : vs.length = vec.length := by rw [hvs]; simp
  have lg : gs.length = vec.length := by rw [hgs]; simp
  have lh : hs.length = vec.length := by rw [hhs]; simp
  rw [e1, e2]
  generalize normShift z z (dot (vec.map (·.2)) (vec.map (·.2))) (vec.map (·.2)) (vec.map (·.2)) = ns at hw
  obtain ⟨wG, wH, eq'⟩ := ns
  obtain ⟨rfl, rfl⟩ := hw
  simp only
  rw [commit2, multiExp_ok lg.ge lu.ge, multiExp_ok lh.ge lv.ge, List.take_of_length_le lu.le,
    List.take_of_length_le lg.le, List.take_of_length_le lv.le, List.take_of_length_le lh.le]
  simp only [Res.ok_bind, zero_smul, add_zero]
  have h := C08_quadratic_prover_total E coins { pf with C := r • E.base + mexp wG gs + mexp wH hs } r st' wG wH
    gs hs vec.length h1 (by omega) lu lv lg lh hL hR
  rw [← hxs] at h
  rcases h with ⟨h0, h⟩ | ⟨h0, pf', st'', h, -⟩
  · exact Or.inl ⟨h0, by rw [h]; rfl⟩
  · exact Or.inr ⟨h0, _, pf', by rw [h]; rfl⟩

example : ∃ norm pf', proveNormSquared (toyEnv 2) (fun k => ((k : ℚ), 3)) 7 ⟨[1], 0, [], [], 0, 0, 0, 0, 0⟩
    ((toyEnv 2).newCtx [1]) [(0, 2), (5, 3), (9, 6)] = .ok (norm, pf') :=
  ((C09_norm_prover_succeeds _ _ _ _ _ _ (by simp) (by simp) rfl rfl _ _ rfl _ _ rfl rfl _ _ rfl rfl _
    rfl).resolve_left fun h => quadChallenges_ne_zero (toyEnv 2) (by intro b; simp [toyEnv]) _ _ _ _ _ _ _ _ h.1).2

end

end Verif.Props
