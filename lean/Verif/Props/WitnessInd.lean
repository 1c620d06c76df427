/-
C80: a proof says nothing about the witness beyond the truth of the statement.
-/
import Verif.Lemmas.WitnessPerm
import Verif.Props.Bulletproof
import Mathlib.Data.ZMod.Basic
import Mathlib.Algebra.Field.ZMod

namespace Verif.Props
open Verif Spec

section
variable {F G : Type} [Field F] [AddCommGroup G] [Module F G] [DecidableEq F] [DecidableEq G]

/-! ### Commitments -/

/-- C80.  Commitments are perfectly hiding: whatever the committed vector, each group element is
the commitment for exactly one choice of the randomness.  (`hB`: the base point generates the
group, and has the order of the scalar field.) -/
theorem C80_commit (E : Env F G) (hB : Function.Bijective (fun s : F => s • E.base)) (gs : List G)
    (as : List F) (n : Nat) (ha : as.length = n) (hg : gs.length = n) (C : G) :
    ∃! r, commit E.base gs as n r = .ok C := by
  have key : ∀ r, commit E.base gs as n r = .ok (r • E.base + mexp as gs) := by
    intro r
    rw [commit, multiExp_ok hg.ge ha.ge, List.take_of_length_le ha.le, List.take_of_length_le hg.le]
    simp
  obtain ⟨r, hr⟩ := hB.2 (C - mexp as gs)
  simp only at hr
  refine ⟨r, by simp only; rw [key, hr]; simp, fun r' hr' => hB.1 ?_⟩
  simp only at hr' ⊢
  rw [key] at hr'
  rw [hr, ← Res.ok.inj hr']; abel

/-! ### Linear proofs -/

/-- C80.  For every constraint, every vector that satisfies it and every proof that the verifier
accepts for the constraint, exactly one choice of the prover's randomness (the commitment's and the
`log₂` many pairs drawn on the way) makes the prover output that proof.  So with uniform randomness
all accepted proofs are equally likely, whatever the witness. -/
theorem C80_linear (E : Env F G) (hB : Function.Bijective (fun s : F => s • E.base))
    (c : LinConstraint F) (xes : PtxtVec F) (h1 : 1 ≤ c.terms.length) (h2 : c.terms.length ≤ 2 ^ 20)
    (hk : xes.map (·.1) = c.terms.map (·.1))
    (hsat : dot (xes.map (·.2)) (c.terms.map (·.2)) = c.equalsTo)
    (π : LinPf F G) (hπ : verifyLinearTag E c π = .ok true) :
    ∃! p : F × (Fin (log2roundUp c.terms.length + 1) → F × F),
      proveLinearTag E (coinSeq p.2) p.1 π.tag c xes = .ok π := by
  have hl : xes.length = c.terms.length := by simpa using congrArg List.length hk
  rw [verifyLinearTag, mkFlatLin_verifier E π.tag c h1 h2] at hπ
  simp only [Res.ok_bind, List.length_map] at hπ
  obtain ⟨⟨b, st'⟩, hv, hb⟩ := Res.bind_eq_ok.1 hπ
  simp only [Res.ok.injEq] at hb
  subst hb
  have hlen : ¬(π.Ls.length ≠ log2roundUp c.terms.length ∨ π.Rs.length ≠ log2roundUp c.terms.length) := by
    intro h
    rw [verifyLinear_len E π _ _ _ _ _ _ h] at hv
    cases hv
  push Not at hlen
  obtain ⟨hz, hnz⟩ := C11_linear_verifier E π (c.terms.map (·.2)) (c.terms.map (fun e => E.getG π.tag e.1))
    c.terms.length c.equalsTo (E.processLin (E.newCtx π.tag) lblConstraint c) none h1 (by omega) (by simp)
    (by simp) (by simp) hlen.1 hlen.2
  by_cases h0 : 0 ∈ (deriveLin E π c.terms.length (E.processLin (E.newCtx π.tag) lblConstraint c)).xs ∨
      (deriveLin E π c.terms.length (E.processLin (E.newCtx π.tag) lblConstraint c)).x = 0
  · rw [hz h0] at hv; cases hv
  · obtain ⟨b, hb1, hb2⟩ := hnz h0
    rw [hv] at hb1
    have : true = b := congrArg Prod.fst (Res.ok.inj hb1)
    have hE := hb2.1 this.symm
    push Not at h0
    obtain ⟨r0, cs, hcs⟩ := lin_fiber E hB π.tag (E.processLin (E.newCtx π.tag) lblConstraint c) (xes.map (·.2))
      (c.terms.map (·.2)) (c.terms.map (fun e => E.getG π.tag e.1)) c.terms.length c.equalsTo h1 (by omega)
      (by simp [hl]) (by simp) (by simp) hsat π ⟨rfl, hlen.1, hlen.2, h0.1, hE⟩
    refine unique_coins (fun r coins => proveLinearTag E coins r π.tag c xes) _ r0 cs ?_
    intro r coins
    rw [proveLinearTag_eq E coins r π.tag c xes h1 h2 hk, hcs]
    simp only [Nat.lt_succ_iff]

/-- C80.  Perfect witness indistinguishability of linear proofs: for two vectors that satisfy the
same constraint, a permutation of the prover's randomness turns the runs with the one into the runs
with the other, outcome for outcome (proofs and exceptions alike). -/
theorem C80_linear_hiding [Finite F] (E : Env F G) (hB : Function.Bijective (fun s : F => s • E.base))
    (tag : Bytes) (c : LinConstraint F) (xes xes' : PtxtVec F) (h1 : 1 ≤ c.terms.length)
    (h2 : c.terms.length ≤ 2 ^ 20)
    (hk : xes.map (·.1) = c.terms.map (·.1)) (hk' : xes'.map (·.1) = c.terms.map (·.1))
    (hsat : dot (xes.map (·.2)) (c.terms.map (·.2)) = c.equalsTo)
    (hsat' : dot (xes'.map (·.2)) (c.terms.map (·.2)) = c.equalsTo) :
    ∃ σ : Equiv.Perm (F × (Fin (log2roundUp c.terms.length + 1) → F × F)), ∀ p,
      proveLinearTag E (coinSeq (σ p).2) (σ p).1 tag c xes' =
        proveLinearTag E (coinSeq p.2) p.1 tag c xes := by
  obtain ⟨P, hP⟩ : ∃ P : Res (LinPf F G) → Prop, P = fun o => ∃ π, o = .ok π ∧
    LinOutcome E tag (E.processLin (E.newCtx tag) lblConstraint c) (c.terms.map (·.2))
      (c.terms.map (fun e => E.getG tag e.1)) c.terms.length c.equalsTo π := ⟨_, rfl⟩
  have fib : ∀ xes : PtxtVec F, xes.map (·.1) = c.terms.map (·.1) →
      dot (xes.map (·.2)) (c.terms.map (·.2)) = c.equalsTo → ∀ o, P o →
      ∃! p : F × (Fin (log2roundUp c.terms.length + 1) → F × F),
        proveLinearTag E (coinSeq p.2) p.1 tag c xes = o := by
    intro xes hk hsat o ho
    rw [hP] at ho
    obtain ⟨π, rfl, hg⟩ := ho
    have hl : xes.length = c.terms.length := by simpa using congrArg List.length hk
    obtain ⟨r0, cs, hcs⟩ := lin_fiber E hB tag (E.processLin (E.newCtx tag) lblConstraint c) (xes.map (·.2))
      (c.terms.map (·.2)) (c.terms.map (fun e => E.getG tag e.1)) c.terms.length c.equalsTo h1 (by omega)
      (by simp [hl]) (by simp) (by simp) hsat π hg
    refine unique_coins (fun r coins => proveLinearTag E coins r tag c xes) _ r0 cs ?_
    intro r coins
    rw [proveLinearTag_eq E coins r tag c xes h1 h2 hk, hcs]
    simp only [Nat.lt_succ_iff]
  -- every outcome is either good or an exception
  have out : ∀ xes : PtxtVec F, xes.map (·.1) = c.terms.map (·.1) →
      dot (xes.map (·.2)) (c.terms.map (·.2)) = c.equalsTo → ∀ r coins,
      P (proveLinearTag E coins r tag c xes) ∨ proveLinearTag E coins r tag c xes = .throw := by
    intro xes hk hsat r coins
    have hl : xes.length = c.terms.length := by simpa using congrArg List.length hk
    rw [proveLinearTag_eq E coins r tag c xes h1 h2 hk]
    rcases proveLinear_spec E coins ⟨tag, r • E.base + mexp (xes.map (·.2)) (c.terms.map (fun e => E.getG tag e.1)),
        [], [], 0, 0, 0⟩ r (E.processLin (E.newCtx tag) lblConstraint c) (xes.map (·.2))
      (c.terms.map (·.2)) (c.terms.map (fun e => E.getG tag e.1)) c.terms.length h1 (by omega) (by simp [hl])
      (by simp) (by simp) rfl rfl with ⟨ht, -⟩ | ⟨q, hq, hqt, hqC, hqL, hqR, hq0, hqE⟩
    · right
      rw [ht]; rfl
    · left
      rw [hP, hq]
      refine ⟨q, rfl, hqt, hqL, hqR, hq0, (hqE _ _).2 ?_⟩
      simp only [mexp_nil_left, add_zero, hsat]
  obtain ⟨σ, hσ⟩ := perm_of_fibers
    (fun p : F × (Fin (log2roundUp c.terms.length + 1) → F × F) => proveLinearTag E (coinSeq p.2) p.1 tag c xes)
    (fun p => proveLinearTag E (coinSeq p.2) p.1 tag c xes') P (fib xes hk hsat) (fib xes' hk' hsat')
  refine ⟨σ, fun p => ?_⟩
  rcases out xes hk hsat p.1 (coinSeq p.2) with h | h
  · exact (hσ p).1 h
  · rcases out xes' hk' hsat' (σ p).1 (coinSeq (σ p).2) with h' | h'
    · exact (hσ p).2 h'
    · rw [h, h']

/-! ### Quadratic proofs -/

/-- C80, quadratic proofs.  The same, for every accepted proof whose final challenge is not zero. -/
theorem C80_quadratic (E : Env F G) (hB : Function.Bijective (fun s : F => s • E.base))
    (c : QuadConstraint F) (xs ys : PtxtVec F) (h1 : 1 ≤ c.indexes.length) (h2 : c.indexes.length ≤ 2 ^ 20)
    (hx : xs.map (·.1) = c.indexes) (hy : ys.map (·.1) = c.indexes)
    (hsat : dot (xs.map (·.2)) (ys.map (·.2)) = c.equalsTo)
    (π : QuadPf F G) (hπ : verifyQuadraticTag E c π = .ok true)
    (hπx : (deriveQuad E π c.indexes.length (E.processQuad (E.newCtx π.tag) lblConstraint c)).x ≠ 0) :
    ∃! p : F × (Fin (log2roundUp c.indexes.length + 2) → F × F),
      proveQuadraticTag E (coinSeq p.2) p.1 π.tag c xs ys = .ok π := by
  have hlx : xs.length = c.indexes.length := by simpa using congrArg List.length hx
  have hly : ys.length = c.indexes.length := by simpa using congrArg List.length hy
  rw [verifyQuadraticTag, mkFlatQuad_verifier E π.tag c h1 h2] at hπ
  simp only [Res.ok_bind, List.length_map] at hπ
  obtain ⟨⟨b, st'⟩, hv, hb⟩ := Res.bind_eq_ok.1 hπ
  simp only [Res.ok.injEq] at hb
  subst hb
  have hlen : ¬(π.Ls.length ≠ log2roundUp c.indexes.length ∨ π.Rs.length ≠ log2roundUp c.indexes.length) := by
    intro h
    rw [verifyQuadratic_len E π _ _ _ _ _ _ _ h] at hv
    cases hv
  push Not at hlen
  obtain ⟨hz, hnz⟩ := C11_quadratic_verifier E π (c.indexes.map (E.getG π.tag)) (c.indexes.map (E.getH π.tag))
    c.indexes.length c.equalsTo (E.processQuad (E.newCtx π.tag) lblConstraint c) none none h1 (by omega) (by simp)
    (by simp) (by simp) (by simp) hlen.1 hlen.2
  by_cases h0 : 0 ∈ (deriveQuad E π c.indexes.length (E.processQuad (E.newCtx π.tag) lblConstraint c)).xs
  · rw [hz h0] at hv; cases hv
  · obtain ⟨b, hb1, hb2⟩ := hnz h0
    rw [hv] at hb1
    have : true = b := congrArg Prod.fst (Res.ok.inj hb1)
    have hE := hb2.1 this.symm
    obtain ⟨r0, cs, hcs⟩ := quad_fiber E hB π.tag (E.processQuad (E.newCtx π.tag) lblConstraint c) (xs.map (·.2))
      (ys.map (·.2)) (c.indexes.map (E.getG π.tag)) (c.indexes.map (E.getH π.tag)) c.indexes.length c.equalsTo h1
      (by omega) (by simp [hlx]) (by simp [hly]) (by simp) (by simp) hsat π ⟨rfl, hlen.1, hlen.2, h0, hπx, hE⟩
    refine unique_coins (fun r coins => proveQuadraticTag E coins r π.tag c xs ys) _ r0 cs ?_
    intro r coins
    rw [proveQuadraticTag_eq E coins r π.tag c xs ys h1 h2 hx hy, hcs]
    simp only [Nat.lt_succ_iff]

theorem quad_perm [Finite F] (E : Env F G) (hB : Function.Bijective (fun s : F => s • E.base))
    (tag : Bytes) (st : E.St) (as bs as' bs' : List F) (gs hs : List G) (n : Nat) (hn1 : 1 ≤ n)
    (hn2 : n ≤ 2 ^ 63) (ha : as.length = n) (hb : bs.length = n) (ha' : as'.length = n) (hb' : bs'.length = n)
    (hg : gs.length = n) (hh : hs.length = n) (heq : dot as bs = dot as' bs')
    (f g : F × (Fin (log2roundUp n + 2) → F × F) → Res (QuadPf F G))
    (hf : ∀ p, f p = (proveQuadratic E (coinSeq p.2) ⟨tag, p.1 • E.base + mexp as gs + mexp bs hs,
      [], [], 0, 0, 0, 0, 0⟩ p.1 st gs as hs bs n).bind (fun q => .ok q.1))
    (hg' : ∀ p, g p = (proveQuadratic E (coinSeq p.2) ⟨tag, p.1 • E.base + mexp as' gs + mexp bs' hs,
      [], [], 0, 0, 0, 0, 0⟩ p.1 st gs as' hs bs' n).bind (fun q => .ok q.1)) :
    ∃ σ : Equiv.Perm (F × (Fin (log2roundUp n + 2) → F × F)), ∀ p,
      g (σ p) = f p ∨ (ZeroChallenge E n st (f p) ∧ ZeroChallenge E n st (g (σ p))) := by
  obtain ⟨P, hP⟩ : ∃ P : Res (QuadPf F G) → Prop, P = fun o => ∃ π, o = .ok π ∧
    QuadOutcome E tag st gs hs n (dot as bs) π := ⟨_, rfl⟩
  have fib : ∀ (as bs : List F) (f : F × (Fin (log2roundUp n + 2) → F × F) → Res (QuadPf F G)) (eq : F),
      as.length = n → bs.length = n → dot as bs = eq →
      (∀ p, f p = (proveQuadratic E (coinSeq p.2) ⟨tag, p.1 • E.base + mexp as gs + mexp bs hs,
      [], [], 0, 0, 0, 0, 0⟩ p.1 st gs as hs bs n).bind (fun q => .ok q.1)) →
      (∀ π, QuadOutcome E tag st gs hs n eq π → ∃! p, f p = .ok π) ∧
      ∀ p, (∃ π, f p = .ok π ∧ QuadOutcome E tag st gs hs n eq π) ∨ ZeroChallenge E n st (f p) := by
    intro as bs f eq ha hb heq hf
    constructor
    · intro π hπ
      obtain ⟨r0, cs, hcs⟩ := quad_fiber E hB tag st as bs gs hs n eq hn1 hn2 ha hb hg hh heq π hπ
      have := unique_coins (k := log2roundUp n + 2) (fun r coins =>
        (proveQuadratic E coins ⟨tag, r • E.base + mexp as gs + mexp bs hs,
          [], [], 0, 0, 0, 0, 0⟩ r st gs as hs bs n).bind (fun q => Res.ok q.1)) (Res.ok π) r0 cs
        (fun r coins => by rw [hcs]; simp only [Nat.lt_succ_iff])
      simpa only [hf] using this
    · intro p
      rw [hf]
      rcases proveQuadratic_spec E (coinSeq p.2) ⟨tag, p.1 • E.base + mexp as gs + mexp bs hs,
          [], [], 0, 0, 0, 0, 0⟩ p.1 st as bs gs hs n hn1 hn2 ha hb hg hh rfl rfl with
        ⟨ht, -⟩ | ⟨q, hq, hqt, hqC, hqL, hqR, hq0, hqE⟩
      · right; left; rw [ht]; rfl
      · rw [hq]
        by_cases hx : (deriveQuad E q n st).x = 0
        · exact Or.inr (Or.inr ⟨q, rfl, hx⟩)
        · left
          refine ⟨q, rfl, hqt, hqL, hqR, hq0, hx, (hqE _ _ _).2 ?_⟩
          simp only [mexp_nil_left, add_zero, heq]
  obtain ⟨f1, f2⟩ := fib as bs f (dot as bs) ha hb rfl hf
  obtain ⟨g1, g2⟩ := fib as' bs' g (dot as bs) ha' hb' heq.symm hg'
  obtain ⟨σ, hσ⟩ := perm_of_fibers f g P
    (by intro o ho; rw [hP] at ho; obtain ⟨π, rfl, hπ⟩ := ho; exact f1 π hπ)
    (by intro o ho; rw [hP] at ho; obtain ⟨π, rfl, hπ⟩ := ho; exact g1 π hπ)
  refine ⟨σ, fun p => ?_⟩
  rcases f2 p with h | h
  · exact Or.inl ((hσ p).1 (by rw [hP]; exact h))
  · rcases g2 (σ p) with h' | h'
    · exact Or.inl ((hσ p).2 (by rw [hP]; exact h'))
    · exact Or.inr ⟨h, h'⟩

/-- C80.  Witness indistinguishability of quadratic proofs: up to a permutation of the randomness,
two witnesses of the same constraint give the same proofs, except for runs in which the hash
function yields a zero challenge; and as many runs are exceptional for the one as for the other. -/
theorem C80_quadratic_hiding [Finite F] (E : Env F G) (hB : Function.Bijective (fun s : F => s • E.base))
    (tag : Bytes) (c : QuadConstraint F) (xs ys xs' ys' : PtxtVec F) (h1 : 1 ≤ c.indexes.length)
    (h2 : c.indexes.length ≤ 2 ^ 20) (hx : xs.map (·.1) = c.indexes) (hy : ys.map (·.1) = c.indexes)
    (hx' : xs'.map (·.1) = c.indexes) (hy' : ys'.map (·.1) = c.indexes)
    (hsat : dot (xs.map (·.2)) (ys.map (·.2)) = c.equalsTo)
    (hsat' : dot (xs'.map (·.2)) (ys'.map (·.2)) = c.equalsTo) :
    ∃ σ : Equiv.Perm (F × (Fin (log2roundUp c.indexes.length + 2) → F × F)), ∀ p,
      proveQuadraticTag E (coinSeq (σ p).2) (σ p).1 tag c xs' ys' =
        proveQuadraticTag E (coinSeq p.2) p.1 tag c xs ys ∨
      (ZeroChallenge E c.indexes.length (E.processQuad (E.newCtx tag) lblConstraint c)
          (proveQuadraticTag E (coinSeq p.2) p.1 tag c xs ys) ∧
        ZeroChallenge E c.indexes.length (E.processQuad (E.newCtx tag) lblConstraint c)
          (proveQuadraticTag E (coinSeq (σ p).2) (σ p).1 tag c xs' ys')) := by
  have l1 : xs.length = c.indexes.length := by simpa using congrArg List.length hx
  have l2 : ys.length = c.indexes.length := by simpa using congrArg List.length hy
  have l3 : xs'.length = c.indexes.length := by simpa using congrArg List.length hx'
  have l4 : ys'.length = c.indexes.length := by simpa using congrArg List.length hy'
  obtain ⟨f, hf⟩ : ∃ f : F × (Fin (log2roundUp c.indexes.length + 2) → F × F) → Res (QuadPf F G),
    ∀ p, f p = proveQuadraticTag E (coinSeq p.2) p.1 tag c xs ys := ⟨_, fun _ => rfl⟩
  obtain ⟨g, hg⟩ : ∃ g : F × (Fin (log2roundUp c.indexes.length + 2) → F × F) → Res (QuadPf F G),
    ∀ p, g p = proveQuadraticTag E (coinSeq p.2) p.1 tag c xs' ys' := ⟨_, fun _ => rfl⟩
  simp only [← hf, ← hg]
  generalize hst : E.processQuad (E.newCtx tag) lblConstraint c = st
  refine quad_perm E hB tag st (xs.map (·.2)) (ys.map (·.2))
    (xs'.map (·.2)) (ys'.map (·.2)) (c.indexes.map (E.getG tag)) (c.indexes.map (E.getH tag)) c.indexes.length
    h1 (by omega) (by simp [l1]) (by simp [l2]) (by simp [l3]) (by simp [l4]) (by simp) (by simp)
    (by rw [hsat, hsat']) f g ?_ ?_
  · intro p
    rw [hf, proveQuadraticTag_eq E (coinSeq p.2) p.1 tag c xs ys h1 h2 hx hy, hst]
  · intro p
    rw [hg, proveQuadraticTag_eq E (coinSeq p.2) p.1 tag c xs' ys' h1 h2 hx' hy', hst]

/-- C80, why the exception is needed: when the final challenge is zero the quadratic prover does
not stop, and the proof it outputs contains the folded witness in the clear. -/
theorem C80_quadratic_zero (E : Env F G) (coins : Nat → F × F) (pf π : QuadPf F G) (r : F) (st st' : E.St)
    (as bs : List F) (gs hs : List G) (n : Nat) (hn1 : 1 ≤ n) (hn2 : n ≤ 2 ^ 63) (ha : as.length = n)
    (hb : bs.length = n) (hg : gs.length = n) (hh : hs.length = n) (hL : pf.Ls = []) (hR : pf.Rs = [])
    (hp : proveQuadratic E coins pf r st gs as hs bs n = .ok (π, st'))
    (hx : (deriveQuad E π n st).x = 0) :
    π.a = foldedSum ((deriveQuad E π n st).xs.map (·⁻¹)) as ∧ π.b = foldedSum (deriveQuad E π n st).xs bs := by
  simp only [proveQuadratic, Env.newGenerator, Env.processPoint, lblC, lblF, lblS1, lblS2, lblx,
    Env.newChallenge] at hp
  obtain ⟨f, hf⟩ : ∃ f, f = E.challenge (E.commit st [67] (E.pointBytes pf.C)) [70] 32 := ⟨_, rfl⟩
  simp only [← hf] at hp
  obtain ⟨e, he, hp⟩ := Res.bind_eq_ok.1 hp
  rcases proveQuadLoop_spec E coins (E.fromUniform f.1) (log2roundUp n) n (next2power n / 2)
    ⟨pf.Ls, pf.Rs, gs, as, hs, bs, r, f.2, 0⟩ (level_log hn1 hn2) ha hb hg hh with
    ⟨ht, -⟩ | ⟨e', Ls, Rs, xs, he', hLs, hRs, hc, hz, heL, heR, hek, hea, heb, heg, heh, -⟩
  · rw [he] at ht; cases ht
  rw [he] at he'
  obtain rfl := Res.ok.inj he'
  simp only at hc heL heR hea heb heg heh
  have hle := (log2roundUp_le hn2).2
  have hxl : xs.length = log2roundUp n := by
    have := length_foldChallenges E n f.2 Ls Rs
    rw [hc] at this; simp at this; omega
  rw [singleton_of_foldAll hn1 ha (by simp [hxl, hle])] at hea
  rw [singleton_of_foldAll hn1 hb (by rw [hxl]; exact hle)] at heb
  rw [singleton_of_foldAll hn1 hg (by rw [hxl]; exact hle)] at heg
  rw [singleton_of_foldAll hn1 hh (by simp [hxl, hle])] at heh
  rw [hea, heb, heg, heh, rd_ok (by simp), rd_ok (by simp), rd_ok (by simp), rd_ok (by simp)] at hp
  simp only [Res.ok_bind, List.getElem_cons_zero] at hp
  have hπ := congrArg Prod.fst (Res.ok.inj hp)
  simp only at hπ
  rw [hL, List.nil_append] at heL
  rw [hR, List.nil_append] at heR
  have hd : deriveQuad E π n st = ⟨E.fromUniform f.1, xs, E.scalarReduce (E.challenge (E.commit (E.commit e.st
      [83, 49] (E.pointBytes π.S1)) [83, 50] (E.pointBytes π.S2)) [120] 64).1, (E.challenge (E.commit (E.commit e.st
      [83, 49] (E.pointBytes π.S1)) [83, 50] (E.pointBytes π.S2)) [120] 64).2⟩ := by
    have h1 : π.C = pf.C := by rw [← hπ]
    have h2 : π.Ls = Ls := by rw [← hπ]; exact heL
    have h3 : π.Rs = Rs := by rw [← hπ]; exact heR
    simp only [deriveQuad, h1, h2, h3, ← hf, hc]
  rw [hd] at hx ⊢
  simp only at hx ⊢
  have h1 := congrArg QuadPf.S1 hπ
  have h2 := congrArg QuadPf.S2 hπ
  have h3 := congrArg QuadPf.a hπ
  have h4 := congrArg QuadPf.b hπ
  simp only at h1 h2 h3 h4
  rw [h1, h2, hx, mul_zero, add_zero] at h3 h4
  exact ⟨h3.symm, h4.symm⟩

/-! ### Norm-squared proofs -/

theorem proveQuadratic_pf (E : Env F G) (coins : Nat → F × F) (pf : QuadPf F G) (C : G) (r : F) (st : E.St)
    (gs : List G) (as : List F) (hs : List G) (bs : List F) (n : Nat) (hL : pf.Ls = []) (hR : pf.Rs = []) :
    proveQuadratic E coins { pf with C := C } r st gs as hs bs n =
      proveQuadratic E coins ⟨pf.tag, C, [], [], 0, 0, 0, 0, 0⟩ r st gs as hs bs n := by
  obtain ⟨t, C', Ls, Rs, S1, S2, a, b, r'⟩ := pf
  simp only at hL hR
  subst hL hR
  simp only [proveQuadratic]

/-- C80, norm proofs: they reveal the squared norm, and nothing else.  For two vectors on the same
indexes with the same squared norm a permutation of the randomness turns the runs with the one
into the runs with the other, up to runs with a zero challenge.  (`st0`: the transcript after the
constraint has been processed.) -/
theorem C80_norm_hiding [Finite F] (E : Env F G) (hB : Function.Bijective (fun s : F => s • E.base))
    (pf : QuadPf F G) (st : E.St) (vec vec' : PtxtVec F) (h1 : 1 ≤ vec.length) (h2 : vec.length ≤ 2 ^ 20)
    (hL : pf.Ls = []) (hR : pf.Rs = []) (hix : vec'.map (·.1) = vec.map (·.1))
    (hn : dot (vec'.map (·.2)) (vec'.map (·.2)) = dot (vec.map (·.2)) (vec.map (·.2))) :
    ∃ (σ : Equiv.Perm (F × (Fin (log2roundUp vec.length + 2) → F × F))) (st0 : E.St),
      st0 = (E.newChallenge (E.processQuad st lblNorm
        ⟨vec.map (·.1), dot (vec.map (·.2)) (vec.map (·.2))⟩) lblx).2 ∧ ∀ p,
      proveNormSquared E (coinSeq (σ p).2) (σ p).1 pf st vec' = proveNormSquared E (coinSeq p.2) p.1 pf st vec ∨
      (ZeroChallenge E vec.length st0 ((proveNormSquared E (coinSeq p.2) p.1 pf st vec).bind (fun o => .ok o.2)) ∧
        ZeroChallenge E vec.length st0
          ((proveNormSquared E (coinSeq (σ p).2) (σ p).1 pf st vec').bind (fun o => .ok o.2))) := by
  have hlen' : vec'.length = vec.length := by simpa using congrArg List.length hix
  obtain ⟨N, hN⟩ : ∃ N, N = dot (vec.map (·.2)) (vec.map (·.2)) := ⟨_, rfl⟩
  obtain ⟨ix, hixe⟩ : ∃ ix, ix = vec.map (·.1) := ⟨_, rfl⟩
  rw [← hN] at hn ⊢
  rw [← hixe] at hix ⊢
  have hil : ix.length = vec.length := by rw [hixe]; simp
  obtain ⟨ch, hch⟩ : ∃ ch, ch = E.newChallenge (E.processQuad st lblNorm ⟨ix, N⟩) lblx := ⟨_, rfl⟩
  rw [← hch]
  have run : ∀ v : PtxtVec F, v.map (·.1) = ix → v.length = vec.length →
      dot (v.map (·.2)) (v.map (·.2)) = N →
      ∃ wG wH, wG.length = vec.length ∧ wH.length = vec.length ∧
        dot wG wH = normShiftVer (ch.1 * ch.1) vec.length (ch.1 * ch.1) N ∧
        ∀ r coins, proveNormSquared E coins r pf st v =
          ((proveQuadratic E coins ⟨pf.tag, r • E.base + mexp wG (ix.map (E.getG pf.tag))
            + mexp wH (ix.map (E.getH pf.tag)), [], [], 0, 0, 0, 0, 0⟩ r ch.2
            (ix.map (E.getG pf.tag)) wG (ix.map (E.getH pf.tag)) wH vec.length).bind
              (fun q => Res.ok q.1)).bind (fun q => .ok (N, q)) := by
    intro v hix hl hn
    have hlen := normShift_length ch.1 (v.map (·.2)) ch.1 (dot (v.map (·.2)) (v.map (·.2)))
    have hdot := normShift_dot ch.1 (v.map (·.2)) ch.1 (dot (v.map (·.2)) (v.map (·.2)))
    have hver := normShift_ver ch.1 (v.map (·.2)) ch.1 (dot (v.map (·.2)) (v.map (·.2)))
    rw [hn] at hlen hdot hver
    obtain ⟨ns, hns⟩ : ∃ ns, ns = normShift ch.1 ch.1 N (v.map (·.2)) (v.map (·.2)) := ⟨_, rfl⟩
    rw [← hns] at hlen hdot hver
    obtain ⟨wG, wH, eq'⟩ := ns
    simp only [List.length_map, hl] at hlen hdot hver
    refine ⟨wG, wH, hlen.1, hlen.2, ?_, fun r coins => ?_⟩
    · rw [← hver]; linear_combination hdot
    · rw [proveNormSquared, normConstraint_eq,
        mkFlatQuad_prover E pf.tag _ v v (by simpa [hl] using h1) (by simpa [hl] using h2) rfl rfl]
      simp only [Res.ok_bind, List.length_map]
      rw [hix, hn, ← hch, ← hns, hl]
      simp only
      rw [commit2, multiExp_ok (by simp [hl, hil]) (by simp [hil, hlen.1]),
        multiExp_ok (by simp [hl, hil]) (by simp [hil, hlen.2])]
      simp only [Res.ok_bind]
      rw [List.take_of_length_le (by simp [hil, hlen.1]), List.take_of_length_le (by simp [hil]),
        List.take_of_length_le (by simp [hil, hlen.2]), List.take_of_length_le (by simp [hil]), zero_smul, add_zero,
        proveQuadratic_pf E coins pf _ r ch.2 _ _ _ _ _ hL hR]
      generalize proveQuadratic E coins _ r ch.2 _ _ _ _ _ = o
      cases o <;> rfl
  obtain ⟨wG, wH, l1, l2, d1, r1⟩ := run vec hixe.symm rfl hN.symm
  obtain ⟨wG', wH', l1', l2', d1', r1'⟩ := run vec' hix hlen' hn
  obtain ⟨σ, hσ⟩ := quad_perm E hB pf.tag ch.2 wG wH wG' wH' (ix.map (E.getG pf.tag)) (ix.map (E.getH pf.tag))
    vec.length h1 (by omega) l1 l2 l1' l2' (by simp [hil]) (by simp [hil]) (by rw [d1, d1']) _ _
    (fun p => rfl) (fun p => rfl)
  refine ⟨σ, ch.2, rfl, fun p => ?_⟩
  have back : ∀ o : Res (QuadPf F G), (o.bind (fun q => Res.ok (N, q))).bind (fun o => Res.ok o.2) = o := by
    intro o; cases o <;> rfl
  rw [r1, r1', back, back]
  rcases hσ p with h | h
  · left; rw [h]
  · exact Or.inr h

end

/-! ### Non-vacuity -/

instance : Fact (Nat.Prime 7) := ⟨by decide⟩

/-- A finite environment: scalars and points modulo 7, base point 3, all challenges `k`. -/
def env7 (k : ZMod 7) : Env (ZMod 7) (ZMod 7) where
  St := List Bytes
  init l := [l]
  commit st l m := st ++ [l, m]
  challenge st l n := (List.replicate n (UInt8.ofNat st.length), st ++ [l])
  scalarBytes x := decBytes x.val
  pointBytes x := decBytes x.val
  scalarReduce _ := k
  fromUniform b := b.length
  hashToCurve b := b.length
  base := 3

theorem env7_base (k : ZMod 7) : Function.Bijective (fun s : ZMod 7 => s • (env7 k).base) := by
  have : Function.Bijective (fun s : ZMod 7 => s • (3 : ZMod 7)) := by decide
  exact this

theorem env7_two (b : Bytes) : (env7 2).scalarReduce b ≠ 0 := by simp only [env7]; decide

/-- `2·x₃ + 5·x₇ = 3` modulo 7 has the witnesses (2, 4) and (5, 0). -/
example : ∃ σ : Equiv.Perm (ZMod 7 × (Fin (log2roundUp 2 + 1) → ZMod 7 × ZMod 7)), ∀ p,
    proveLinearTag (env7 2) (coinSeq (σ p).2) (σ p).1 [1] ⟨[(3, 2), (7, 5)], 3⟩ [(3, 5), (7, 0)] =
      proveLinearTag (env7 2) (coinSeq p.2) p.1 [1] ⟨[(3, 2), (7, 5)], 3⟩ [(3, 2), (7, 4)] :=
  C80_linear_hiding (env7 2) (env7_base 2) [1] ⟨[(3, 2), (7, 5)], 3⟩ [(3, 2), (7, 4)] [(3, 5), (7, 0)]
    (by simp) (by simp) rfl rfl (by decide) (by decide)

/-- Accepted proofs exist. -/
example : ∃ π, verifyLinearTag (env7 2) ⟨[(3, 2), (7, 5)], 3⟩ π = .ok true ∧
    ∃! p : ZMod 7 × (Fin (log2roundUp 2 + 1) → ZMod 7 × ZMod 7),
      proveLinearTag (env7 2) (coinSeq p.2) p.1 π.tag ⟨[(3, 2), (7, 5)], 3⟩ [(3, 5), (7, 0)] = .ok π := by
  obtain ⟨π, hπ⟩ := (((C14_prover_succeeds (env7 2) (fun k => ((k : ZMod 7), 3)) 5 [1]).1
    ⟨[(3, 2), (7, 5)], 3⟩ [(3, 2), (7, 4)] (by simp) (by simp) rfl _ rfl).resolve_left
      fun h => linChallenges_ne_zero (env7 2) env7_two _ _ _ _ _ _ _ h.1).2
  have hv : verifyLinearTag (env7 2) ⟨[(3, 2), (7, 5)], 3⟩ π = .ok true := by
    rcases C14_linear_roundtrip (env7 2) (fun k => ((k : ZMod 7), 3)) 5 [1] ⟨[(3, 2), (7, 5)], 3⟩
      [(3, 2), (7, 4)] π (by simp) (by simp) rfl (by decide) hπ with h | ⟨-, h⟩
    · exact h
    · exact absurd h (by simp only [deriveLin, env7]; decide)
  exact ⟨π, hv, C80_linear (env7 2) (env7_base 2) ⟨[(3, 2), (7, 5)], 3⟩ [(3, 5), (7, 0)] (by simp) (by simp) rfl
    (by decide) π hv⟩

/-- `x₂y₂ + x₅y₅ = 4` modulo 7 has the witnesses ((1, 3), (1, 1)) and ((2, 0), (2, 6)). -/
example : ∃ π, verifyQuadraticTag (env7 2) ⟨[2, 5], 4⟩ π = .ok true ∧
    ∃! p : ZMod 7 × (Fin (log2roundUp 2 + 2) → ZMod 7 × ZMod 7),
      proveQuadraticTag (env7 2) (coinSeq p.2) p.1 π.tag ⟨[2, 5], 4⟩ [(2, 2), (5, 0)] [(2, 2), (5, 6)] = .ok π := by
  obtain ⟨π, hπ⟩ := (((C14_prover_succeeds (env7 2) (fun k => ((k : ZMod 7), 3)) 5 [1]).2 ⟨[2, 5], 4⟩
    [(2, 1), (5, 3)] [(2, 1), (5, 1)] (by simp) (by simp) rfl rfl _ rfl).resolve_left
      fun h => quadChallenges_ne_zero (env7 2) env7_two _ _ _ _ _ _ _ _ h.1).2
  have hv := C14_quadratic_roundtrip (env7 2) (fun k => ((k : ZMod 7), 3)) 5 [1] ⟨[2, 5], 4⟩
    [(2, 1), (5, 3)] [(2, 1), (5, 1)] π (by simp) (by simp) rfl rfl (by decide) hπ
  exact ⟨π, hv, C80_quadratic (env7 2) (env7_base 2) ⟨[2, 5], 4⟩ [(2, 2), (5, 0)] [(2, 2), (5, 6)] (by simp)
    (by simp) rfl rfl (by decide) π hv (by simp only [deriveQuad, env7]; decide)⟩

example : ∃ σ : Equiv.Perm (ZMod 7 × (Fin (log2roundUp 2 + 2) → ZMod 7 × ZMod 7)), ∀ p,
    proveQuadraticTag (env7 2) (coinSeq (σ p).2) (σ p).1 [1] ⟨[2, 5], 4⟩ [(2, 2), (5, 0)] [(2, 2), (5, 6)] =
      proveQuadraticTag (env7 2) (coinSeq p.2) p.1 [1] ⟨[2, 5], 4⟩ [(2, 1), (5, 3)] [(2, 1), (5, 1)] := by
  obtain ⟨σ, hσ⟩ := C80_quadratic_hiding (env7 2) (env7_base 2) [1] ⟨[2, 5], 4⟩ [(2, 1), (5, 3)] [(2, 1), (5, 1)]
    [(2, 2), (5, 0)] [(2, 2), (5, 6)] (by simp) (by simp) rfl rfl rfl rfl (by decide) (by decide)
  refine ⟨σ, fun p => ?_⟩
  rcases hσ p with h | ⟨h, -⟩
  · exact h
  · exfalso
    obtain ⟨π, hπ⟩ := (((C14_prover_succeeds (env7 2) (coinSeq p.2) p.1 [1]).2 ⟨[2, 5], 4⟩
      [(2, 1), (5, 3)] [(2, 1), (5, 1)] (by simp) (by simp) rfl rfl _ rfl).resolve_left
        fun h => quadChallenges_ne_zero (env7 2) env7_two _ _ _ _ _ _ _ _ h.1).2
    rw [hπ] at h
    rcases h with h | ⟨π', -, h⟩
    · cases h
    · exact absurd h (by simp only [deriveQuad, env7]; decide)

/-- Two vectors of squared norm 3 modulo 7: (3, 6) and (1, 3).  With nonzero challenges no run is
exceptional. -/
example : ∃ σ : Equiv.Perm (ZMod 7 × (Fin (log2roundUp 2 + 2) → ZMod 7 × ZMod 7)), ∀ p,
    proveNormSquared (env7 2) (coinSeq (σ p).2) (σ p).1 ⟨[1], 0, [], [], 0, 0, 0, 0, 0⟩ [] [(2, 1), (5, 3)] =
      proveNormSquared (env7 2) (coinSeq p.2) p.1 ⟨[1], 0, [], [], 0, 0, 0, 0, 0⟩ [] [(2, 3), (5, 6)] := by
  obtain ⟨σ, st0, -, hσ⟩ := C80_norm_hiding (env7 2) (env7_base 2) ⟨[1], 0, [], [], 0, 0, 0, 0, 0⟩ []
    [(2, 3), (5, 6)] [(2, 1), (5, 3)] (by simp) (by simp) rfl rfl rfl (by decide)
  refine ⟨σ, fun p => ?_⟩
  rcases hσ p with h | ⟨h, -⟩
  · exact h
  · exfalso
    obtain ⟨N, π, hπ⟩ := ((C09_norm_prover_succeeds (env7 2) (coinSeq p.2) p.1 ⟨[1], 0, [], [], 0, 0, 0, 0, 0⟩ []
      [(2, 3), (5, 6)] (by simp) (by simp) rfl rfl _ _ rfl _ _ rfl rfl _ _ rfl rfl _ rfl).resolve_left
        fun h => quadChallenges_ne_zero (env7 2) env7_two _ _ _ _ _ _ _ _ h.1).2
    rw [hπ] at h
    rcases h with h | ⟨π', -, h⟩
    · cases h
    · exact absurd h (by simp only [deriveQuad, env7]; decide)

/-- The leak is real: in an environment where the final challenge is zero and `n = 1` there is no
folding challenge, and the proof contains the witness `(a, b) = (5, 4)`. -/
example : ∃ π st', proveQuadratic (env7 0) (fun _ => (1, 2)) ⟨[1], 0, [], [], 0, 0, 0, 0, 0⟩ 6 [] [2] [5] [3] [4] 1 =
    .ok (π, st') ∧ (deriveQuad (env7 0) π 1 []).x = 0 ∧ π.a = 5 ∧ π.b = 4 := by
  rcases proveQuadratic_spec (env7 0) (fun _ => (1, 2)) ⟨[1], 0, [], [], 0, 0, 0, 0, 0⟩ 6 [] [5] [4] [2] [3] 1
    (by norm_num) (by norm_num) rfl rfl rfl rfl rfl rfl with ⟨-, q, -, hL, -, h0⟩ | ⟨q, hq, -, -, hL, hR, -⟩
  · have : q.Ls = [] := by
      rw [← List.length_eq_zero_iff, hL]; decide +kernel
    simp [deriveQuad, this, foldChallenges] at h0
  · have hx : (deriveQuad (env7 0) q 1 []).x = 0 := by simp only [deriveQuad, env7]
    have := C80_quadratic_zero (env7 0) _ _ q 6 [] _ [5] [4] [2] [3] 1
      (by norm_num) (by norm_num) rfl rfl rfl rfl rfl rfl hq hx
    have e : q.Ls = [] := by
      rw [← List.length_eq_zero_iff, hL]; decide +kernel
    have hxs : (deriveQuad (env7 0) q 1 []).xs = [] := by simp [deriveQuad, e, foldChallenges]
    rw [hxs] at this
    exact ⟨q, _, hq, hx, this.1.trans (by decide), this.2.trans (by decide)⟩

end Verif.Props
