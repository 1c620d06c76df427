/- From "each outcome has one preimage" to a permutation of the randomness. -/
import Verif.Lemmas.WitnessInd
import Verif.Lemmas.BPTag
import Verif.Spec.WitnessInd
import Mathlib.Logic.Equiv.Fintype

namespace Verif
open Spec

/-- If every outcome with property `P` has exactly one preimage under both `f` and `g`, then a
permutation of the domain turns one function into the other, on outcomes with property `P`. -/
theorem perm_of_fibers {α β : Type} [Finite α] (f g : α → β) (P : β → Prop)
    (hf : ∀ b, P b → ∃! a, f a = b) (hg : ∀ b, P b → ∃! a, g a = b) :
    ∃ σ : Equiv.Perm α, ∀ a, (P (f a) → g (σ a) = f a) ∧ (P (g (σ a)) → g (σ a) = f a) := by
  classical
  choose u hu hu' using hf
  choose v hv hv' using hg
  let e : {a // P (f a)} ≃ {a // P (g a)} :=
    { toFun := fun a => ⟨v (f a.1) a.2, by rw [hv]; exact a.2⟩
      invFun := fun a => ⟨u (g a.1) a.2, by rw [hu]; exact a.2⟩
      left_inv := by
        rintro ⟨a, ha⟩
        apply Subtype.ext
        dsimp only
        refine (hu' _ _ _ ?_).symm
        dsimp only
        rw [hv]
      right_inv := by
        rintro ⟨a, ha⟩
        apply Subtype.ext
        dsimp only
        refine (hv' _ _ _ ?_).symm
        dsimp only
        rw [hu] }
  haveI : Finite {a | P (f a)} := Subtype.finite
  refine ⟨Equiv.extendSubtype (p := fun a => P (f a)) (q := fun a => P (g a)) e, fun a => ?_⟩
  have key : ∀ ha : P (f a),
      g (Equiv.extendSubtype (p := fun a => P (f a)) (q := fun a => P (g a)) e a) = f a := by
    intro ha
    rw [Equiv.extendSubtype_apply_of_mem (p := fun a => P (f a)) (q := fun a => P (g a)) e a ha]
    exact hv _ ha
  refine ⟨key, fun h => ?_⟩
  by_cases ha : P (f a)
  · exact key ha
  · exact absurd h (Equiv.extendSubtype_not_mem (p := fun a => P (f a)) (q := fun a => P (g a)) e a ha)

section
variable {F G : Type} [Field F] [AddCommGroup G] [Module F G] [DecidableEq F] [DecidableEq G]

theorem coinSeq_fin {k : Nat} (coins : Nat → F × F) :
    ∀ i < k, coinSeq (fun j : Fin k => coins j) i = coins i := by
  intro i hi
  simp [coinSeq, hi]

theorem proveLinearTag_eq (E : Env F G) (coins : Nat → F × F) (r : F) (tag : Bytes)
    (c : LinConstraint F) (xes : PtxtVec F) (h1 : 1 ≤ c.terms.length) (h2 : c.terms.length ≤ 2 ^ 20)
    (hk : xes.map (·.1) = c.terms.map (·.1)) :
    proveLinearTag E coins r tag c xes =
      (proveLinear E coins
        ⟨tag, r • E.base + mexp (xes.map (·.2)) (c.terms.map (fun e => E.getG tag e.1)), [], [], 0, 0, 0⟩ r
        (E.processLin (E.newCtx tag) lblConstraint c) (xes.map (·.2)) (c.terms.map (·.2))
        (c.terms.map (fun e => E.getG tag e.1)) c.terms.length).bind (fun p => .ok p.1) := by
  have hl : xes.length = c.terms.length := by simpa using congrArg List.length hk
  rw [proveLinearTag, mkFlatLin_prover E tag c xes h1 h2 hk]
  simp only [Res.ok_bind, List.length_map]
  rw [commit, multiExp_ok (by simp) (by simp [hl])]
  simp only [Res.ok_bind]
  rw [List.take_of_length_le (by simp [hl]), List.take_of_length_le (by simp), zero_smul, add_zero]
  rfl

theorem proveQuadraticTag_eq (E : Env F G) (coins : Nat → F × F) (r : F) (tag : Bytes)
    (c : QuadConstraint F) (xs ys : PtxtVec F) (h1 : 1 ≤ c.indexes.length) (h2 : c.indexes.length ≤ 2 ^ 20)
    (hx : xs.map (·.1) = c.indexes) (hy : ys.map (·.1) = c.indexes) :
    proveQuadraticTag E coins r tag c xs ys =
      (proveQuadratic E coins
        ⟨tag, r • E.base + mexp (xs.map (·.2)) (c.indexes.map (E.getG tag))
          + mexp (ys.map (·.2)) (c.indexes.map (E.getH tag)), [], [], 0, 0, 0, 0, 0⟩ r
        (E.processQuad (E.newCtx tag) lblConstraint c) (c.indexes.map (E.getG tag)) (xs.map (·.2))
        (c.indexes.map (E.getH tag)) (ys.map (·.2)) c.indexes.length).bind (fun p => .ok p.1) := by
  have hlx : xs.length = c.indexes.length := by simpa using congrArg List.length hx
  have hly : ys.length = c.indexes.length := by simpa using congrArg List.length hy
  rw [proveQuadraticTag, mkFlatQuad_prover E tag c xs ys h1 h2 hx hy]
  simp only [Res.ok_bind, List.length_map]
  rw [commit2, multiExp_ok (by simp) (by simp [hlx]), multiExp_ok (by simp) (by simp [hly])]
  simp only [Res.ok_bind]
  rw [List.take_of_length_le (by simp [hlx]), List.take_of_length_le (by simp),
    List.take_of_length_le (by simp [hly]), List.take_of_length_le (by simp), zero_smul, add_zero]
  rfl

/-- What makes `π` a possible outcome of the linear prover for a true statement. -/
def LinOutcome (E : Env F G) (tag : Bytes) (st : E.St) (bs : List F) (gs : List G) (n : Nat) (eq : F)
    (π : LinPf F G) : Prop :=
  π.tag = tag ∧ π.Ls.length = log2roundUp n ∧ π.Rs.length = log2roundUp n ∧
    0 ∉ (deriveLin E π n st).xs ∧ LinEq E π bs gs eq [] (deriveLin E π n st)

/-- The same for the quadratic prover, when the final challenge is not zero. -/
def QuadOutcome (E : Env F G) (tag : Bytes) (st : E.St) (gs hs : List G) (n : Nat) (eq : F)
    (π : QuadPf F G) : Prop :=
  π.tag = tag ∧ π.Ls.length = log2roundUp n ∧ π.Rs.length = log2roundUp n ∧
    0 ∉ (deriveQuad E π n st).xs ∧ (deriveQuad E π n st).x ≠ 0 ∧
    QuadEq E π gs hs eq [] [] (deriveQuad E π n st)

/-- The prover with its commitment, as a function of all its randomness. -/
theorem lin_fiber (E : Env F G) (hB : Function.Bijective (fun s : F => s • E.base)) (tag : Bytes) (st : E.St)
    (as bs : List F) (gs : List G) (n : Nat) (eq : F) (hn1 : 1 ≤ n) (hn2 : n ≤ 2 ^ 63) (ha : as.length = n)
    (hb : bs.length = n) (hg : gs.length = n) (heq : dot as bs = eq) (π : LinPf F G)
    (hπ : LinOutcome E tag st bs gs n eq π) :
    ∃ (r0 : F) (cs : Nat → F × F), ∀ (r : F) (coins : Nat → F × F),
      (proveLinear E coins ⟨tag, r • E.base + mexp as gs, [], [], 0, 0, 0⟩ r st as bs gs n).bind
        (fun p => .ok p.1) = .ok π ↔ r = r0 ∧ ∀ i ≤ log2roundUp n, coins i = cs i := by
  obtain ⟨ht, hπL, hπR, h0, hE⟩ := hπ
  obtain ⟨r0, hr0⟩ := hB.2 (π.C - mexp as gs)
  simp only at hr0
  obtain ⟨cs, hcs⟩ := proveLinear_coins E hB ⟨tag, π.C, [], [], 0, 0, 0⟩ π r0 st as bs gs n eq hn1 hn2 ha hb hg
    rfl rfl (by simp only; rw [hr0]; abel) heq ht rfl hπL hπR h0 hE
  refine ⟨r0, cs, fun r coins => ?_⟩
  have hout : ∀ r : F, (proveLinear E coins ⟨tag, r • E.base + mexp as gs, [], [], 0, 0, 0⟩ r st as bs gs n).bind
        (fun p => .ok p.1) = .ok π ↔
      proveLinear E coins ⟨tag, r • E.base + mexp as gs, [], [], 0, 0, 0⟩ r st as bs gs n
        = .ok (π, (deriveLin E π n st).st) := by
    intro r
    constructor
    · intro h
      obtain ⟨p, hp, h⟩ := Res.bind_eq_ok.1 h
      have h := Res.ok.inj h
      rcases proveLinear_spec E coins ⟨tag, r • E.base + mexp as gs, [], [], 0, 0, 0⟩ r st as bs gs n hn1 hn2
        ha hb hg rfl rfl with ⟨ht, -⟩ | ⟨q, hq, -⟩
      · rw [hp] at ht; cases ht
      · rw [hp] at hq
        have hq := Res.ok.inj hq
        rw [hp, hq]
        rw [hq] at h
        simp only at h
        rw [h]
    · intro h; rw [h]; rfl
  rw [hout]
  constructor
  · intro h
    have hr : r = r0 := by
      rcases proveLinear_spec E coins ⟨tag, r • E.base + mexp as gs, [], [], 0, 0, 0⟩ r st as bs gs n hn1 hn2
        ha hb hg rfl rfl with ⟨ht, -⟩ | ⟨q, hq, -, hqC, -⟩
      · rw [h] at ht; cases ht
      · rw [h] at hq
        have hq := congrArg Prod.fst (Res.ok.inj hq)
        simp only at hq hqC
        rw [← hq] at hqC
        refine hB.1 ?_
        simp only
        rw [hr0, hqC]; abel
    subst hr
    have hc : r • E.base + mexp as gs = π.C := by rw [hr0]; abel
    rw [hc] at h
    exact ⟨rfl, (hcs coins).1 h⟩
  · rintro ⟨rfl, h⟩
    have hc : r • E.base + mexp as gs = π.C := by rw [hr0]; abel
    rw [hc]
    exact (hcs coins).2 h

theorem quad_fiber (E : Env F G) (hB : Function.Bijective (fun s : F => s • E.base)) (tag : Bytes) (st : E.St)
    (as bs : List F) (gs hs : List G) (n : Nat) (eq : F) (hn1 : 1 ≤ n) (hn2 : n ≤ 2 ^ 63) (ha : as.length = n)
    (hb : bs.length = n) (hg : gs.length = n) (hh : hs.length = n) (heq : dot as bs = eq) (π : QuadPf F G)
    (hπ : QuadOutcome E tag st gs hs n eq π) :
    ∃ (r0 : F) (cs : Nat → F × F), ∀ (r : F) (coins : Nat → F × F),
      (proveQuadratic E coins ⟨tag, r • E.base + mexp as gs + mexp bs hs, [], [], 0, 0, 0, 0, 0⟩ r st gs as hs bs
        n).bind (fun p => .ok p.1) = .ok π ↔ r = r0 ∧ ∀ i ≤ log2roundUp n + 1, coins i = cs i := by
  obtain ⟨ht, hπL, hπR, h0, hx, hE⟩ := hπ
  obtain ⟨r0, hr0⟩ := hB.2 (π.C - (mexp as gs + mexp bs hs))
  simp only at hr0
  obtain ⟨cs, hcs⟩ := proveQuadratic_coins E hB ⟨tag, π.C, [], [], 0, 0, 0, 0, 0⟩ π r0 st as bs gs hs n eq hn1 hn2
    ha hb hg hh rfl rfl [] [] (by simp only [mexp_nil_left, add_zero]; rw [hr0]; abel) heq ht rfl hπL hπR h0 hx hE
  refine ⟨r0, cs, fun r coins => ?_⟩
  have hout : ∀ r : F, (proveQuadratic E coins ⟨tag, r • E.base + mexp as gs + mexp bs hs, [], [], 0, 0, 0, 0, 0⟩
        r st gs as hs bs n).bind (fun p => .ok p.1) = .ok π ↔
      proveQuadratic E coins ⟨tag, r • E.base + mexp as gs + mexp bs hs, [], [], 0, 0, 0, 0, 0⟩ r st gs as hs bs n
        = .ok (π, (deriveQuad E π n st).st) := by
    intro r
    constructor
    · intro h
      obtain ⟨p, hp, h⟩ := Res.bind_eq_ok.1 h
      have h := Res.ok.inj h
      rcases proveQuadratic_spec E coins ⟨tag, r • E.base + mexp as gs + mexp bs hs, [], [], 0, 0, 0, 0, 0⟩ r st
        as bs gs hs n hn1 hn2 ha hb hg hh rfl rfl with ⟨ht, -⟩ | ⟨q, hq, -⟩
      · rw [hp] at ht; cases ht
      · rw [hp] at hq
        have hq := Res.ok.inj hq
        rw [hp, hq]
        rw [hq] at h
        simp only at h
        rw [h]
    · intro h; rw [h]; rfl
  rw [hout]
  constructor
  · intro h
    have hr : r = r0 := by
      rcases proveQuadratic_spec E coins ⟨tag, r • E.base + mexp as gs + mexp bs hs, [], [], 0, 0, 0, 0, 0⟩ r st
        as bs gs hs n hn1 hn2 ha hb hg hh rfl rfl with ⟨ht, -⟩ | ⟨q, hq, -, hqC, -⟩
      · rw [h] at ht; cases ht
      · rw [h] at hq
        have hq := congrArg Prod.fst (Res.ok.inj hq)
        simp only at hq hqC
        rw [← hq] at hqC
        refine hB.1 ?_
        simp only
        rw [hr0, hqC]; abel
    subst hr
    have hc : r • E.base + mexp as gs + mexp bs hs = π.C := by rw [hr0]; abel
    rw [hc] at h
    exact ⟨rfl, (hcs coins).1 h⟩
  · rintro ⟨rfl, h⟩
    have hc : r • E.base + mexp as gs + mexp bs hs = π.C := by rw [hr0]; abel
    rw [hc]
    exact (hcs coins).2 h

/-- From a condition on the first coins to a unique finite vector of coins. -/
theorem unique_coins {β : Type} {k : Nat} (f : F → (Nat → F × F) → β) (b : β) (r0 : F) (cs : Nat → F × F)
    (h : ∀ r coins, f r coins = b ↔ r = r0 ∧ ∀ i < k, coins i = cs i) :
    ∃! p : F × (Fin k → F × F), f p.1 (coinSeq p.2) = b := by
  refine ⟨(r0, fun i => cs i), (h _ _).2 ⟨rfl, coinSeq_fin cs⟩, fun p hp => ?_⟩
  obtain ⟨h1, h2⟩ := (h _ _).1 hp
  refine Prod.ext h1 (funext fun i => ?_)
  have := h2 i i.2
  simpa [coinSeq] using this

end

end Verif
