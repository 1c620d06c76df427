/-
Property C106: a program that chooses statement, tag and proof itself can be made to open its commitments.
-/
import Verif.Props.FiatShamir
import Verif.Props.Merlin

namespace Verif.Props
open Verif Verif.Spec Verif.Merlin

section
variable {F G Ω : Type} [Field F] [AddCommGroup G] [Module F G]

/-- Entries as operations. -/
def toOp : Entry → TOp
  | .started l => .commit l []
  | .absorbed l m => .commit l m
  | .drawn l n => .challenge l n

theorem linStart_inj (E : Env F G) (hsb : Function.Injective E.scalarBytes) (tag tag' : Bytes) (c c' : LinConstraint F)
    (hc : ∀ t ∈ c.terms, t.1 < 2 ^ 32) (hc' : ∀ t ∈ c'.terms, t.1 < 2 ^ 32) (l l' : List Entry)
    (h : linStart E tag c ++ l = linStart E tag' c' ++ l') : tag = tag' ∧ c = c' ∧ l = l' := by
  have ht : tag = tag' := by
    simp only [linStart, List.cons_append, List.cons.injEq, Entry.started.injEq] at h
    exact h.1
  subst ht
  have hm := congrArg (fun x => (x.drop 1).map toOp) h
  have hops : ∀ (c : LinConstraint F) (l : List Entry), ((linStart E tag c ++ l).drop 1).map toOp =
      linOps E lblConstraint c ++ l.map toOp := by
    intro c l
    simp [linStart, linOps, toOp, Function.comp_def]
  simp only [hops] at hm
  obtain ⟨-, h1, -⟩ := linOps_append_inj E hsb _ _ _ _ _ _ hc hc' hm
  subst h1
  exact ⟨rfl, rfl, List.append_cancel_left h⟩

theorem quadStart_inj (E : Env F G) (hsb : Function.Injective E.scalarBytes) (tag tag' : Bytes) (c c' : QuadConstraint F)
    (hc : ∀ i ∈ c.indexes, i < 2 ^ 64) (hc' : ∀ i ∈ c'.indexes, i < 2 ^ 64) (l l' : List Entry)
    (h : quadStart E tag c ++ l = quadStart E tag' c' ++ l') : tag = tag' ∧ c = c' ∧ l = l' := by
  simp only [quadStart, List.cons_append, List.nil_append, List.cons.injEq, Entry.started.injEq, Entry.absorbed.injEq, true_and] at h
  obtain ⟨h1, h2, h3, h4⟩ := h
  exact ⟨h1, (C52_quadratic E hsb [] lblConstraint lblConstraint c c' hc hc'
    (by rw [recEnv_quad, recEnv_quad, quadOps, quadOps, h2, h3])).2, h4⟩

variable [DecidableEq F] [DecidableEq G] [Finite F] [Finite G] [Finite Ω]

/-- **C106, linear proofs.** A program that evaluates the random function at most `T` times outputs a linear constraint of its choice,
with at most `2^K` terms, and a proof with a tag of its choice.  If the public verifier accepts for more than a fraction
`(T+K+2)·max(ν,2μ)/N` of all functions, then among its accepted outputs there are two trees for one tag, one constraint and one
commitment.  They give scalars `a` for the variables of this constraint: if the coefficient of `F₁` in a relation between the
generators is zero, then the commitment is to `a`, and `a` satisfies the constraint. -/
theorem C106_linear (E : Env F G) (hpb : Function.Injective E.pointBytes) (hsb : Function.Injective E.scalarBytes)
    (ans : ℕ → Ω → Bytes) (μ ν : ℕ)
    (hμ : ∀ c, {o | E.scalarReduce (ans 64 o) = c}.ncard ≤ μ) (hν : ∀ g, {o | E.fromUniform (ans 32 o) = g}.ncard ≤ ν)
    (K : ℕ) (hK : K ≤ 20) (A : Program Query Ω (LinConstraint F × LinPf F G)) (T : ℕ) (hT : ∀ H, (A.asked H).length ≤ T) :
    ∃ D₀ : Finset Query, ∀ D, D₀ ⊆ D → ∀ H₀ : Query → Ω,
      (T + K + 2) * max ν (2 * μ) * Nat.card (D → Ω) <
        {H : D → Ω | ∃ c pf, A.run (onSet D H₀ H) = (c, pf) ∧ (∀ t ∈ c.terms, t.1 < 2 ^ 32) ∧ c.terms.length ≤ 2 ^ K ∧
          verifyLinearTag (oracleEnv E ans (onSet D H₀ H)) c pf = .ok true}.ncard * Nat.card Ω →
      ∃ (tag : Bytes) (c : LinConstraint F),
        let gs := c.terms.map fun t => E.getG tag t.1
        let bs := c.terms.map (·.2)
        let Out := fun H pf => A.run H = (c, pf) ∧ pf.tag = tag
        ∃ (C F₁ F₂ : G) (t₁ t₂ : LinTree F G), F₁ ≠ F₂ ∧
          t₁.OutputBy E ans (linStart E tag c) gs bs c.equalsTo none Out C F₁ [] [] [] ∧
          t₂.OutputBy E ans (linStart E tag c) gs bs c.equalsTo none Out C F₂ [] [] [] ∧
          let a := t₁.extract.2.take c.terms.length
          let a' := t₂.extract.2.take c.terms.length
          a.length = c.terms.length ∧ a'.length = c.terms.length ∧
          (t₁.extract.1 - t₂.extract.1) • E.base + mexp (List.zipWith (· - ·) a a') gs + (dot a bs - c.equalsTo) • F₁ +
            (c.equalsTo - dot a' bs) • F₂ = 0 ∧
          (dot a bs = c.equalsTo → C = t₁.extract.1 • E.base + mexp a gs) := by
  classical
  obtain ⟨V, hV⟩ : ∃ V : Bytes × LinConstraint F → Prop, V = fun x => (∀ t ∈ x.2.terms, t.1 < 2 ^ 32) ∧ 1 ≤ x.2.terms.length ∧
    x.2.terms.length ≤ 2 ^ K := ⟨_, rfl⟩
  have hV' : ∀ x, V x ↔ (∀ t ∈ x.2.terms, t.1 < 2 ^ 32) ∧ 1 ≤ x.2.terms.length ∧ x.2.terms.length ≤ 2 ^ K := by
    intro x; rw [hV]
  have h20 : 2 ^ K ≤ 2 ^ 20 := Nat.pow_le_pow_right (by norm_num) hK
  obtain ⟨D₀, h⟩ := lin_family E hpb ans μ ν hμ hν (ι := {x // V x}) (fun i => linStart E i.1.1 i.1.2) (by
      rintro ⟨⟨tag, c⟩, hi⟩ ⟨⟨tag', c'⟩, hi'⟩ l l' h
      rw [hV'] at hi hi'
      obtain ⟨h1, h2, h3⟩ := linStart_inj E hsb tag tag' c c' hi.1 hi'.1 l l' h
      subst h1 h2
      exact ⟨rfl, h3⟩)
    (fun i => i.1.2.terms.map fun t => E.getG i.1.1 t.1) (fun i => i.1.2.terms.map (·.2)) (fun i => i.1.2.equalsTo) (fun _ => none)
    (by rintro ⟨x, hi⟩; rw [hV'] at hi; simpa using hi.2.1)
    (by rintro ⟨x, hi⟩; rw [hV'] at hi; rw [List.length_map]; exact hi.2.2.trans (h20.trans (by norm_num)))
    (by simp) (by simp) K
    (by rintro ⟨x, hi⟩; rw [hV'] at hi; rw [List.length_map]; exact (log2roundUp_le_iff (hi.2.2.trans (h20.trans (by norm_num)))).2 hi.2.2)
    A (fun o => if hv : V (o.2.tag, o.1) then some ⟨_, hv⟩ else none) (·.2) T hT
  refine ⟨D₀, fun D hD H₀ hc => ?_⟩
  obtain ⟨⟨⟨tag, c⟩, hi⟩, C, F₁, F₂, t₁, t₂, e1, e2, e3, -, -, e4, e5, e6, e7⟩ := h D hD H₀ (by
    refine lt_of_lt_of_le hc (Nat.mul_le_mul_right _ (Set.ncard_le_ncard ?_ (Set.toFinite _)))
    rintro H ⟨c, pf, hr, hc1, hc2, hv⟩
    have h1 : 1 ≤ c.terms.length := by
      by_contra h0
      rw [verifyLinearTag, mkFlatLin, if_pos (by omega)] at hv
      exact absurd hv (by simp)
    have hVc : V (pf.tag, c) := (hV' _).2 ⟨hc1, h1, hc2⟩
    refine ⟨⟨(pf.tag, c), hVc⟩, by simp only [hr]; rw [dif_pos hVc], ?_⟩
    rw [hr]
    rw [verifyLinearTag, mkFlatLin_verifier (oracleEnv E ans (onSet D H₀ H)) pf.tag c h1 (by omega)] at hv
    simp only [Res.ok_bind] at hv
    obtain ⟨⟨b, st'⟩, hv, hb⟩ := Res.bind_eq_ok.1 hv
    simp only [Res.ok.injEq] at hb
    subst hb
    refine ⟨st', ?_⟩
    have hs : linStart E pf.tag c = (oracleEnv E ans (onSet D H₀ H)).processLin ((oracleEnv E ans (onSet D H₀ H)).newCtx pf.tag)
        lblConstraint c := by
      simp only [Env.processLin, Env.newCtx, Env.processScalar, oracleEnv]
      rw [foldl_absorb]
      rfl
    dsimp only
    rw [hs]
    exact hv)
  have hOut : (fun (H : Query → Ω) (pf : LinPf F G) =>
      (if hv : V ((A.run H).2.tag, (A.run H).1) then some (⟨_, hv⟩ : {x // V x}) else none) = some ⟨(tag, c), hi⟩ ∧ (A.run H).2 = pf) =
      fun H pf => A.run H = (c, pf) ∧ pf.tag = tag := by
    funext H pf
    apply propext
    constructor
    · rintro ⟨h1, h2⟩
      split at h1
      · simp only [Option.some.injEq, Subtype.mk.injEq, Prod.mk.injEq] at h1
        exact ⟨Prod.ext h1.2 h2, by rw [← h2]; exact h1.1⟩
      · simp at h1
    · rintro ⟨h1, h2⟩
      subst h2
      rw [h1]
      exact ⟨dif_pos hi, rfl⟩
  rw [hOut] at e2 e3
  simp only [List.length_map] at e4 e5 e6 e7
  exact ⟨tag, c, C, F₁, F₂, t₁, t₂, e1, e2, e3, e4, e5, e6, fun he => by simpa [mexp] using e7 he⟩

/-- **C106, quadratic proofs.** The same for quadratic constraints about `2^k` pairs of variables, `k ≤ K`, and a fraction
`(T+K+2)·max(ν,4μ)/N`. -/
theorem C106_quadratic (E : Env F G) (hpb : Function.Injective E.pointBytes) (hsb : Function.Injective E.scalarBytes)
    (ans : ℕ → Ω → Bytes) (μ ν : ℕ)
    (hμ : ∀ c, {o | E.scalarReduce (ans 64 o) = c}.ncard ≤ μ) (hν : ∀ g, {o | E.fromUniform (ans 32 o) = g}.ncard ≤ ν)
    (K : ℕ) (hK : K ≤ 20) (A : Program Query Ω (QuadConstraint F × QuadPf F G)) (T : ℕ) (hT : ∀ H, (A.asked H).length ≤ T) :
    ∃ D₀ : Finset Query, ∀ D, D₀ ⊆ D → ∀ H₀ : Query → Ω,
      (T + K + 2) * max ν (4 * μ) * Nat.card (D → Ω) <
        {H : D → Ω | ∃ c pf, A.run (onSet D H₀ H) = (c, pf) ∧ (∀ i ∈ c.indexes, i < 2 ^ 64) ∧
          (∃ k ≤ K, c.indexes.length = 2 ^ k) ∧
          verifyQuadraticTag (oracleEnv E ans (onSet D H₀ H)) c pf = .ok true}.ncard * Nat.card Ω →
      ∃ (tag : Bytes) (c : QuadConstraint F) (k : ℕ), c.indexes.length = 2 ^ k ∧
        let gs := c.indexes.map (E.getG tag)
        let hs := c.indexes.map (E.getH tag)
        let Out := fun H pf => A.run H = (c, pf) ∧ pf.tag = tag
        ∃ (C F₁ F₂ : G) (t₁ t₂ : QuadTree F G), F₁ ≠ F₂ ∧
          t₁.OutputBy E ans (quadStart E tag c) gs hs c.equalsTo none none Out C F₁ [] [] [] ∧
          t₂.OutputBy E ans (quadStart E tag c) gs hs c.equalsTo none none Out C F₂ [] [] [] ∧
          let a := (List.range (2 ^ k)).map (t₁.extract k).2.2.1
          let b := (List.range (2 ^ k)).map (t₁.extract k).2.2.2
          let α := (List.range (2 ^ k)).map ((t₁.extract k).2.2.1 - (t₂.extract k).2.2.1)
          let β := (List.range (2 ^ k)).map ((t₁.extract k).2.2.2 - (t₂.extract k).2.2.2)
          (∀ ρ ∈ t₁.relations k, ρ.1 • E.base + ρ.2.1 • F₁ + mexp ((List.range (2 ^ k)).map ρ.2.2.1) gs
            + mexp ((List.range (2 ^ k)).map ρ.2.2.2) hs = 0) ∧
          ((t₁.extract k).1 - (t₂.extract k).1) • E.base + mexp α gs + mexp β hs + ((t₁.extract k).2.1 - c.equalsTo) • F₁ +
            (c.equalsTo - (t₂.extract k).2.1) • F₂ = 0 ∧
          ((∀ ρ ∈ t₁.relations k, ρ.Trivial (2 ^ k)) → (t₁.extract k).2.1 - c.equalsTo = 0 →
            C = (t₁.extract k).1 • E.base + mexp a gs + mexp b hs ∧ dot a b = c.equalsTo) := by
  classical
  obtain ⟨V, hV⟩ : ∃ V : Bytes × QuadConstraint F × ℕ → Prop, V = fun x => (∀ i ∈ x.2.1.indexes, i < 2 ^ 64) ∧ x.2.2 ≤ K ∧
    x.2.1.indexes.length = 2 ^ x.2.2 := ⟨_, rfl⟩
  have hV' : ∀ x, V x ↔ (∀ i ∈ x.2.1.indexes, i < 2 ^ 64) ∧ x.2.2 ≤ K ∧ x.2.1.indexes.length = 2 ^ x.2.2 := by
    intro x; rw [hV]
  have h20 : 2 ^ K ≤ 2 ^ 20 := Nat.pow_le_pow_right (by norm_num) hK
  have h22 : ∀ a b : ℕ, 2 ^ a = 2 ^ b → a = b := fun a b h => Nat.pow_right_injective (le_refl 2) h
  obtain ⟨D₀, h⟩ := quad_family E hpb ans μ ν hμ hν (ι := {x // V x}) (fun i => quadStart E i.1.1 i.1.2.1) (by
      rintro ⟨⟨tag, c, k⟩, hi⟩ ⟨⟨tag', c', k'⟩, hi'⟩ l l' h
      have hi0 := hi
      have hi0' := hi'
      rw [hV'] at hi0 hi0'
      obtain ⟨h1, h2, h3⟩ := quadStart_inj E hsb tag tag' c c' hi0.1 hi0'.1 l l' h
      subst h1 h2
      have : k = k' := h22 _ _ (hi0.2.2.symm.trans hi0'.2.2)
      subst this
      exact ⟨rfl, h3⟩)
    (fun i => i.1.2.1.indexes.map (E.getG i.1.1)) (fun i => i.1.2.1.indexes.map (E.getH i.1.1)) (fun i => i.1.2.1.equalsTo)
    (fun _ => none) (fun _ => none) (fun i => i.1.2.2)
    (by rintro ⟨x, hi⟩; rw [hV'] at hi; dsimp only; omega)
    (by rintro ⟨x, hi⟩; rw [hV'] at hi; simpa using hi.2.2)
    (by rintro ⟨x, hi⟩; rw [hV'] at hi; simpa using hi.2.2)
    (by simp) (by simp) K
    (by rintro ⟨x, hi⟩; rw [hV'] at hi; exact hi.2.1)
    A (fun o => if hv : ∃ k, V (o.2.tag, o.1, k) then some ⟨_, hv.choose_spec⟩ else none) (·.2) T hT
  refine ⟨D₀, fun D hD H₀ hc => ?_⟩
  obtain ⟨⟨⟨tag, c, k⟩, hi⟩, C, F₁, F₂, t₁, t₂, e1, e2, e3, -, -, e4, e5, e6⟩ := h D hD H₀ (by
    refine lt_of_lt_of_le hc (Nat.mul_le_mul_right _ (Set.ncard_le_ncard ?_ (Set.toFinite _)))
    rintro H ⟨c, pf, hr, hc1, ⟨k, hk, hc2⟩, hv⟩
    have h1 : 1 ≤ c.indexes.length := by rw [hc2]; exact Nat.one_le_two_pow
    have h2 : c.indexes.length ≤ 2 ^ 20 := by rw [hc2]; exact Nat.pow_le_pow_right (by norm_num) (hk.trans hK)
    have hVc : ∃ k, V (pf.tag, c, k) := ⟨k, (hV' _).2 ⟨hc1, hk, hc2⟩⟩
    refine ⟨⟨(pf.tag, c, hVc.choose), hVc.choose_spec⟩, by simp only [hr]; rw [dif_pos hVc], ?_⟩
    rw [hr]
    rw [verifyQuadraticTag, mkFlatQuad_verifier (oracleEnv E ans (onSet D H₀ H)) pf.tag c h1 h2] at hv
    simp only [Res.ok_bind] at hv
    obtain ⟨⟨b, st'⟩, hv, hb⟩ := Res.bind_eq_ok.1 hv
    simp only [Res.ok.injEq] at hb
    subst hb
    exact ⟨st', hv⟩)
  have hOut : (fun (H : Query → Ω) (pf : QuadPf F G) =>
      (if hv : ∃ k, V ((A.run H).2.tag, (A.run H).1, k) then some (⟨_, hv.choose_spec⟩ : {x // V x}) else none) =
        some ⟨(tag, c, k), hi⟩ ∧ (A.run H).2 = pf) =
      fun H pf => A.run H = (c, pf) ∧ pf.tag = tag := by
    funext H pf
    apply propext
    constructor
    · rintro ⟨h1, h2⟩
      split at h1
      · simp only [Option.some.injEq, Subtype.mk.injEq, Prod.mk.injEq] at h1
        exact ⟨Prod.ext h1.2.1 h2, by rw [← h2]; exact h1.1⟩
      · simp at h1
    · rintro ⟨h1, h2⟩
      subst h2
      rw [h1]
      have hx : ∃ k, V (pf.tag, c, k) := ⟨k, hi⟩
      refine ⟨?_, rfl⟩
      dsimp only
      rw [dif_pos hx]
      have hk' : hx.choose = k :=
        h22 _ _ (((hV' _).1 hx.choose_spec).2.2.symm.trans ((hV' _).1 hi).2.2)
      simp only [Option.some.injEq, Subtype.mk.injEq, Prod.mk.injEq, true_and]
      exact hk'
  rw [hOut] at e2 e3
  exact ⟨tag, c, k, by simpa using ((hV' _).1 hi).2.2, C, F₁, F₂, t₁, t₂, e1, e2, e3, e4, e5,
    fun hr he => by simpa [mexp] using e6 hr he⟩

end

/-! ### The hypotheses can be met -/

private instance : Fact (Nat.Prime 23) := ⟨by norm_num⟩

theorem fsEnv_values (c : ZMod 23) : {o : Fin 22 | (fsEnv.scalarReduce (fsBytes 64 o)) = c}.ncard ≤ 1 := by
  rw [Set.ncard_le_one_iff]
  intro a b ha hb
  have key : ∀ a b : Fin 22, fsEnv.scalarReduce (fsBytes 64 a) = fsEnv.scalarReduce (fsBytes 64 b) → a = b := by
    decide +kernel
  exact key a b (Eq.trans ha (Eq.symm hb))

theorem fsEnv_points : Function.Injective fsEnv.pointBytes := by
  have key : ∀ a b : ZMod 23, fsEnv.pointBytes a = fsEnv.pointBytes b → a = b := by decide +kernel
  exact fun a b => key a b

/-- The program lets a value of the function choose the variable `i` of the constraint `3·x_i = 3`, then asks for the challenge and
outputs a proof. -/
def fsAdaptive : Program Query (Fin 22) (LinConstraint (ZMod 23) × LinPf (ZMod 23) (ZMod 23)) :=
  .ask ([], [], 0) fun i =>
    .ask (linStart fsEnv [] ⟨[(i, 3)], 3⟩ ++ [.absorbed [67] [7], .drawn [70] 32, .absorbed [83] [0]], [120], 64) fun o =>
      .done (⟨[(i, 3)], 3⟩, ⟨[], 7, [], [], 0, (o : ℕ) + 1, 5 * ((o : ℕ) + 1)⟩)

theorem fsAdaptive_accepted (H : Query → Fin 22) : ∃ i : Fin 22, (fsAdaptive.run H).1 = ⟨[((i : ℕ), 3)], 3⟩ ∧
    verifyLinearTag (oracleEnv fsEnv fsBytes H) (fsAdaptive.run H).1 (fsAdaptive.run H).2 = .ok true := by
  obtain ⟨i, hi⟩ : ∃ i, i = H ([], [], 0) := ⟨_, rfl⟩
  obtain ⟨st, hst⟩ : ∃ st, st = linStart fsEnv [] ⟨[((i : ℕ), 3)], 3⟩ := ⟨_, rfl⟩
  obtain ⟨o, ho⟩ : ∃ o, o = H (st ++ [.absorbed [67] [7], .drawn [70] 32, .absorbed [83] [0]], [120], 64) := ⟨_, rfl⟩
  obtain ⟨pf, hpf⟩ : ∃ pf : LinPf (ZMod 23) (ZMod 23), pf = ⟨[], 7, [], [], 0, (o : ℕ) + 1, 5 * ((o : ℕ) + 1)⟩ := ⟨_, rfl⟩
  have hrun : fsAdaptive.run H = (⟨[((i : ℕ), 3)], 3⟩, pf) := by
    rw [hpf, ho, hst, hi]; rfl
  refine ⟨i, by rw [hrun], ?_⟩
  rw [hrun]
  have htag : pf.tag = [] := by rw [hpf]
  have hp7 : fsEnv.pointBytes 7 = [7] := by decide +kernel
  have hp0 : fsEnv.pointBytes 0 = [0] := by decide +kernel
  have hl : log2roundUp 1 = 0 := by decide
  have hx : ∀ o : Fin 22, fsEnv.scalarReduce (fsBytes 64 o) ≠ 0 := by decide +kernel
  have hx' : ∀ o : Fin 22, fsEnv.scalarReduce (fsBytes 64 o) = (o : ℕ) + 1 := by decide +kernel
  have hd : (deriveLin (oracleEnv fsEnv fsBytes H) pf 1 st).xs = [] ∧
      (deriveLin (oracleEnv fsEnv fsBytes H) pf 1 st).x = fsEnv.scalarReduce (fsBytes 64 o) := by
    rw [hpf, ho]
    simp [deriveLin, foldChallenges, oracleEnv, hp7, hp0]
  obtain ⟨b, hb, hiff⟩ := (C11_linear_verifier (oracleEnv fsEnv fsBytes H) pf [3] [2] 1 3 st none (by norm_num)
    (by norm_num) rfl rfl (by simp) (by rw [hpf, hl]; rfl) (by rw [hpf, hl]; rfl)).2 (by
      rw [hd.1, hd.2]; simpa using hx o)
  have hbt : b = true := hiff.2 (by
    simp only [LinEq, hd.1, hd.2, hx', foldedSum]
    generalize (deriveLin (oracleEnv fsEnv fsBytes H) pf 1 st).Fg = g
    have hbase : (oracleEnv fsEnv fsBytes H).base = 1 := rfl
    simp [subsetProd, List.range_succ, mexp, hbase, hpf]
    ring)
  rw [verifyLinearTag, htag, mkFlatLin_verifier _ _ _ (by simp) (by simp)]
  have hs : (oracleEnv fsEnv fsBytes H).processLin ((oracleEnv fsEnv fsBytes H).newCtx []) lblConstraint ⟨[((i : ℕ), 3)], 3⟩ = st := by
    rw [hst]; rfl
  have hg : ([((i : ℕ), (3 : ZMod 23))].map fun e => (oracleEnv fsEnv fsBytes H).getG [] e.1) = [2] := rfl
  simp only [Res.ok_bind, hg]
  rw [hs]
  rw [hbt] at hb
  refine Res.bind_eq_ok.2 ⟨_, hb, rfl⟩

/-- All hypotheses of `C106_linear` are met by this program. -/
example : ∃ (tag : Bytes) (c : LinConstraint (ZMod 23)) (C F₁ F₂ : ZMod 23) (t₁ t₂ : LinTree (ZMod 23) (ZMod 23)), F₁ ≠ F₂ ∧
    t₁.OutputBy fsEnv fsBytes (linStart fsEnv tag c) (c.terms.map fun t => fsEnv.getG tag t.1) (c.terms.map (·.2)) c.equalsTo none
      (fun H pf => fsAdaptive.run H = (c, pf) ∧ pf.tag = tag) C F₁ [] [] [] ∧
    t₂.OutputBy fsEnv fsBytes (linStart fsEnv tag c) (c.terms.map fun t => fsEnv.getG tag t.1) (c.terms.map (·.2)) c.equalsTo none
      (fun H pf => fsAdaptive.run H = (c, pf) ∧ pf.tag = tag) C F₂ [] [] [] := by
  obtain ⟨D₀, h⟩ := C106_linear fsEnv fsEnv_points fsEnv_points fsBytes 1 1 fsEnv_values fsEnv_values 0 (by norm_num) fsAdaptive 2
    (fun H => le_rfl)
  obtain ⟨tag, c, C, F₁, F₂, t₁, t₂, e1, e2, e3, -⟩ := h D₀ le_rfl (fun _ => 0) (by
    refine lt_of_lt_of_le (b := Nat.card (D₀ → Fin 22) * 22) ?_ (le_of_eq ?_)
    · rw [Nat.mul_comm]
      exact Nat.mul_lt_mul_of_pos_left (by norm_num) (Nat.card_pos)
    · rw [Nat.card_fin, ← Set.ncard_univ]
      congr 2
      refine (Set.eq_univ_of_forall fun H => ?_).symm
      obtain ⟨i, h1, h2⟩ := fsAdaptive_accepted (onSet D₀ (fun _ => 0) H)
      refine ⟨_, _, (Prod.mk.eta).symm, ?_, ?_, h2⟩
      · rw [h1]; simp; omega
      · rw [h1]; simp)
  exact ⟨tag, c, C, F₁, F₂, t₁, t₂, e1, e2, e3⟩

/-- The same for `x_i·y_i = 3`; the proof does not depend on the challenge. -/
def fsQuadAdaptive : Program Query (Fin 22) (QuadConstraint (ZMod 23) × QuadPf (ZMod 23) (ZMod 23)) :=
  .ask ([], [], 0) fun i => .done (⟨[i], 3⟩, ⟨[], 13, [], [], 0, 0, 1, 3, 5⟩)

theorem fsQuadAdaptive_accepted (H : Query → Fin 22) : ∃ i : Fin 22, (fsQuadAdaptive.run H).1 = ⟨[(i : ℕ)], 3⟩ ∧
    verifyQuadraticTag (oracleEnv fsEnv fsBytes H) (fsQuadAdaptive.run H).1 (fsQuadAdaptive.run H).2 = .ok true := by
  obtain ⟨i, hi⟩ : ∃ i, i = H ([], [], 0) := ⟨_, rfl⟩
  obtain ⟨st, hst⟩ : ∃ st, st = quadStart fsEnv [] ⟨[(i : ℕ)], 3⟩ := ⟨_, rfl⟩
  obtain ⟨pf, hpf⟩ : ∃ pf : QuadPf (ZMod 23) (ZMod 23), pf = ⟨[], 13, [], [], 0, 0, 1, 3, 5⟩ := ⟨_, rfl⟩
  have hrun : fsQuadAdaptive.run H = (⟨[(i : ℕ)], 3⟩, pf) := by
    rw [hpf, hi]; rfl
  refine ⟨i, by rw [hrun], ?_⟩
  rw [hrun]
  have htag : pf.tag = [] := by rw [hpf]
  have hl : log2roundUp 1 = 0 := by decide
  have hd : (deriveQuad (oracleEnv fsEnv fsBytes H) pf 1 st).xs = [] := by
    rw [hpf]
    simp [deriveQuad, foldChallenges]
  obtain ⟨b, hb, hiff⟩ := (C11_quadratic_verifier (oracleEnv fsEnv fsBytes H) pf [2] [2] 1 3 st none none (by norm_num)
    (by norm_num) rfl rfl (by simp) (by simp) (by rw [hpf, hl]; rfl) (by rw [hpf, hl]; rfl)).2 (by rw [hd]; simp)
  have hbt : b = true := hiff.2 (by
    simp only [QuadEq, hd, foldedSum]
    generalize (deriveQuad (oracleEnv fsEnv fsBytes H) pf 1 st).Fg = g
    have hbase : (oracleEnv fsEnv fsBytes H).base = 1 := rfl
    have h13 : (13 : ZMod 23) = 5 + 2 + 3 * 2 := by decide
    simp [subsetProd, List.range_succ, mexp, hbase, hpf, h13])
  rw [verifyQuadraticTag, htag, mkFlatQuad_verifier _ _ _ (by simp) (by simp)]
  have hs : (oracleEnv fsEnv fsBytes H).processQuad ((oracleEnv fsEnv fsBytes H).newCtx []) lblConstraint ⟨[(i : ℕ)], 3⟩ = st := by
    rw [hst]; rfl
  have hg : [(i : ℕ)].map ((oracleEnv fsEnv fsBytes H).getG []) = [2] := rfl
  have hh : [(i : ℕ)].map ((oracleEnv fsEnv fsBytes H).getH []) = [2] := rfl
  simp only [Res.ok_bind, hg, hh]
  rw [hs]
  rw [hbt] at hb
  refine Res.bind_eq_ok.2 ⟨_, hb, rfl⟩

/-- All hypotheses of `C106_quadratic` are met by this program. -/
example : ∃ (tag : Bytes) (c : QuadConstraint (ZMod 23)) (C F₁ F₂ : ZMod 23) (t₁ t₂ : QuadTree (ZMod 23) (ZMod 23)), F₁ ≠ F₂ ∧
    t₁.OutputBy fsEnv fsBytes (quadStart fsEnv tag c) (c.indexes.map (fsEnv.getG tag)) (c.indexes.map (fsEnv.getH tag)) c.equalsTo
      none none (fun H pf => fsQuadAdaptive.run H = (c, pf) ∧ pf.tag = tag) C F₁ [] [] [] ∧
    t₂.OutputBy fsEnv fsBytes (quadStart fsEnv tag c) (c.indexes.map (fsEnv.getG tag)) (c.indexes.map (fsEnv.getH tag)) c.equalsTo
      none none (fun H pf => fsQuadAdaptive.run H = (c, pf) ∧ pf.tag = tag) C F₂ [] [] [] := by
  obtain ⟨D₀, h⟩ := C106_quadratic fsEnv fsEnv_points fsEnv_points fsBytes 1 1 fsEnv_values fsEnv_values 0 (by norm_num)
    fsQuadAdaptive 1 (fun H => le_rfl)
  obtain ⟨tag, c, k, -, C, F₁, F₂, t₁, t₂, e1, e2, e3, -⟩ := h D₀ le_rfl (fun _ => 0) (by
    refine lt_of_lt_of_le (b := Nat.card (D₀ → Fin 22) * 22) ?_ (le_of_eq ?_)
    · rw [Nat.mul_comm]
      exact Nat.mul_lt_mul_of_pos_left (by norm_num) (Nat.card_pos)
    · rw [Nat.card_fin, ← Set.ncard_univ]
      congr 2
      refine (Set.eq_univ_of_forall fun H => ?_).symm
      obtain ⟨i, h1, h2⟩ := fsQuadAdaptive_accepted (onSet D₀ (fun _ => 0) H)
      refine ⟨_, _, (Prod.mk.eta).symm, ?_, ⟨0, le_rfl, ?_⟩, h2⟩
      · rw [h1]; simp; omega
      · rw [h1]; simp)
  exact ⟨tag, c, C, F₁, F₂, t₁, t₂, e1, e2, e3⟩

end Verif.Props
