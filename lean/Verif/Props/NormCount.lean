/-
C92: how many challenges of the aggregation let wrong values pass.
-/
import Verif.Props.Norm
import Verif.Props.Round
import Verif.Props.Main
import Verif.Model.Library
import Verif.Lemmas.Scalar
import Verif.Spec.Enforced
import Mathlib.Data.Set.Card
import Mathlib.Data.Fintype.Prod

namespace Verif.Props
open Verif Verif.Spec

section
variable {F : Type} [Field F] [DecidableEq F] [Fintype F]

/-- Counting pairs: if few `a` have more than `k` partners there are few pairs. -/
theorem count_split {A B : Type} [Fintype A] [Fintype B] (p : A → B → Prop) (m k : ℕ)
    (h : {a | k < {b | p a b}.ncard}.ncard ≤ m) :
    {c : A × B | p c.1 c.2}.ncard ≤ m * Fintype.card B + Fintype.card A * k := by
  classical
  rw [Set.ncard_eq_toFinset_card', Set.toFinset_setOf] at h
  simp only [Set.ncard_eq_toFinset_card', Set.toFinset_setOf] at h
  rw [Set.ncard_eq_toFinset_card', Set.toFinset_setOf, Finset.card_filter, Fintype.sum_prod_type]
  have h1 : ∀ a, (∑ b, if p a b then 1 else 0) ≤
      (if k < (Finset.univ.filter fun b => p a b).card then Fintype.card B else 0) + k := by
    intro a
    rw [← Finset.card_filter]
    split
    · exact le_trans (Finset.card_le_univ _) (Nat.le_add_right _ _)
    · omega
  refine le_trans (Finset.sum_le_sum fun a _ => h1 a) ?_
  rw [Finset.sum_add_distrib, ← Finset.sum_filter, Finset.sum_const, Finset.sum_const, Finset.card_univ, smul_eq_mul,
    smul_eq_mul]
  exact Nat.add_le_add_right (Nat.mul_le_mul_right _ h) _

/-- **C92, wrong values.** Of the `q³·(q-1)` possible challenges of the aggregation, at most `(n+2617)·q³` let values
pass that are not what the constraints ask for, where `n` is the number of linear constraints. -/
theorem C92_wrong (lin : List (LinConstraint F)) (norm : List (QuadConstraint F)) (hne : lin ≠ [])
    (hs : ∀ c ∈ lin, Sorted c.terms) (w : ℕ) (hk : ∀ c ∈ lin, ∀ k ∈ keys c.terms, k < w)
    (hw : 260 * 10 ≤ w) (hn : norm.length = 10) (hI : NormBlocks norm 260) (x y : ℕ → F)
    (hbad : ¬ Enforced lin norm x y) :
    {c : F × F × F × F | c.2.1 ≠ 0 ∧
      finalDefect lin norm x y (linOnly lin w x c.1) c.1 c.2.1 c.2.2.1 c.2.2.2 = 0}.ncard
        ≤ (lin.length + 2617) * Fintype.card F ^ 3 := by
  have hl : 0 < lin.length := List.length_pos_iff.2 hne
  generalize hq : Fintype.card F = q
  have key := count_split (A := F) (B := F × F × F)
    (fun r1 b => b.1 ≠ 0 ∧ finalDefect lin norm x y (linOnly lin w x r1) r1 b.1 b.2.1 b.2.2 = 0)
    (lin.length - 1) (2618 * q ^ 2) ?_
  · simp only [Fintype.card_prod, hq] at key
    refine le_trans key (le_of_eq ?_)
    obtain ⟨n, hn⟩ : ∃ n, lin.length = n + 1 := ⟨lin.length - 1, by omega⟩
    rw [hn, Nat.add_sub_cancel]
    ring
  by_contra hcon
  rw [not_le] at hcon
  apply hbad
  obtain ⟨Q, hQ⟩ : ∃ Q : Set F, Q = {a | 2618 * q ^ 2 < {b : F × F × F |
      b.1 ≠ 0 ∧ finalDefect lin norm x y (linOnly lin w x a) a b.1 b.2.1 b.2.2 = 0}.ncard} := ⟨_, rfl⟩
  obtain ⟨R, hR⟩ : ∃ R : F → Set F, R = fun r1 => {r2 | 2600 * q < {b : F × F |
        r2 ≠ 0 ∧ finalDefect lin norm x y (linOnly lin w x r1) r1 r2 b.1 b.2 = 0}.ncard} := ⟨_, rfl⟩
  obtain ⟨S, hS⟩ : ∃ S : F → F → Set F, S = fun r1 r2 => {u | 1 < {rho : F |
        r2 ≠ 0 ∧ finalDefect lin norm x y (linOnly lin w x r1) r1 r2 u rho = 0}.ncard} := ⟨_, rfl⟩
  obtain ⟨T, hT⟩ : ∃ T : F → F → F → Set F, T = fun r1 r2 u => {rho : F |
        r2 ≠ 0 ∧ finalDefect lin norm x y (linOnly lin w x r1) r1 r2 u rho = 0} := ⟨_, rfl⟩
  have cQ : lin.length ≤ Q.ncard := by rw [hQ]; omega
  have cR : ∀ r1 ∈ Q, 19 ≤ (R r1).ncard := by
    intro r1 h1
    rw [hQ] at h1
    have h1 : 2618 * q ^ 2 < _ := h1
    by_contra hc
    have k2 := count_split (A := F) (B := F × F)
      (fun r2 b => r2 ≠ 0 ∧ finalDefect lin norm x y (linOnly lin w x r1) r1 r2 b.1 b.2 = 0) 18 (2600 * q)
      (by rw [hR] at hc; exact Nat.lt_succ_iff.1 (not_le.1 hc))
    simp only [Fintype.card_prod, hq] at k2
    have e : 18 * (q * q) + q * (2600 * q) = 2618 * q ^ 2 := by ring
    rw [e] at k2
    exact absurd k2 (not_le.2 h1)
  have cS : ∀ r1 r2 : F, r2 ∈ R r1 → 260 * 10 ≤ (S r1 r2).ncard := by
    intro r1 r2 h2
    rw [hR] at h2
    have h2 : 2600 * q < _ := h2
    by_contra hc
    have k3 := count_split (A := F) (B := F)
      (fun u rho => r2 ≠ 0 ∧ finalDefect lin norm x y (linOnly lin w x r1) r1 r2 u rho = 0) 2599 1
      (by rw [hS] at hc; exact Nat.lt_succ_iff.1 (not_le.1 hc))
    rw [hq, show 2599 * q + q * 1 = 2600 * q by ring] at k3
    exact absurd k3 (not_le.2 h2)
  have fin : ∀ A : Set F, (Set.toFinite A).toFinset.card = A.ncard := fun A =>
    (Set.ncard_eq_toFinset_card A (Set.toFinite A)).symm
  have mem : ∀ (A : Set F) a, a ∈ (Set.toFinite A).toFinset → a ∈ A := fun A a h => (Set.Finite.mem_toFinset _).1 h
  obtain ⟨a, b, c, d⟩ := C63_enforced lin norm hs w hk hw hn hI x y (linOnly lin w x) (fun _ => rfl)
    (Set.toFinite Q).toFinset (fun r1 => (Set.toFinite (R r1)).toFinset)
    (fun r1 r2 => (Set.toFinite (S r1 r2)).toFinset) (fun r1 r2 u => (Set.toFinite (T r1 r2 u)).toFinset)
    (by rw [fin]; omega) (by rw [fin]; omega)
    (fun r1 h1 => by rw [fin]; exact cR r1 (mem _ _ h1))
    (by
      intro r1 _ h0
      have h0 := mem _ _ h0
      rw [hR] at h0
      have h0 : 2600 * q < {b : F × F | (0 : F) ≠ 0 ∧ _}.ncard := h0
      simp at h0)
    (fun r1 _ r2 h2 => by rw [fin]; exact cS r1 r2 (mem _ _ h2))
    (fun r1 _ r2 _ u h3 => by
      rw [fin]
      have h3 := mem _ _ h3
      rw [hS] at h3
      rw [hT]
      exact h3)
    (fun r1 _ r2 _ u _ rho h4 => by
      have h4 := mem _ _ h4
      rw [hT] at h4
      exact h4.2)
  exact ⟨a, b, c, d⟩

/-- **C92, right values.** Values that are what the constraints ask for always pass. -/
theorem C92_right (lin : List (LinConstraint F)) (norm : List (QuadConstraint F))
    (hs : ∀ c ∈ lin, Sorted c.terms) (w : ℕ) (hk : ∀ c ∈ lin, ∀ k ∈ keys c.terms, k < w)
    (hw : 260 * 10 ≤ w) (hn : norm.length = 10) (hI : NormBlocks norm 260) (x y : ℕ → F)
    (h : Enforced lin norm x y) (r1 r2 u rho : F) : finalDefect lin norm x y (linOnly lin w x r1) r1 r2 u rho = 0 :=
  C63_enforced_conv lin norm hs w hk hw hn hI x y h.agree h.linear h.norms h.first r1 r2 u rho

/-- The challenges for which the final statement does not decide whether the values are right. -/
def Misleading (lin : List (LinConstraint F)) (norm : List (QuadConstraint F)) (w : ℕ) (x y : ℕ → F) :
    Set (F × F × F × F) :=
  {c | c.2.1 = 0 ∨ aggCoef lin c.1 (w - 1) = 0 ∨
    (¬ Enforced lin norm x y ∧ c.2.1 ≠ 0 ∧
      finalDefect lin norm x y (linOnly lin w x c.1) c.1 c.2.1 c.2.2.1 c.2.2.2 = 0)}

theorem misleading_card (lin : List (LinConstraint F)) (norm : List (QuadConstraint F))
    (hs : ∀ c ∈ lin, Sorted c.terms) (w : ℕ) (hk : ∀ c ∈ lin, ∀ k ∈ keys c.terms, k < w)
    (hw : 260 * 10 ≤ w) (hn : norm.length = 10) (hI : NormBlocks norm 260) (x y : ℕ → F)
    (hlast : ∃ c ∈ lin, coef c.terms (w - 1) ≠ 0) :
    (Misleading lin norm w x y).ncard ≤ (2 * lin.length + 2617) * Fintype.card F ^ 3 := by
  have hl : 0 < lin.length := by obtain ⟨c, hc, -⟩ := hlast; exact List.length_pos_of_mem hc
  have hne : lin ≠ [] := List.length_pos_iff.1 hl
  have e : Misleading lin norm w x y ⊆ {c | c.2.1 = 0} ∪ ({c | aggCoef lin c.1 (w - 1) = 0} ∪
      {c | ¬ Enforced lin norm x y ∧ c.2.1 ≠ 0 ∧
        finalDefect lin norm x y (linOnly lin w x c.1) c.1 c.2.1 c.2.2.1 c.2.2.2 = 0}) := by
    rintro c (h | h | h)
    · exact Or.inl h
    · exact Or.inr (Or.inl h)
    · exact Or.inr (Or.inr h)
  have c1 : {c : F × F × F × F | c.2.1 = 0}.ncard ≤ Fintype.card F ^ 3 := by
    have h := Set.ncard_le_ncard_of_injOn (s := {c : F × F × F × F | c.2.1 = 0}) (t := (Set.univ : Set (F × F × F)))
      (fun c => (c.1, c.2.2.1, c.2.2.2)) (fun _ _ => Set.mem_univ _) (by
        rintro ⟨a, b, c, d⟩ h ⟨a', b', c', d'⟩ h' he
        obtain rfl : b = 0 := h
        obtain rfl : b' = 0 := h'
        simp only [Prod.mk.injEq] at he
        obtain ⟨rfl, rfl, rfl⟩ := he
        rfl) (Set.toFinite _)
    rw [Set.ncard_univ, Nat.card_eq_fintype_card, Fintype.card_prod, Fintype.card_prod] at h
    refine h.trans (le_of_eq (by ring))
  have c2 : {c : F × F × F × F | aggCoef lin c.1 (w - 1) = 0}.ncard ≤ (lin.length - 1) * Fintype.card F ^ 3 := by
    have h := count_split (A := F) (B := F × F × F) (fun a _ => aggCoef lin a (w - 1) = 0) (lin.length - 1) 0 (by
      refine le_trans (Set.ncard_le_ncard ?_ (Set.toFinite _)) (aggCoef_roots lin (w - 1) hlast).2
      intro a ha
      by_contra hc
      have ha : 0 < {b : F × F × F | aggCoef lin a (w - 1) = 0}.ncard := ha
      rw [show {b : F × F × F | aggCoef lin a (w - 1) = 0} = ∅ from
        Set.eq_empty_of_forall_notMem fun b hb => hc hb, Set.ncard_empty] at ha
      exact lt_irrefl _ ha)
    simp only [Fintype.card_prod] at h
    refine h.trans (le_of_eq (by ring))
  have c3 : {c : F × F × F × F | ¬ Enforced lin norm x y ∧ c.2.1 ≠ 0 ∧
      finalDefect lin norm x y (linOnly lin w x c.1) c.1 c.2.1 c.2.2.1 c.2.2.2 = 0}.ncard
        ≤ (lin.length + 2617) * Fintype.card F ^ 3 := by
    by_cases hE : Enforced lin norm x y
    · refine le_trans (le_of_eq ((Set.ncard_eq_zero (Set.toFinite _)).2 ?_)) (Nat.zero_le _)
      exact Set.eq_empty_of_forall_notMem fun c hc => hc.1 hE
    · refine le_trans (Set.ncard_le_ncard ?_ (Set.toFinite _)) (C92_wrong lin norm hne hs w hk hw hn hI x y hE)
      exact fun c hc => hc.2
  refine le_trans (Set.ncard_le_ncard e (Set.toFinite _)) (le_trans (Set.ncard_union_le _ _)
    (le_trans (Nat.add_le_add c1 (le_trans (Set.ncard_union_le _ _) (Nat.add_le_add c2 c3))) (le_of_eq ?_)))
  obtain ⟨n, hn⟩ : ∃ n, lin.length = n + 1 := ⟨lin.length - 1, by omega⟩
  rw [hn, Nat.add_sub_cancel]
  ring

end

/-! ### The bytes of the challenges -/

/-- A challenge, as the library makes it from 64 bytes. -/
def scalarOf (b : Fin 64 → Fin 256) : ZMod Regev.P := (Sc.leVal (bufBytes b) : ZMod Regev.P)

theorem bufBytes_inj {N : ℕ} {a b : Fin N → Fin 256} (h : Sc.leVal (bufBytes a) = Sc.leVal (bufBytes b)) : a = b := by
  have h := Sc.leVal_inj _ _ (by simp [bufBytes]) h
  unfold bufBytes at h
  have h := List.ofFn_injective h
  funext k
  exact congrArg UInt8.toFin (congrFun h k)

/-- Four challenges come from few byte strings. -/
theorem aggBytes_card (S : Set (ZMod Regev.P × ZMod Regev.P × ZMod Regev.P × ZMod Regev.P)) :
    {b : AggBytes | (scalarOf b.1, scalarOf b.2.1, scalarOf b.2.2.1, scalarOf b.2.2.2) ∈ S}.ncard ≤
      S.ncard * (256 ^ 64 / Regev.P + 1) ^ 4 := by
  have hlt : ∀ b : Fin 64 → Fin 256, Sc.leVal (bufBytes b) / Regev.P < 256 ^ 64 / Regev.P + 1 := by
    intro b
    have h := Sc.leVal_lt (bufBytes b)
    rw [show (bufBytes b).length = 64 by simp [bufBytes]] at h
    exact Nat.lt_succ_of_le (Nat.div_le_div_right h.le)
  have hinj : ∀ a b : Fin 64 → Fin 256, scalarOf a = scalarOf b →
      Sc.leVal (bufBytes a) / Regev.P = Sc.leVal (bufBytes b) / Regev.P → a = b := by
    intro a b h1 h2
    apply bufBytes_inj
    unfold scalarOf at h1
    rw [ZMod.natCast_eq_natCast_iff'] at h1
    rw [← Nat.div_add_mod (Sc.leVal (bufBytes a)) Regev.P, h1, h2, Nat.div_add_mod]
  obtain ⟨M, hM⟩ : ∃ M, M = 256 ^ 64 / Regev.P + 1 := ⟨_, rfl⟩
  rw [← hM] at hlt ⊢
  have hle := Set.ncard_le_ncard_of_injOn
    (s := {b : AggBytes | (scalarOf b.1, scalarOf b.2.1, scalarOf b.2.2.1, scalarOf b.2.2.2) ∈ S})
    (t := S ×ˢ (Set.univ : Set (Fin M × Fin M × Fin M × Fin M)))
    (fun b => ((scalarOf b.1, scalarOf b.2.1, scalarOf b.2.2.1, scalarOf b.2.2.2),
      (⟨_, hlt b.1⟩, ⟨_, hlt b.2.1⟩, ⟨_, hlt b.2.2.1⟩, ⟨_, hlt b.2.2.2⟩)))
    (fun b hb => ⟨hb, Set.mem_univ _⟩) (by
      rintro ⟨a1, a2, a3, a4⟩ - ⟨b1, b2, b3, b4⟩ - h
      simp only [Prod.mk.injEq, Fin.mk.injEq] at h
      obtain ⟨⟨e1, e2, e3, e4⟩, f1, f2, f3, f4⟩ := h
      rw [hinj _ _ e1 f1, hinj _ _ e2 f2, hinj _ _ e3 f3, hinj _ _ e4 f4]) (Set.toFinite _)
  rw [Set.ncard_prod, Set.ncard_univ, Nat.card_prod, Nat.card_prod, Nat.card_prod, Nat.card_fin] at hle
  refine hle.trans (le_of_eq (by ring))

section
variable {G : Type} [AddCommGroup G] [Module (ZMod Regev.P) G]

/-- **C92.** Whatever values are committed to, at most a fraction of `(2n+2617)/2^252` of the bytes from which the
four challenges of the aggregation are made are misleading: for all others the aggregation succeeds and its quadratic
statement holds, for the value of the extra variable that the linear proof enforces (see C87), exactly if the committed
values are what the constraints ask for. -/
theorem C92_statement (E : Env (ZMod Regev.P) G) (hE : ∀ b, E.scalarReduce b = (Sc.leVal b : ZMod Regev.P))
    (tie : List (CompIter (ZMod Regev.P)) → ℕ) (v : ReadyToVerify (ZMod Regev.P) G)
    (vd : VerifierData (ZMod Regev.P) G E.St) (wCom : AggBytes → G)
    (hs : ∀ c ∈ vd.linConstr, Sorted c.terms) (hk : ∀ c ∈ vd.linConstr, ∀ k ∈ keys c.terms, k < vd.ix.w)
    (hlast : ∃ c ∈ vd.linConstr, coef c.terms (vd.ix.w - 1) ≠ 0)
    (hn : vd.normConstr.length = 10) (hI : NormBlocks vd.normConstr 260) (hw : 260 * 10 < vd.ix.w)
    (hw2 : vd.ix.w < 2 ^ 31) (x y : ℕ → ZMod Regev.P) :
    {b : AggBytes | ¬ ∃ v2 st, publicStatement (answeringAgg E b) tie v vd (wCom b) = .ok (v2, st) ∧
      (QuadSat v2.quadCnstr
          (fun i => (if i = vd.ix.w then linOnly vd.linConstr vd.ix.w x (scalarOf b.1)
            else x i * scalarOf b.2.1 ^ (i / 260)) - coef v2.deltaG i)
          (fun i => (if i = vd.ix.w then 0 else y i * scalarOf b.2.1 ^ (i / 260)) - coef v2.deltaH i)
        ↔ Enforced vd.linConstr vd.normConstr x y)}.ncard * 2 ^ 252
      ≤ (2 * vd.linConstr.length + 2617) * 256 ^ 256 := by
  have h1 := aggBytes_card (Misleading vd.linConstr vd.normConstr vd.ix.w x y)
  have h2 := misleading_card vd.linConstr vd.normConstr hs vd.ix.w hk hw.le hn hI x y hlast
  rw [ZMod.card] at h2
  have h3 : Regev.P ^ 3 * (256 ^ 64 / Regev.P + 1) ^ 4 * 2 ^ 252 ≤ 256 ^ 256 := by decide +kernel
  have hsub : {b : AggBytes | ¬ ∃ v2 st, publicStatement (answeringAgg E b) tie v vd (wCom b) = .ok (v2, st) ∧
      (QuadSat v2.quadCnstr
          (fun i => (if i = vd.ix.w then linOnly vd.linConstr vd.ix.w x (scalarOf b.1)
            else x i * scalarOf b.2.1 ^ (i / 260)) - coef v2.deltaG i)
          (fun i => (if i = vd.ix.w then 0 else y i * scalarOf b.2.1 ^ (i / 260)) - coef v2.deltaH i)
        ↔ Enforced vd.linConstr vd.normConstr x y)} ⊆
      {b : AggBytes | (scalarOf b.1, scalarOf b.2.1, scalarOf b.2.2.1, scalarOf b.2.2.2) ∈
        Misleading vd.linConstr vd.normConstr vd.ix.w x y} := by
    intro b hb
    by_contra hc
    apply hb
    have hc : ¬ (_ ∨ _ ∨ _) := hc
    rw [not_or, not_or] at hc
    obtain ⟨g1, g2, g3⟩ := hc
    have ch : ∀ (st : E.St), (answeringAgg E b).newChallenge st (str "aggregateLinear")
          = (scalarOf b.1, (E.newChallenge st (str "aggregateLinear")).2) ∧
        (answeringAgg E b).newChallenge st (str "aggregateNorms")
          = (scalarOf b.2.1, (E.newChallenge st (str "aggregateNorms")).2) ∧
        (answeringAgg E b).newChallenge st (str "enforceNorm")
          = (scalarOf b.2.2.1, (E.newChallenge st (str "enforceNorm")).2) ∧
        (answeringAgg E b).newChallenge st (str "separareLinQuad")
          = (scalarOf b.2.2.2, (E.newChallenge st (str "separareLinQuad")).2) := by
      intro st
      have n1 : str "aggregateLinear" ≠ str "aggregateNorms" := by decide
      have n2 : str "aggregateLinear" ≠ str "enforceNorm" := by decide
      have n3 : str "aggregateLinear" ≠ str "separareLinQuad" := by decide
      have n4 : str "aggregateNorms" ≠ str "enforceNorm" := by decide
      have n5 : str "aggregateNorms" ≠ str "separareLinQuad" := by decide
      have n6 : str "enforceNorm" ≠ str "separareLinQuad" := by decide
      refine ⟨?_, ?_, ?_, ?_⟩ <;>
        simp only [answeringAgg, answering, Env.newChallenge, n1, n2, n3, n4, n5, n6, n1.symm, n2.symm,
          n3.symm, n4.symm, n5.symm, n6.symm, false_and, if_false, true_and, and_self,
          if_true, scalarOf, hE]
    have hne : vd.linConstr ≠ [] := by obtain ⟨c, hc, -⟩ := hlast; exact List.ne_nil_of_mem hc
    obtain ⟨v2, p1, p2⟩ := C63_final_equation (answeringAgg E b) tie v vd (wCom b) _ _ _ _ _ _ _ _ (ch _).1 (ch _).2.1
      (ch _).2.2.1 (ch _).2.2.2 g1 hne hs hk g2 hn hI hw hw2
    refine ⟨v2, _, p1, (p2 x y _).trans ⟨fun hd => ?_, fun hd => ?_⟩⟩
    · by_contra hbad
      exact g3 ⟨hbad, g1, hd⟩
    · exact C92_right _ _ hs _ hk hw.le hn hI x y hd _ _ _ _
  calc _ ≤ ((2 * vd.linConstr.length + 2617) * Regev.P ^ 3 * (256 ^ 64 / Regev.P + 1) ^ 4) * 2 ^ 252 :=
        Nat.mul_le_mul_right _ ((Set.ncard_le_ncard hsub (Set.toFinite _)).trans (h1.trans (Nat.mul_le_mul_right _ h2)))
    _ = (2 * vd.linConstr.length + 2617) * (Regev.P ^ 3 * (256 ^ 64 / Regev.P + 1) ^ 4 * 2 ^ 252) := by ring
    _ ≤ _ := Nat.mul_le_mul_left _ h3

/-- The hypotheses can be met in the library's own transcript, by values that are wrong and by values that are right:
variable 7 is 7 or 8, the constraint says it is 7. -/
example (c : Curve G) (vd0 : VerifierData (ZMod Regev.P) G (libEnv c).St) :
    ∃ (vd : VerifierData (ZMod Regev.P) G (libEnv c).St) (x y : ℕ → ZMod Regev.P),
      (∀ b, (libEnv c).scalarReduce b = (Sc.leVal b : ZMod Regev.P)) ∧
      (∀ c ∈ vd.linConstr, Sorted c.terms) ∧ (∀ c ∈ vd.linConstr, ∀ k ∈ keys c.terms, k < vd.ix.w) ∧
      (∃ c ∈ vd.linConstr, coef c.terms (vd.ix.w - 1) ≠ 0) ∧ vd.normConstr.length = 10 ∧
      NormBlocks vd.normConstr 260 ∧ 260 * 10 < vd.ix.w ∧ vd.ix.w < 2 ^ 31 ∧
      Enforced vd.linConstr vd.normConstr x x ∧ ¬ Enforced vd.linConstr vd.normConstr y y := by
  obtain ⟨N, hN⟩ : ∃ N, N = 260 * 10 := ⟨_, rfl⟩
  obtain ⟨x, hx⟩ : ∃ x : ℕ → ZMod Regev.P, x = fun i => if i < N then (i : ZMod Regev.P) else 0 := ⟨_, rfl⟩
  obtain ⟨y, hy⟩ : ∃ y : ℕ → ZMod Regev.P, y = fun i => if i = 7 then 8 else 0 := ⟨_, rfl⟩
  have h7 : x 7 = 7 := by rw [hx]; simp only; rw [if_pos (by omega)]; norm_num
  have hxN : x N = 0 := by rw [hx]; simp
  have hl : Sorted ([(7, 1), (N, 1)] : PtxtVec (ZMod Regev.P)) := by
    simp only [Sorted, List.pairwise_cons, List.mem_singleton, forall_eq, List.not_mem_nil,
      List.Pairwise.nil, and_true, false_imp_iff, implies_true]
    omega
  refine ⟨{ vd0 with
      ix := { vd0.ix with w := N + 1 }
      linConstr := [⟨[(7, 1), (N, 1)], 7⟩]
      normConstr := (List.range 10).map fun k => ⟨List.range' (260 * k) 260,
        ((List.range' (260 * k) 260).map fun i => x i * x i).sum⟩ }, x, y, fun _ => rfl, ?_, ?_, ?_, ?_, ?_, ?_, ?_, ?_, ?_⟩
  · intro c hc
    obtain rfl := List.mem_singleton.1 hc
    exact hl
  · intro c hc k hk
    obtain rfl := List.mem_singleton.1 hc
    simp only [keys, List.map_cons, List.map_nil, List.mem_cons, List.not_mem_nil, or_false] at hk
    show k < N + 1
    omega
  · refine ⟨_, List.mem_singleton.2 rfl, ?_⟩
    have h7N : (7 : ℕ) ≠ N := by omega
    simp [coef, h7N]
  · simp
  · intro k hk
    simp
  · show 260 * 10 < N + 1
    omega
  · show N + 1 < 2 ^ 31
    omega
  · refine ⟨fun _ _ _ => rfl, ?_, ?_, ?_⟩
    · intro c hc _
      obtain rfl := List.mem_singleton.1 hc
      have e : (fun i => if i < 260 * 10 then x i else x i) = x := by funext i; split_ifs <;> rfl
      rw [e]
      simp only [LinSat, List.map_cons, List.map_nil, List.sum_cons, List.sum_nil, h7, hxN]
      ring
    · intro k hk _
      unfold QuadSat
      simp
    · have h0 : (List.range' (260 * 0) 260) = 0 :: List.range' 1 259 := List.range'_succ ..
      simp only [List.range_succ_eq_map, List.map_cons, List.getD_cons_zero]
      rw [h0]
      simp only [List.map_cons, List.sum_cons]
      ring
  · intro h
    have h := h.linear _ (List.mem_singleton.2 rfl) (by simp)
    have hN7 : N ≠ 7 := by omega
    simp only [LinSat, List.map_cons, List.map_nil, List.sum_cons, List.sum_nil, hy, if_true, ite_self, if_neg hN7] at h
    revert h
    norm_num
    decide

end
end Verif.Props
