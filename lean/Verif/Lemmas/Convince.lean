/-
Counting for C104: a strategy that succeeds for many sequences of challenges succeeds on a whole tree of them.
-/
import Verif.Spec.Convince
import Mathlib.Data.Set.Card
import Mathlib.Data.Fintype.BigOperators
import Mathlib.Data.Fintype.Pi
import Mathlib.Data.Fin.Tuple.Basic
import Mathlib.Algebra.Order.BigOperators.Group.Finset
import Mathlib.Tactic.Ring
import Mathlib.Tactic.Linarith

namespace Verif
open Verif.Spec

section
variable {F Ω : Type} [Finite F] [Finite Ω]

/-- `m` more challenges and the last one: `d` choices at each place and `e` choices at the end succeed. -/
def HasTree (d e : ℕ) (P : List F → F → Prop) : ℕ → List F → Prop
  | 0, xs => ∃ x : Fin e → F, Function.Injective x ∧ ∀ i, P xs (x i)
  | m + 1, xs => ∃ x : Fin d → F, Function.Injective x ∧ ∀ i, HasTree d e P m (xs ++ [x i])

theorem few_coins (chal : Ω → F) (μ : ℕ) (hμ : ∀ c, {o | chal o = c}.ncard ≤ μ) (d : ℕ) (S : F → Prop)
    (h : ¬ ∃ x : Fin d → F, Function.Injective x ∧ ∀ i, S (x i)) : {o | S (chal o)}.ncard ≤ (d - 1) * μ := by
  classical
  have := Fintype.ofFinite F
  have := Fintype.ofFinite Ω
  have hS : (Finset.univ.filter S).card ≤ d - 1 := by
    by_contra hc
    apply h
    have hd : Fintype.card (Fin d) ≤ Fintype.card {c // S c} := by
      rw [Fintype.card_fin, Fintype.card_subtype]
      push Not at hc
      convert (by omega : d ≤ (Finset.univ.filter S).card)
    obtain ⟨f⟩ := Function.Embedding.nonempty_of_card_le hd
    exact ⟨fun i => (f i).1, fun i j hij => f.injective (Subtype.ext hij), fun i => (f i).2⟩
  have h1 := Finset.card_le_mul_card_image_of_maps_to (s := Finset.univ.filter fun o => S (chal o))
    (t := Finset.univ.filter S) (f := chal) (by intro o ho; simpa using ho) μ (by
      intro c _
      refine le_trans ?_ (hμ c)
      rw [Set.ncard_eq_toFinset_card']
      apply Finset.card_le_card
      intro o ho
      simp only [Finset.mem_filter, Set.mem_toFinset, Set.mem_setOf_eq] at ho ⊢
      exact ho.2)
  rw [Set.ncard_eq_toFinset_card', Set.toFinset_setOf]
  calc _ ≤ μ * _ := h1
    _ ≤ μ * (d - 1) := Nat.mul_le_mul_left _ hS
    _ = _ := Nat.mul_comm _ _

theorem count_le (chal : Ω → F) (μ : ℕ) (hμ : ∀ c, {o | chal o = c}.ncard ≤ μ) (d e : ℕ) (P : List F → F → Prop) :
    ∀ (m : ℕ) (xs : List F), ¬ HasTree d e P m xs →
      {w : (Fin m → Ω) × Ω | P (xs ++ challenges chal w.1) (chal w.2)}.ncard ≤
        ((d - 1) * m + (e - 1)) * μ * Nat.card Ω ^ m := by
  classical
  have := Fintype.ofFinite Ω
  intro m
  induction m with
  | zero =>
    intro xs h
    have h1 := few_coins chal μ hμ e (P xs) h
    have h2 := Set.ncard_le_ncard_of_injOn
      (s := {w : (Fin 0 → Ω) × Ω | P (xs ++ challenges chal w.1) (chal w.2)}) (t := {o | P xs (chal o)}) (fun w => w.2)
      (fun w hw => by
        have : P (xs ++ challenges chal w.1) (chal w.2) := hw
        simpa [challenges] using this)
      (by
        rintro ⟨a, o⟩ - ⟨b, o'⟩ - h
        exact Prod.ext (Subsingleton.elim _ _) h) (Set.toFinite _)
    simpa using h2.trans h1
  | succ m ih =>
    intro xs h
    have hgood := few_coins chal μ hμ d (fun c => HasTree d e P m (xs ++ [c])) h
    obtain ⟨N, hN⟩ : ∃ N, N = Nat.card Ω := ⟨_, rfl⟩
    obtain ⟨B, hB⟩ : ∃ B, B = ((d - 1) * m + (e - 1)) * μ * N ^ m := ⟨_, rfl⟩
    have hfib : ∀ o : Ω, ((Finset.univ.filter fun w : (Fin (m + 1) → Ω) × Ω =>
        P (xs ++ challenges chal w.1) (chal w.2)).filter fun w => w.1 0 = o).card ≤
          (if HasTree d e P m (xs ++ [chal o]) then N ^ (m + 1) else 0) + B := by
      intro o
      have hle : ((Finset.univ.filter fun w : (Fin (m + 1) → Ω) × Ω =>
          P (xs ++ challenges chal w.1) (chal w.2)).filter fun w => w.1 0 = o).card ≤
          (Finset.univ.filter fun w : (Fin m → Ω) × Ω => P (xs ++ [chal o] ++ challenges chal w.1) (chal w.2)).card := by
        apply Finset.card_le_card_of_injOn (fun w : (Fin (m + 1) → Ω) × Ω => ((Fin.tail w.1 : Fin m → Ω), w.2))
        · intro w hw
          simp only [Finset.coe_filter, Finset.mem_filter, Finset.mem_univ, true_and, Set.mem_setOf_eq] at hw ⊢
          obtain ⟨h1, h2⟩ := hw
          simpa [challenges, List.ofFn_succ, h2, Fin.tail] using h1
        · rintro ⟨a, o1⟩ ha ⟨b, o2⟩ hb hab
          simp only [Finset.coe_filter, Finset.mem_filter, Finset.mem_univ, true_and, Set.mem_setOf_eq] at ha hb
          simp only [Prod.mk.injEq] at hab
          refine Prod.ext ?_ hab.2
          rw [← Fin.cons_self_tail a, ← Fin.cons_self_tail b, ha.2, hb.2, hab.1]
      refine hle.trans ?_
      split
      · refine (Finset.card_filter_le _ _).trans ?_
        rw [Finset.card_univ, Fintype.card_prod, Fintype.card_fun, Fintype.card_fin, ← Nat.card_eq_fintype_card, ← hN,
          pow_succ]
        omega
      · rename_i hb
        have := ih (xs ++ [chal o]) hb
        rw [Set.ncard_eq_toFinset_card', Set.toFinset_setOf, ← hN, ← hB] at this
        omega
    rw [Set.ncard_eq_toFinset_card', Set.toFinset_setOf,
      Finset.card_eq_sum_card_fiberwise (f := fun w => w.1 0) (t := Finset.univ) (by intro w _; simp)]
    refine (Finset.sum_le_sum fun o _ => hfib o).trans ?_
    rw [Finset.sum_add_distrib, ← Finset.sum_filter, Finset.sum_const, Finset.sum_const, Finset.card_univ,
      ← Nat.card_eq_fintype_card, ← hN]
    rw [Set.ncard_eq_toFinset_card', Set.toFinset_setOf] at hgood
    simp only [smul_eq_mul]
    calc _ ≤ (d - 1) * μ * N ^ (m + 1) + N * B := Nat.add_le_add_right (Nat.mul_le_mul_right _ hgood) _
      _ = _ := by rw [hB]; ring

theorem count_first {W : Type} [Finite W] (Q : Ω → W → Prop) (good : Ω → Prop) (g B : ℕ) (hg : {o | good o}.ncard ≤ g)
    (hB : ∀ o, ¬ good o → {w | Q o w}.ncard ≤ B) :
    {z : Ω × W | Q z.1 z.2}.ncard ≤ g * Nat.card W + Nat.card Ω * B := by
  classical
  have := Fintype.ofFinite Ω
  have := Fintype.ofFinite W
  obtain ⟨N, hN⟩ : ∃ N, N = Nat.card W := ⟨_, rfl⟩
  have hfib : ∀ o : Ω, ((Finset.univ.filter fun z : Ω × W => Q z.1 z.2).filter fun z => z.1 = o).card ≤
      (if good o then N else 0) + B := by
    intro o
    have hle : ((Finset.univ.filter fun z : Ω × W => Q z.1 z.2).filter fun z => z.1 = o).card ≤
        (Finset.univ.filter fun w : W => Q o w).card := by
      apply Finset.card_le_card_of_injOn (fun z : Ω × W => z.2)
      · intro z hz
        simp only [Finset.coe_filter, Finset.mem_filter, Finset.mem_univ, true_and, Set.mem_setOf_eq] at hz ⊢
        rw [← hz.2]; exact hz.1
      · rintro ⟨a, w1⟩ ha ⟨b, w2⟩ hb hab
        simp only [Finset.coe_filter, Finset.mem_filter, Finset.mem_univ, true_and, Set.mem_setOf_eq] at ha hb
        exact Prod.ext (ha.2.trans hb.2.symm) hab
    refine hle.trans ?_
    split
    · refine (Finset.card_filter_le _ _).trans ?_
      rw [Finset.card_univ, ← Nat.card_eq_fintype_card, ← hN]
      omega
    · rename_i hb
      have := hB o hb
      rw [Set.ncard_eq_toFinset_card', Set.toFinset_setOf] at this
      rw [Nat.zero_add]
      convert this
  rw [Set.ncard_eq_toFinset_card', Set.toFinset_setOf,
    Finset.card_eq_sum_card_fiberwise (f := fun z => z.1) (t := Finset.univ) (by intro w _; simp)]
  refine (Finset.sum_le_sum fun o _ => hfib o).trans ?_
  rw [Finset.sum_add_distrib, ← Finset.sum_filter, Finset.sum_const, Finset.sum_const, Finset.card_univ,
    ← Nat.card_eq_fintype_card, ← hN]
  rw [Set.ncard_eq_toFinset_card', Set.toFinset_setOf] at hg
  simp only [smul_eq_mul]
  exact Nat.add_le_add_right (Nat.mul_le_mul_right _ hg) _

end

/-! ### From trees of challenges to trees of conversations -/

section
variable {F G : Type} [Field F] [AddCommGroup G] [Module F G]

theorem range_take_snoc {α β : Type} (f : List α → β) (xs : List α) (x : α) :
    (List.range (xs ++ [x]).length).map (fun i => f ((xs ++ [x]).take i)) =
      (List.range xs.length).map (fun i => f (xs.take i)) ++ [f xs] := by
  rw [List.length_append, List.length_singleton, List.range_succ, List.map_append, List.map_singleton]
  congr 1
  · apply List.map_congr_left
    intro i hi
    rw [List.take_append_of_le_length (List.mem_range.1 hi).le]
  · simp

theorem LinProver.Ls_snoc (p : LinProver F G) (xs : List F) (x : F) : p.Ls (xs ++ [x]) = p.Ls xs ++ [(p.fold xs).1] :=
  range_take_snoc (fun l => (p.fold l).1) xs x
theorem LinProver.Rs_snoc (p : LinProver F G) (xs : List F) (x : F) : p.Rs (xs ++ [x]) = p.Rs xs ++ [(p.fold xs).2] :=
  range_take_snoc (fun l => (p.fold l).2) xs x
theorem QuadProver.Ls_snoc (p : QuadProver F G) (xs : List F) (x : F) : p.Ls (xs ++ [x]) = p.Ls xs ++ [(p.fold xs).1] :=
  range_take_snoc (fun l => (p.fold l).1) xs x
theorem QuadProver.Rs_snoc (p : QuadProver F G) (xs : List F) (x : F) : p.Rs (xs ++ [x]) = p.Rs xs ++ [(p.fold xs).2] :=
  range_take_snoc (fun l => (p.fold l).2) xs x

variable [DecidableEq F] [DecidableEq G]

theorem linTree_of (base : G) (gs : List G) (bs : List F) (eq : F) (off : Option (List F)) (C Fg : G) (p : LinProver F G) :
    ∀ (m : ℕ) (xs : List F), HasTree 3 2 (p.Convinces base gs bs eq off C Fg) m xs →
      ∃ t : LinTree F G, t.PlayedBy p xs ∧ t.Accepted base gs bs eq off C Fg (p.Ls xs) (p.Rs xs) xs := by
  intro m
  induction m with
  | zero =>
    rintro xs ⟨x, hx, h⟩
    exact ⟨.leaf (p.last xs) (x 0) (p.answer xs (x 0)).1 (p.answer xs (x 0)).2 (x 1) (p.answer xs (x 1)).1
      (p.answer xs (x 1)).2, ⟨rfl, rfl, rfl⟩, hx.ne (by decide), h 0, h 1⟩
  | succ m ih =>
    rintro xs ⟨x, hx, h⟩
    have ht := fun i => ih _ (h i)
    choose t t1 t2 using ht
    simp only [LinProver.Ls_snoc, LinProver.Rs_snoc] at t2
    exact ⟨.node (p.fold xs).1 (p.fold xs).2 (x 0) (x 1) (x 2) (t 0) (t 1) (t 2), ⟨rfl, t1 0, t1 1, t1 2⟩,
      hx.ne (by decide), hx.ne (by decide), hx.ne (by decide), t2 0, t2 1, t2 2⟩

theorem quadTree_of (base : G) (gs hs : List G) (eq : F) (uoff voff : Option (List F)) (C Fg : G) (p : QuadProver F G) :
    ∀ (m : ℕ) (xs : List F), HasTree 4 5 (p.Convinces base gs hs eq uoff voff C Fg) m xs →
      ∃ t : QuadTree F G, t.PlayedBy p xs ∧ t.Accepted base gs hs eq uoff voff C Fg (p.Ls xs) (p.Rs xs) xs := by
  intro m
  induction m with
  | zero =>
    rintro xs ⟨x, hx, h⟩
    exact ⟨.leaf (p.last xs).1 (p.last xs).2 x (fun i => (p.answer xs (x i)).1) (fun i => (p.answer xs (x i)).2.1)
      (fun i => (p.answer xs (x i)).2.2), ⟨rfl, fun i => rfl⟩, hx, h⟩
  | succ m ih =>
    rintro xs ⟨x, hx, h⟩
    have ht := fun i => ih _ (h i)
    choose t t1 t2 using ht
    simp only [QuadProver.Ls_snoc, QuadProver.Rs_snoc] at t2
    exact ⟨.node (p.fold xs).1 (p.fold xs).2 x t, ⟨rfl, t1⟩, hx, t2⟩

end
end Verif
