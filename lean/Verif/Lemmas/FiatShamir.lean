/-
Counting for C105: a program that evaluates a random function `T` times rarely meets one of a few bad values; and a program that
outputs accepted proofs but no tree of them must meet a bad value.
-/
import Verif.Spec.FiatShamir
import Verif.Lemmas.Convince
import Mathlib.Data.Set.Finite.Lattice
import Mathlib.Data.List.Basic

namespace Verif
open Verif.Spec

section game
variable {Q Ω α β : Type}

theorem Spec.Program.asked_same (H H' : Q → Ω) (q : Q) (hH : ∀ q', q' ≠ q → H q' = H' q') (p : Program Q Ω α) :
    ∀ t, (p.asked H)[t]? = some q → q ∉ (p.asked H).take t →
      (p.asked H')[t]? = some q := by
  induction p with
  | done a => intro t h; simp [Program.asked] at h
  | ask q0 next ih =>
    intro t h1 h2
    cases t with
    | zero => simpa [Program.asked] using h1
    | succ t =>
      simp only [Program.asked, List.getElem?_cons_succ, List.take_succ_cons, List.mem_cons, not_or] at h1 h2 ⊢
      rw [← hH q0 (Ne.symm h2.1)]
      exact ih _ t h1 h2.2

/-- All places where a program may evaluate the function. -/
def Spec.Program.mentions : Program Q Ω α → Set Q
  | .done _ => ∅
  | .ask q next => {q} ∪ ⋃ o, (next o).mentions

theorem Spec.Program.mentions_finite [Finite Ω] (p : Program Q Ω α) : p.mentions.Finite := by
  induction p with
  | done a => exact Set.finite_empty
  | ask q next ih => exact (Set.finite_singleton q).union (Set.finite_iUnion ih)

theorem Spec.Program.asked_mentions (H : Q → Ω) (p : Program Q Ω α) : ∀ q ∈ p.asked H, q ∈ p.mentions := by
  induction p with
  | done a => intro q h; simp [Program.asked] at h
  | ask q0 next ih =>
    intro q h
    simp only [Program.asked, List.mem_cons] at h
    rcases h with rfl | h
    · exact Or.inl rfl
    · exact Or.inr (Set.mem_iUnion.2 ⟨_, ih _ q h⟩)

/-- One program after another. -/
def Spec.Program.andThen (f : α → Program Q Ω β) : Program Q Ω α → Program Q Ω β
  | .done a => f a
  | .ask q next => .ask q fun o => (next o).andThen f

theorem Spec.Program.asked_andThen (H : Q → Ω) (f : α → Program Q Ω β) (p : Program Q Ω α) :
    (p.andThen f).asked H = p.asked H ++ (f (p.run H)).asked H := by
  induction p with
  | done a => rfl
  | ask q next ih => simp only [Program.andThen, Program.asked, Program.run, List.cons_append, ih]

theorem onSet_mem (D : Finset Q) (H₀ : Q → Ω) (H : D → Ω) (q : Q) (h : q ∈ D) : onSet D H₀ H q = H ⟨q, h⟩ := by
  simp [onSet, h]

variable [Finite Ω]

theorem hit_at (p : Program Q Ω α) (D : Finset Q) (H₀ : Q → Ω) (hD : ∀ H, ∀ q ∈ p.asked H, q ∈ D) (Bad : (Q → Ω) → Q → Ω → Prop)
    (hloc : ∀ H H' q o, (∀ q', q' ≠ q → H q' = H' q') → Bad H q o → Bad H' q o)
    (b : ℕ) (hb : ∀ H q, {o | Bad H q o}.ncard ≤ b) (t : ℕ) :
    {H : D → Ω | ∃ q, (p.asked (onSet D H₀ H))[t]? = some q ∧ q ∉ (p.asked (onSet D H₀ H)).take t ∧
      Bad (onSet D H₀ H) q (onSet D H₀ H q)}.ncard * Nat.card Ω ≤ b * Nat.card (D → Ω) := by
  classical
  have hoff : ∀ (H : D → Ω) (q : Q) (o : Ω) (q' : Q), q' ≠ q →
      onSet D H₀ H q' = onSet D H₀ (fun d => if d.1 = q then o else H d) q' := by
    intro H q o q' hq'
    by_cases hd : q' ∈ D
    · rw [onSet_mem _ _ _ _ hd, onSet_mem _ _ _ _ hd, if_neg hq']
    · simp [onSet, hd]
  have key : ∀ (H : D → Ω) (q : Q) (o : Ω), (p.asked (onSet D H₀ H))[t]? = some q →
      q ∉ (p.asked (onSet D H₀ H)).take t →
      (p.asked (onSet D H₀ fun d => if d.1 = q then o else H d))[t]? = some q := by
    intro H q o h1 h2
    exact Program.asked_same (onSet D H₀ H) _ q (hoff H q o) p t h1 h2
  let φ : (D → Ω) × Ω → (D → Ω) × Ω := fun z =>
    match (p.asked (onSet D H₀ z.1))[t]? with
    | some q => (fun d => if d.1 = q then z.2 else z.1 d, onSet D H₀ z.1 q)
    | none => z
  have hφ : ∀ (H : D → Ω) (o : Ω) (q : Q), (p.asked (onSet D H₀ H))[t]? = some q →
      φ (H, o) = (fun d => if d.1 = q then o else H d, onSet D H₀ H q) := by
    intro H o q h
    simp only [φ, h]
  have h1 := Set.ncard_le_ncard_of_injOn
    (s := {H : D → Ω | ∃ q, (p.asked (onSet D H₀ H))[t]? = some q ∧ q ∉ (p.asked (onSet D H₀ H)).take t ∧
      Bad (onSet D H₀ H) q (onSet D H₀ H q)} ×ˢ (Set.univ : Set Ω))
    (t := {z : (D → Ω) × Ω | ∃ q, (p.asked (onSet D H₀ z.1))[t]? = some q ∧ Bad (onSet D H₀ z.1) q z.2}) φ
    (by
      rintro ⟨H, o⟩ ⟨⟨q, a1, a2, a3⟩, -⟩
      simp only at a1 a2 a3
      rw [hφ H o q a1]
      exact ⟨q, key H q o a1 a2, hloc _ _ _ _ (hoff H q o) a3⟩)
    (by
      rintro ⟨H, o⟩ ⟨⟨q, a1, a2, -⟩, -⟩ ⟨H', o'⟩ ⟨⟨q', b1, b2, -⟩, -⟩ he
      simp only at a1 a2 b1 b2
      rw [hφ H o q a1, hφ H' o' q' b1, Prod.mk.injEq] at he
      have c1 := key H q o a1 a2
      have c2 := key H' q' o' b1 b2
      rw [he.1, c2] at c1
      have hqq : q' = q := Option.some.inj c1
      subst hqq
      have hd := hD _ q' (List.mem_of_getElem? a1)
      rw [onSet_mem _ _ _ _ hd, onSet_mem _ _ _ _ hd] at he
      refine Prod.ext ?_ ?_
      · funext d
        by_cases h : d.1 = q'
        · have : d = ⟨q', hd⟩ := Subtype.ext h
          rw [this]; exact he.2
        · have := congrFun he.1 d
          simpa only [if_neg h] using this
      · have := congrFun he.1 ⟨q', hd⟩
        simpa using this) (Set.toFinite _)
  rw [Set.ncard_prod, Set.ncard_univ] at h1
  refine h1.trans ?_
  have h2 := count_first (Ω := D → Ω) (W := Ω) (fun H o => ∃ q, (p.asked (onSet D H₀ H))[t]? = some q ∧ Bad (onSet D H₀ H) q o)
    (fun _ => False) 0 b (by simp) (by
      intro H _
      cases hq : (p.asked (onSet D H₀ H))[t]? with
      | none => simp
      | some q =>
        refine le_trans (Set.ncard_le_ncard ?_ (Set.toFinite _)) (hb (onSet D H₀ H) q)
        rintro o ⟨q', h, h'⟩
        cases h
        exact h')
  rw [Nat.zero_mul, Nat.zero_add, Nat.mul_comm] at h2
  exact h2

theorem hit_count (p : Program Q Ω α) (D : Finset Q) (H₀ : Q → Ω) (hD : ∀ H, ∀ q ∈ p.asked H, q ∈ D) (Bad : (Q → Ω) → Q → Ω → Prop)
    (hloc : ∀ H H' q o, (∀ q', q' ≠ q → H q' = H' q') → Bad H q o → Bad H' q o)
    (b : ℕ) (hb : ∀ H q, {o | Bad H q o}.ncard ≤ b) (T : ℕ) (hT : ∀ H, (p.asked H).length ≤ T) :
    {H : D → Ω | ∃ q ∈ p.asked (onSet D H₀ H), Bad (onSet D H₀ H) q (onSet D H₀ H q)}.ncard * Nat.card Ω ≤ T * b * Nat.card (D → Ω) := by
  classical
  let S : ℕ → Set (D → Ω) := fun t => {H | ∃ q, (p.asked (onSet D H₀ H))[t]? = some q ∧
    q ∉ (p.asked (onSet D H₀ H)).take t ∧ Bad (onSet D H₀ H) q (onSet D H₀ H q)}
  have hsub : ∀ n, (⋃ t ∈ Finset.range n, S t).ncard * Nat.card Ω ≤ n * (b * Nat.card (D → Ω)) := by
    intro n
    induction n with
    | zero => simp
    | succ n ih =>
      rw [Finset.range_add_one, Finset.set_biUnion_insert]
      have h1 := Set.ncard_union_le (S n) (⋃ t ∈ Finset.range n, S t)
      have h2 := hit_at p D H₀ hD Bad hloc b hb n
      calc _ ≤ ((S n).ncard + (⋃ t ∈ Finset.range n, S t).ncard) * Nat.card Ω := Nat.mul_le_mul_right _ h1
        _ = (S n).ncard * Nat.card Ω + (⋃ t ∈ Finset.range n, S t).ncard * Nat.card Ω := by ring
        _ ≤ b * Nat.card (D → Ω) + n * (b * Nat.card (D → Ω)) := Nat.add_le_add h2 ih
        _ = _ := by ring
  refine le_trans (Nat.mul_le_mul_right _ (Set.ncard_le_ncard ?_ (Set.toFinite _))) ((hsub T).trans (by rw [Nat.mul_assoc]))
  rintro H ⟨q, h1, h2⟩
  simp only [Finset.mem_range, Set.mem_iUnion]
  have hi := List.idxOf_lt_length_of_mem h1
  refine ⟨(p.asked (onSet D H₀ H)).idxOf q, hi.trans_le (hT _), q, ?_, ?_, h2⟩
  · rw [List.getElem?_eq_getElem hi, List.getElem_idxOf]
  · intro h
    rw [List.mem_take_iff_idxOf_lt h1] at h
    exact lt_irrefl _ h

end game
end Verif
