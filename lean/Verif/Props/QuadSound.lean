/-
Property C57: quadratic proofs of statements whose length is a power of two are special sound.
(For other lengths they are not: property C58.)
-/
import Verif.Lemmas.QuadSound

namespace Verif.Props
open Verif Verif.Spec

section
variable {F G : Type} [Field F] [AddCommGroup G] [Module F G] [DecidableEq F] [DecidableEq G]

omit [DecidableEq F] [DecidableEq G] in
theorem eval_eq (base Fg : G) (gs hs : List G) (n : ℕ) (hg : gs.length = n) (hh : hs.length = n) (o : Coeffs F) :
    o.eval base Fg (fun j => gs.getD j 0) (fun j => hs.getD j 0) n =
      o.1 • base + o.2.1 • Fg + mexp ((List.range n).map o.2.2.1) gs + mexp ((List.range n).map o.2.2.2) hs := by
  have aux : ∀ (a : ℕ → F) (n : ℕ) (gs : List G), gs.length = n →
      ((List.range n).map fun j => a j • gs.getD j 0).sum = mexp ((List.range n).map a) gs := by
    intro a n
    induction n generalizing a with
    | zero => intro gs _; simp
    | succ n ih =>
      rintro (_ | ⟨g, gs⟩) h
      · simp at h
      · have := ih (fun j => a (j + 1)) gs (by simpa using h)
        simp only [List.range_succ_eq_map, List.map_cons, List.map_map, List.sum_cons, mexp_cons]
        simp only [Function.comp_def, List.getD_cons_zero, List.getD_cons_succ, Nat.succ_eq_add_one]
        rw [this]
  rw [Coeffs.eval, aux _ _ _ hg, aux _ _ _ hh]

omit [DecidableEq F] [DecidableEq G] [AddCommGroup G] [Module F G] in
theorem dot_range (a b : ℕ → F) (n : ℕ) :
    dot ((List.range n).map a) ((List.range n).map b) = ∑ j ∈ Finset.range n, a j * b j := by
  rw [← sum_range_list]
  induction n generalizing a b with
  | zero => simp
  | succ n ih =>
    have := ih (fun j => a (j + 1)) (fun j => b (j + 1))
    simp only [List.range_succ_eq_map, List.map_cons, List.map_map, List.sum_cons, dot_cons]
    simp only [Function.comp_def, Nat.succ_eq_add_one]
    rw [this]

/-- **C57, extraction.** From a tree of accepted conversations for one commitment `C` and one generator
`F`, with `2^k` generators of each kind, the extractor computes vectors `a`, `b` and scalars `r`, `c` with
`C + eq·F = r·base + Σ (a_i + u_i) G_i + Σ (b_i + v_i) H_i + c·F`.  It also computes a list of linear
relations between `base`, `F`, the `G_i` and the `H_i`; if they are all trivial, `c = <a,b>`. -/
theorem C57_quadratic_extract (base : G) (gs hs : List G) (eq : F) (uoff voff : Option (List F)) (C Fg : G)
    (t : QuadTree F G) (k : ℕ) (hk : k ≤ 63) (hg : gs.length = 2 ^ k) (hh : hs.length = 2 ^ k)
    (hu : ∀ o, uoff = some o → o.length = 2 ^ k) (hv : ∀ o, voff = some o → o.length = 2 ^ k)
    (ht : t.Accepted base gs hs eq uoff voff C Fg [] [] []) :
    let a := (List.range (2 ^ k)).map (t.extract k).2.2.1
    let b := (List.range (2 ^ k)).map (t.extract k).2.2.2
    let r := (t.extract k).1
    let c := (t.extract k).2.1
    C + eq • Fg = r • base + mexp a gs + mexp (uoff.getD []) gs + mexp b hs + mexp (voff.getD []) hs + c • Fg ∧
    (∀ ρ ∈ t.relations k, ρ.1 • base + ρ.2.1 • Fg + mexp ((List.range (2 ^ k)).map ρ.2.2.1) gs
      + mexp ((List.range (2 ^ k)).map ρ.2.2.2) hs = 0) ∧
    ((∀ ρ ∈ t.relations k, ρ.Trivial (2 ^ k)) → c = dot a b) := by
  have hlog : log2roundUp gs.length = k := by rw [hg]; exact log2roundUp_two_pow hk
  obtain ⟨m, h1, -, h2⟩ := quadTree_good (by rw [hg]; exact Nat.one_le_two_pow)
    (by rw [hg]; exact Nat.pow_le_pow_right (by norm_num) hk) (by rw [hlog, hg]) (by rw [hg, hh])
    (by rw [hg]; exact hu) (by rw [hg]; exact hv) t [] [] [] rfl rfl ht
  simp only [List.length_nil, Nat.zero_add, hlog] at h1
  subst h1
  simp only [List.map_nil, foldF_nil, mexp_nil_left, add_zero] at h2
  obtain ⟨e1, e2⟩ := quadGood_extract base Fg t k _ _ _ h2
  intro a b r c
  refine ⟨?_, fun ρ hρ => ?_, fun htr => ?_⟩
  · rw [eval_eq base Fg gs hs _ hg hh] at e1
    linear_combination (norm := module) -e1
  · rw [← eval_eq base Fg gs hs _ hg hh]; exact e2 ρ hρ
  · rw [dot_range]; exact quadGood_inner base Fg t k _ _ _ h2 htr

/-- **C57, soundness.** From two such trees, for the same commitment and two values `F₁`, `F₂` of the
generator, the extractor computes an opening `r, a, b` of `C` (up to the offsets) with `<a,b> = eq`, or
else a linear relation between the generators with a coefficient that is not zero: one of those found in
the trees (`C57_quadratic_extract`), or else the one below, in which `φ` is not zero. -/
theorem C57_quadratic_sound (base : G) (gs hs : List G) (eq : F) (uoff voff : Option (List F)) (C F₁ F₂ : G)
    (t₁ t₂ : QuadTree F G) (k : ℕ) (hk : k ≤ 63) (hg : gs.length = 2 ^ k) (hh : hs.length = 2 ^ k)
    (hu : ∀ o, uoff = some o → o.length = 2 ^ k) (hv : ∀ o, voff = some o → o.length = 2 ^ k)
    (h₁ : t₁.Accepted base gs hs eq uoff voff C F₁ [] [] []) (h₂ : t₂.Accepted base gs hs eq uoff voff C F₂ [] [] []) :
    let a := (List.range (2 ^ k)).map (t₁.extract k).2.2.1
    let b := (List.range (2 ^ k)).map (t₁.extract k).2.2.2
    let ρ := (t₁.extract k).1 - (t₂.extract k).1
    let α := (List.range (2 ^ k)).map ((t₁.extract k).2.2.1 - (t₂.extract k).2.2.1)
    let β := (List.range (2 ^ k)).map ((t₁.extract k).2.2.2 - (t₂.extract k).2.2.2)
    let φ := (t₁.extract k).2.1 - eq
    let ψ := eq - (t₂.extract k).2.1
    ρ • base + mexp α gs + mexp β hs + φ • F₁ + ψ • F₂ = 0 ∧
    ((∀ ρ ∈ t₁.relations k, ρ.Trivial (2 ^ k)) → φ = 0 →
      C = (t₁.extract k).1 • base + mexp a gs + mexp (uoff.getD []) gs + mexp b hs + mexp (voff.getD []) hs ∧
      dot a b = eq) := by
  obtain ⟨e1, -, i1⟩ := C57_quadratic_extract base gs hs eq uoff voff C F₁ t₁ k hk hg hh hu hv h₁
  obtain ⟨e2, -, -⟩ := C57_quadratic_extract base gs hs eq uoff voff C F₂ t₂ k hk hg hh hu hv h₂
  intro a b ρ α β φ ψ
  have hsub : ∀ (p q : ℕ → F) (n : ℕ) (gs : List G), mexp ((List.range n).map (p - q)) gs =
      mexp ((List.range n).map p) gs - mexp ((List.range n).map q) gs := by
    intro p q n
    induction n generalizing p q with
    | zero => intro gs; simp
    | succ n ih =>
      rintro (_ | ⟨g, gs⟩)
      · simp
      · have := ih (fun j => p (j + 1)) (fun j => q (j + 1)) gs
        simp only [List.range_succ_eq_map, List.map_cons, List.map_map, mexp_cons]
        simp only [Function.comp_def, Nat.succ_eq_add_one, Pi.sub_apply]
        simp only [Pi.sub_def] at this
        rw [this]
        module
  refine ⟨?_, fun htr hφ => ?_⟩
  · simp only [α, β, hsub]
    linear_combination (norm := module) e2 - e1
  · have hc : (t₁.extract k).2.1 = eq := sub_eq_zero.1 hφ
    rw [hc] at e1
    refine ⟨add_right_cancel e1, ?_⟩
    rw [← hc]
    exact (i1 htr).symm

end

/-- A tree of accepted conversations: `n = 2`, witness `(1, 2)` and `(3, 4)`, `<a,b> = 11`, `r = 5`;
`base = 1`, `G = (10, 100)`, `H = (1000, 10000)`, `F = 100000`, all numbers rational; folding challenges
`1, -1, 2, -2`, last challenges `0, …, 4`. -/
def toyQuadTree : QuadTree ℚ ℚ :=
  let x : Fin 4 → ℚ := ![1, -1, 2, -2]
  .node (1 * 100 + 4 * 1000 + 1 * 4 * 100000) (2 * 10 + 3 * 10000 + 2 * 3 * 100000) x fun i =>
    let a := 1 + (x i)⁻¹ * 2
    let b := 3 + x i * 4
    .leaf (7 + (10 + x i * 100) + (1000 + (x i)⁻¹ * 10000) + (a + b) * 100000) 100000 ![0, 1, 2, 3, 4]
      (fun j => a + (j : ℕ)) (fun j => b + (j : ℕ)) (fun j => 5 + 7 * (j : ℕ))

example : toyQuadTree.Accepted 1 [10, 100] [1000, 10000] 11 none none (5 + 1 * 10 + 2 * 100 + 3 * 1000 + 4 * 10000) 100000
    [] [] [] := by
  have hlog : log2roundUp 2 = 1 := log2roundUp_two_pow (k := 1) (by norm_num)
  refine ⟨by intro i j; fin_cases i <;> fin_cases j <;> norm_num, fun i => ⟨by intro i j; fin_cases i <;> fin_cases j <;> norm_num, fun j => ?_⟩⟩
  refine quadAccepted_of (by simp) (by simp) (by simp) (by simp) (by simp) (by simp [hlog]) (by simp) (by simp)
      (by fin_cases i <;> norm_num) ?_
  fin_cases i <;> fin_cases j <;>
    norm_num [mexp, foldedSum, subsetProd, List.range_succ]

/-- The extractor finds the witness. -/
example : (toyQuadTree.extract 1).1 = 5 ∧ (toyQuadTree.extract 1).2.1 = 11 ∧
    (List.range 2).map (toyQuadTree.extract 1).2.2.1 = [1, 2] ∧
    (List.range 2).map (toyQuadTree.extract 1).2.2.2 = [3, 4] := by
  have v1 : (![1, -1, 2, -2] : Fin 4 → ℚ) 2 = 2 := rfl
  have v2 : (![0, 1, 2, 3, 4] : Fin 5 → ℚ) 2 = 2 := rfl
  norm_num [toyQuadTree, QuadTree.extract, interp, v1, v2, Coeffs.unfold, List.range_succ]

end Verif.Props
