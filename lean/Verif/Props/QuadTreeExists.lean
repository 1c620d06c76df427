/-
C57, converse: the openings found by the extractor are all openings.
-/
import Verif.Props.QuadSound
import Verif.Lemmas.QuadTreeExists

namespace Verif.Props
open Verif Verif.Spec

section
variable {F G : Type} [Field F] [AddCommGroup G] [Module F G] [DecidableEq F] [DecidableEq G]

/-- **C57, the extractor misses nothing.** In a field with five distinct non-zero elements, with `2^k` generators of each
kind, for every opening of the commitment with which the claim (up to the generator `Fg`) holds there is a tree of
accepted conversations from which the extractor computes just this opening, and no relation that is not trivial. -/
theorem C57_quadratic_tree (base : G) (gs hs : List G) (eq : F) (uoff voff : Option (List F)) (C Fg : G)
    (k : ℕ) (hk : k ≤ 63) (hg : gs.length = 2 ^ k) (hh : hs.length = 2 ^ k)
    (hu : ∀ o, uoff = some o → o.length = 2 ^ k) (hv : ∀ o, voff = some o → o.length = 2 ^ k)
    (hF : ∃ y : Fin 5 → F, Function.Injective y ∧ ∀ i, y i ≠ 0)
    (r : F) (a b : List F) (ha : a.length = 2 ^ k) (hb : b.length = 2 ^ k)
    (h : C + eq • Fg = r • base + mexp a gs + mexp (uoff.getD []) gs + mexp b hs + mexp (voff.getD []) hs
      + dot a b • Fg) :
    ∃ t : QuadTree F G, t.Accepted base gs hs eq uoff voff C Fg [] [] [] ∧
      (t.extract k).1 = r ∧ (t.extract k).2.1 = dot a b ∧
      (List.range (2 ^ k)).map (t.extract k).2.2.1 = a ∧ (List.range (2 ^ k)).map (t.extract k).2.2.2 = b ∧
      ∀ ρ ∈ t.relations k, ρ.Trivial (2 ^ k) := by
  obtain ⟨y, hy, hy0⟩ := hF
  have hlog : log2roundUp gs.length = k := by rw [hg]; exact log2roundUp_two_pow hk
  have hfun : ∀ (l : List F), l.length = 2 ^ k → (List.range (2 ^ k)).map (fun j => l.getD j 0) = l := by
    intro l hl
    apply List.ext_getElem
    · simp [hl]
    · intro i h1 h2
      simp [List.getElem?_eq_getElem h2]
  have hda : dot a b = ∑ j ∈ Finset.range (2 ^ k), a.getD j 0 * b.getD j 0 := by
    rw [← dot_range, hfun a ha, hfun b hb]
  have he := eval_eq base Fg gs hs (2 ^ k) hg hh (r, dot a b, (fun j => a.getD j 0), fun j => b.getD j 0)
  simp only [hfun a ha, hfun b hb] at he
  unfold Coeffs.eval at he
  simp only [sum_range_list] at he
  obtain ⟨t, g1, g2, g3⟩ := quadGood_exists base Fg y hy hy0 k
    (C + eq • Fg - mexp (uoff.getD []) gs - mexp (voff.getD []) hs) (fun j => gs.getD j 0) (fun j => hs.getD j 0) r
    (fun j => a.getD j 0) (fun j => b.getD j 0) (by
      rw [← hda]
      rw [h]
      linear_combination (norm := module) -he)
  refine ⟨t, quadTree_accepted (by rw [hg]; exact Nat.one_le_two_pow)
    (by rw [hg]; exact Nat.pow_le_pow_right (by norm_num) hk) (by rw [hlog, hg]) (by rw [hg, hh])
    (by rw [hg]; exact hu) (by rw [hg]; exact hv) t [] [] [] k rfl rfl (by rw [hlog]; simp) (by simp) ?_, g2.1,
    by rw [hda]; exact g2.2.1, ?_, ?_, g3⟩
  · simpa using g1
  · refine Eq.trans ?_ (hfun a ha)
    apply List.map_congr_left
    intro j hj
    exact (g2.2.2 j (List.mem_range.1 hj)).1
  · refine Eq.trans ?_ (hfun b hb)
    apply List.map_congr_left
    intro j hj
    exact (g2.2.2 j (List.mem_range.1 hj)).2

/-- **C57, exactly.** There is a tree of accepted conversations from which no relation comes out if and only if there is
an opening. -/
theorem C57_quadratic_iff (base : G) (gs hs : List G) (eq : F) (uoff voff : Option (List F)) (C Fg : G)
    (k : ℕ) (hk : k ≤ 63) (hg : gs.length = 2 ^ k) (hh : hs.length = 2 ^ k)
    (hu : ∀ o, uoff = some o → o.length = 2 ^ k) (hv : ∀ o, voff = some o → o.length = 2 ^ k)
    (hF : ∃ y : Fin 5 → F, Function.Injective y ∧ ∀ i, y i ≠ 0) :
    (∃ t : QuadTree F G, t.Accepted base gs hs eq uoff voff C Fg [] [] [] ∧
      ∀ ρ ∈ t.relations k, ρ.Trivial (2 ^ k)) ↔
    ∃ (r : F) (a b : List F), a.length = 2 ^ k ∧ b.length = 2 ^ k ∧
      C + eq • Fg = r • base + mexp a gs + mexp (uoff.getD []) gs + mexp b hs + mexp (voff.getD []) hs
        + dot a b • Fg := by
  constructor
  · rintro ⟨t, ht, hr⟩
    obtain ⟨h1, -, h2⟩ := C57_quadratic_extract base gs hs eq uoff voff C Fg t k hk hg hh hu hv ht
    have h3 := h2 hr
    rw [h3] at h1
    exact ⟨_, _, _, by simp, by simp, h1⟩
  · rintro ⟨r, a, b, ha, hb, h⟩
    obtain ⟨t, h1, -, -, -, -, h2⟩ := C57_quadratic_tree base gs hs eq uoff voff C Fg k hk hg hh hu hv hF r a b ha hb h
    exact ⟨t, h1, h2⟩

end

/-- The hypotheses can be met: vectors `(1, 2, 3, 4)` and `(5, 6, 7, 8)`, with inner product 70. -/
example : ∃ t : QuadTree ℚ ℚ, t.Accepted 1 [10, 100, 1000, 10000] [3, 5, 7, 9] 70 none none 43380 11 [] [] [] ∧
    (t.extract 2).1 = 4 := by
  obtain ⟨t, h1, h2, -⟩ := C57_quadratic_tree (1 : ℚ) [10, 100, 1000, 10000] [3, 5, 7, 9] (70 : ℚ) none none 43380 11 2
    (by norm_num) (by simp) (by simp) (by simp) (by simp) ⟨fun i => (i : ℕ) + 1, by
      intro i j h
      have : ((i : ℕ) : ℚ) = (j : ℕ) := by simpa using h
      exact Fin.ext (by exact_mod_cast this), by intro i; positivity⟩ (4) [1, 2, 3, 4] [5, 6, 7, 8] (by simp) (by simp)
    (by norm_num [mexp, dot])
  exact ⟨t, h1, h2⟩

end Verif.Props
