/-
C13, converse: the openings found by the extractor are all openings.
-/
import Verif.Props.Soundness
import Verif.Lemmas.TreeExists

namespace Verif.Props
open Verif Verif.Spec

section
variable {F G : Type} [Field F] [DecidableEq F] [AddCommGroup G] [Module F G] [DecidableEq G]

/-- **C13, the extractor misses nothing.** In a field with three distinct non-zero elements, for every opening of the
commitment for which the claim (up to the generator `Fg`) holds there is a tree of accepted conversations from which
the extractor computes just this opening. -/
theorem C13_linear_tree (base : G) (gs : List G) (bs : List F) (eq : F) (off : Option (List F)) (C Fg : G)
    (hn1 : 1 ≤ gs.length) (hn2 : gs.length ≤ 2 ^ 63) (hb : bs.length = gs.length)
    (ho : ∀ o, off = some o → o.length = gs.length)
    (hF : ∃ y₁ y₂ y₃ : F, y₁ ≠ y₂ ∧ y₁ ≠ y₃ ∧ y₂ ≠ y₃ ∧ y₁ ≠ 0 ∧ y₂ ≠ 0 ∧ y₃ ≠ 0)
    (r : F) (a : List F) (ha : a.length = gs.length)
    (h : C + eq • Fg = r • base + mexp a gs + mexp (off.getD []) gs + dot a bs • Fg) :
    ∃ t : LinTree F G, t.Accepted base gs bs eq off C Fg [] [] [] ∧ t.extract.1 = r ∧
      t.extract.2.take gs.length = a := by
  obtain ⟨y₁, y₂, y₃, h12, h13, h23, h1, h2, h3⟩ := hF
  have hle : gs.length ≤ 2 ^ log2roundUp gs.length := (level_log hn1 hn2).le
  have hhl : (hat Fg gs bs).length = gs.length := by simp [hat, hb]
  have hpad : mexp (a ++ List.replicate (2 ^ log2roundUp gs.length - gs.length) 0) (hat Fg gs bs)
      = mexp a gs + dot a bs • Fg := by
    rw [mexp_append_left, mexp_zeros, add_zero, ha, ← hhl, List.take_length, mexp_hat _ _ _ _ hb.symm]
  obtain ⟨t, g, z, e⟩ := linGood_exists base y₁ y₂ y₃ h12 h13 h23 h1 h2 h3 (log2roundUp gs.length)
    (C + eq • Fg - mexp (off.getD []) gs) (hat Fg gs bs) r
    (a ++ List.replicate (2 ^ log2roundUp gs.length - gs.length) 0) (by rw [hhl]; exact hle)
    (by rw [List.length_append, List.length_replicate, ha]; omega)
    (by rw [hpad, h]; abel)
  refine ⟨t, linTree_accepted hn1 hn2 hb ho t [] [] [] (log2roundUp gs.length) rfl rfl (by simp) (by simp) z ?_, by rw [e], ?_⟩
  · simpa using g
  · rw [e]
    simp only
    rw [← ha, List.take_left]

/-- **C13, exactly.** There is a tree of accepted conversations if and only if there is an opening. -/
theorem C13_linear_iff (base : G) (gs : List G) (bs : List F) (eq : F) (off : Option (List F)) (C Fg : G)
    (hn1 : 1 ≤ gs.length) (hn2 : gs.length ≤ 2 ^ 63) (hb : bs.length = gs.length)
    (ho : ∀ o, off = some o → o.length = gs.length)
    (hF : ∃ y₁ y₂ y₃ : F, y₁ ≠ y₂ ∧ y₁ ≠ y₃ ∧ y₂ ≠ y₃ ∧ y₁ ≠ 0 ∧ y₂ ≠ 0 ∧ y₃ ≠ 0) :
    (∃ t : LinTree F G, t.Accepted base gs bs eq off C Fg [] [] []) ↔
    ∃ (r : F) (a : List F), a.length = gs.length ∧
      C + eq • Fg = r • base + mexp a gs + mexp (off.getD []) gs + dot a bs • Fg := by
  constructor
  · rintro ⟨t, ht⟩
    obtain ⟨h1, h2⟩ := C13_linear_extract base gs bs eq off C Fg t hn1 hn2 hb ho ht
    exact ⟨_, _, h1, h2⟩
  · rintro ⟨r, a, ha, h⟩
    obtain ⟨t, ht, -⟩ := C13_linear_tree base gs bs eq off C Fg hn1 hn2 hb ho hF r a ha h
    exact ⟨t, ht⟩

end

/-- The hypotheses can be met: `n = 3`, witness `(1, 2, 3)`, statement `(3, 4, 5)` and `<a,b> = 26`. -/
example : ∃ t : LinTree ℚ ℚ, t.Accepted 1 [10, 100, 1000] [3, 4, 5] 26 none 3217 7 [] [] [] ∧
    t.extract.1 = 7 ∧ t.extract.2.take 3 = [1, 2, 3] :=
  C13_linear_tree 1 [10, 100, 1000] [3, 4, 5] 26 none 3217 7 (by norm_num) (by norm_num) (by simp) (by simp)
    ⟨1, 2, 3, by norm_num, by norm_num, by norm_num, by norm_num, by norm_num, by norm_num⟩ 7 [1, 2, 3] (by simp)
    (by norm_num [mexp, dot])

end Verif.Props
