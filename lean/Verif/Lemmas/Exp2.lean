/- `expSubsetProduct2` computes the folded sum. -/
import Verif.Lemmas.BPVerify

namespace Verif
open Spec

section
variable {F G : Type} [Field F] [AddCommGroup G] [Module F G]

theorem expSubsetProduct2Loop_eq (xs : List F) : ∀ (n h : Nat) (gs : List G),
    Level n h xs.length → gs.length = n → expSubsetProduct2Loop gs n h xs = .ok (foldAll xs gs) := by
  induction xs with
  | nil => intro n h gs _ _; rfl
  | cons x xs ih =>
    intro n h gs hl hg
    obtain ⟨hh1, hh2, hh3, hh4⟩ := Level.half hl
    obtain ⟨gl, hgl, hgt, -⟩ := foldGenerators_ok (x := x) hg.symm hh1.le hh2
    rw [expSubsetProduct2Loop, hgl]
    simp only [Res.ok_bind, hgt]
    rw [ih h (h / 2) _ (Level.next hl) (by simp; omega)]
    simp [foldAll, hh4]

theorem expSubsetProduct2_eq {n : Nat} {xs : List F} {gs : List G} (h1 : 2 ≤ n) (h2 : n ≤ 2 ^ 63)
    (hg : gs.length = n) (hx : xs.length = log2roundUp n) :
    expSubsetProduct2 gs n xs = .ok (foldedSum xs gs) := by
  have h0 := log2roundUp_half_lt (show 1 < n by omega)
  have hle := (log2roundUp_le h2).2
  unfold expSubsetProduct2
  simp only
  rw [if_neg (by omega), rdN_ok (by omega)]
  simp only [Res.ok_bind]
  rw [← hx, List.take_length, expSubsetProduct2Loop_eq xs n _ gs _ hg]
  · simp only [Res.ok_bind]
    rw [foldAll_singleton xs gs (by omega) (by rw [hx, hg]; exact hle), rd_ok (by simp)]
    simp
  · have := level_log (show 1 ≤ n by omega) h2
    rwa [next2power_half (by omega) h2, ← hx] at this

end

end Verif
