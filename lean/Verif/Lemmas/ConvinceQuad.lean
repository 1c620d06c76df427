/-
For C104: the same for quadratic proofs.
-/
import Verif.Lemmas.Convince
import Verif.Lemmas.QuadTreeExists
import Verif.Props.QuadSound

namespace Verif
open Spec

section
variable {F G : Type} [Field F] [AddCommGroup G] [Module F G]

theorem fold_sum {M : Type} [AddCommGroup M] [Module F M] (x y : F) (hxy : y * x = 1) (n : ℕ) (a : ℕ → F) (g : ℕ → M) :
    ∑ j ∈ Finset.range n, (a j + y • a (n + j)) • (g j + x • g (n + j)) =
      (∑ j ∈ Finset.range (n + n), a j • g j) + x • (∑ j ∈ Finset.range n, a j • g (n + j))
        + y • ∑ j ∈ Finset.range n, a (n + j) • g j := by
  rw [Finset.sum_range_add, Finset.smul_sum, Finset.smul_sum, ← Finset.sum_add_distrib, ← Finset.sum_add_distrib,
    ← Finset.sum_add_distrib]
  apply Finset.sum_congr rfl
  intro j _
  have : (y • a (n + j)) • x • g (n + j) = a (n + j) • g (n + j) := by
    rw [smul_smul, smul_eq_mul, mul_right_comm, hxy, one_mul]
  rw [smul_add, add_smul, add_smul, this, smul_eq_mul]
  module

/-- A prover who knows an opening `r, a, b` for the generators `g`, `h`. -/
def honestQuad (k : ℕ) (r : F) (a b : ℕ → F) (g h : ℕ → G) (Fg : G) : QuadProver F G where
  fold xs :=
    let n := 2 ^ (k - 1 - xs.length)
    let A := foldF k (xs.map (·⁻¹)) a
    let B := foldF k xs b
    let g' := foldF k xs g
    let h' := foldF k (xs.map (·⁻¹)) h
    ((∑ j ∈ Finset.range n, A j • g' (n + j)) + (∑ j ∈ Finset.range n, B (n + j) • h' j)
      + (∑ j ∈ Finset.range n, A j • B (n + j)) • Fg,
     (∑ j ∈ Finset.range n, A (n + j) • g' j) + (∑ j ∈ Finset.range n, B j • h' (n + j))
      + (∑ j ∈ Finset.range n, A (n + j) • B j) • Fg)
  last _ := (0, 0)
  answer xs _ := (foldF k (xs.map (·⁻¹)) a 0, foldF k xs b 0, r)

theorem honestQuad_inv (k : ℕ) (r : F) (a b : ℕ → F) (g h : ℕ → G) (Fg : G) (xs : List F) : xs.length ≤ k → 0 ∉ xs →
    (∑ j ∈ Finset.range (2 ^ k), a j • g j) + (∑ j ∈ Finset.range (2 ^ k), b j • h j)
        + (∑ j ∈ Finset.range (2 ^ k), a j • b j) • Fg
        + mexp xs ((honestQuad k r a b g h Fg).Ls xs) + mexp (xs.map (·⁻¹)) ((honestQuad k r a b g h Fg).Rs xs) =
      (∑ j ∈ Finset.range (2 ^ (k - xs.length)), foldF k (xs.map (·⁻¹)) a j • foldF k xs g j)
        + (∑ j ∈ Finset.range (2 ^ (k - xs.length)), foldF k xs b j • foldF k (xs.map (·⁻¹)) h j)
        + (∑ j ∈ Finset.range (2 ^ (k - xs.length)), foldF k (xs.map (·⁻¹)) a j • foldF k xs b j) • Fg := by
  induction xs using List.reverseRecOn with
  | nil => intro _ _; simp [QuadProver.Ls, QuadProver.Rs]
  | append_singleton xs x ih =>
    intro hk hz
    rw [List.length_append, List.length_singleton] at hk
    have hx : x ≠ 0 := fun h => hz (by simp [h])
    have h3 := ih (by omega) (fun h => hz (by simp [h]))
    obtain ⟨m, hm⟩ : ∃ m, m = k - 1 - xs.length := ⟨_, rfl⟩
    have e1 : k - xs.length = m + 1 := by omega
    have e2 : k - (xs ++ [x]).length = m := by simp; omega
    obtain ⟨n, hn⟩ : ∃ n, n = 2 ^ m := ⟨_, rfl⟩
    have hlt : xs.length < k := by omega
    have hlt' : (xs.map (·⁻¹)).length < k := by simpa using hlt
    have hm' : k - 1 - (xs.map (·⁻¹)).length = m := by simp; omega
    rw [e1, show 2 ^ (m + 1) = n + n by rw [hn, pow_succ]; ring] at h3
    have hf : (honestQuad k r a b g h Fg).fold xs =
      ((∑ j ∈ Finset.range n, foldF k (xs.map (·⁻¹)) a j • foldF k xs g (n + j))
        + (∑ j ∈ Finset.range n, foldF k xs b (n + j) • foldF k (xs.map (·⁻¹)) h j)
        + (∑ j ∈ Finset.range n, foldF k (xs.map (·⁻¹)) a j • foldF k xs b (n + j)) • Fg,
       (∑ j ∈ Finset.range n, foldF k (xs.map (·⁻¹)) a (n + j) • foldF k xs g j)
        + (∑ j ∈ Finset.range n, foldF k xs b j • foldF k (xs.map (·⁻¹)) h (n + j))
        + (∑ j ∈ Finset.range n, foldF k (xs.map (·⁻¹)) a (n + j) • foldF k xs b j) • Fg) := by rw [hn, hm]; rfl
    rw [e2, QuadProver.Ls_snoc, QuadProver.Rs_snoc, List.map_append, List.map_singleton,
      foldF_append k xs x g hlt, foldF_append k xs x b hlt, foldF_append k (xs.map (·⁻¹)) x⁻¹ a hlt',
      foldF_append k (xs.map (·⁻¹)) x⁻¹ h hlt', mexp_append (by simp [QuadProver.Ls]), mexp_append (by simp [QuadProver.Rs]),
      hf, hm', ← hm, ← hn]
    obtain ⟨A, hA⟩ : ∃ A, A = foldF k (xs.map (·⁻¹)) a := ⟨_, rfl⟩
    obtain ⟨B, hB⟩ : ∃ B, B = foldF k xs b := ⟨_, rfl⟩
    obtain ⟨g', hg'⟩ : ∃ g', g' = foldF k xs g := ⟨_, rfl⟩
    obtain ⟨h', hh'⟩ : ∃ h', h' = foldF k (xs.map (·⁻¹)) h := ⟨_, rfl⟩
    rw [← hA, ← hB, ← hg', ← hh'] at h3
    rw [← hA, ← hB, ← hg', ← hh']
    rw [fold_sum x x⁻¹ (inv_mul_cancel₀ hx), fold_sum x⁻¹ x (mul_inv_cancel₀ hx), fold_sum x x⁻¹ (inv_mul_cancel₀ hx)]
    simp only [mexp_cons, mexp_nil_left, add_zero]
    simp only [smul_eq_mul] at h3 ⊢
    linear_combination (norm := module) h3

variable [DecidableEq F] [DecidableEq G]

theorem honestQuad_convinces {base : G} {gs hs : List G} {eq : F} {uoff voff : Option (List F)} {C Fg : G}
    {k : ℕ} (hk : k ≤ 63) (hg : gs.length = 2 ^ k) (hh : hs.length = 2 ^ k)
    (hu : ∀ o, uoff = some o → o.length = 2 ^ k) (hv : ∀ o, voff = some o → o.length = 2 ^ k)
    (r : F) (a b : List F) (ha : a.length = 2 ^ k) (hb : b.length = 2 ^ k)
    (h : C + eq • Fg = r • base + mexp a gs + mexp (uoff.getD []) gs + mexp b hs + mexp (voff.getD []) hs
      + dot a b • Fg) (xs : List F) (x : F) (hl : xs.length = k) (hz : 0 ∉ xs) :
    (honestQuad k r (fun j => a.getD j 0) (fun j => b.getD j 0) (fun j => gs.getD j 0) (fun j => hs.getD j 0) Fg).Convinces
      base gs hs eq uoff voff C Fg xs x := by
  have hlog : log2roundUp gs.length = k := by rw [hg]; exact log2roundUp_two_pow hk
  have hfun : ∀ (l : List F), l.length = 2 ^ k → (List.range (2 ^ k)).map (fun j => l.getD j 0) = l := by
    intro l hl
    apply List.ext_getElem
    · simp [hl]
    · intro i h1 h2
      simp [List.getElem?_eq_getElem h2]
  have hda : dot a b = ∑ j ∈ Finset.range (2 ^ k), a.getD j 0 • b.getD j 0 := by
    simp only [smul_eq_mul]
    rw [← Props.dot_range, hfun a ha, hfun b hb]
  have he := Props.eval_eq base Fg gs hs (2 ^ k) hg hh (r, dot a b, (fun j => a.getD j 0), fun j => b.getD j 0)
  simp only [hfun a ha, hfun b hb] at he
  unfold Coeffs.eval at he
  simp only [sum_range_list] at he
  have h3 := honestQuad_inv k r (fun j => a.getD j 0) (fun j => b.getD j 0) (fun j => gs.getD j 0) (fun j => hs.getD j 0) Fg xs
    (by omega) hz
  rw [← hda] at h3
  refine quadAccepted_of (by rw [hg]; exact Nat.one_le_two_pow) (by rw [hg]; exact Nat.pow_le_pow_right (by norm_num) hk)
    (by rw [hg, hh]) (by rw [hg]; exact hu) (by rw [hg]; exact hv) (by rw [hlog, hl]) (by simp [QuadProver.Ls])
    (by simp [QuadProver.Rs]) hz ?_
  obtain ⟨p, hp⟩ : ∃ p, p = honestQuad k r (fun j => a.getD j 0) (fun j => b.getD j 0) (fun j => gs.getD j 0)
    (fun j => hs.getD j 0) Fg := ⟨_, rfl⟩
  have hS : p.last xs = (0, 0) := by rw [hp]; rfl
  have hA : p.answer xs x = (foldF k (xs.map (·⁻¹)) (fun j => a.getD j 0) 0, foldF k xs (fun j => b.getD j 0) 0, r) := by
    rw [hp]; rfl
  rw [← hp] at h3 ⊢
  rw [hS, hA]
  have f1 := foldF_eq xs gs (by rw [hl]; exact hg)
  have f2 := foldF_eq (xs.map (·⁻¹)) hs (by rw [List.length_map, hl]; exact hh)
  rw [List.length_map] at f2
  rw [hl] at f1 f2 h3
  simp only [Nat.sub_self, pow_zero, Finset.range_one, Finset.sum_singleton] at h3
  rw [f1, f2] at h3
  rw [h]
  simp only [smul_eq_mul] at h3
  linear_combination (norm := module) h3 - he

end
end Verif
