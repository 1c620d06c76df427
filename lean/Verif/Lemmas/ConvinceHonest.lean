/-
For C104: whoever knows an opening convinces the verifier for all challenges that are not zero.
-/
import Verif.Lemmas.Convince
import Verif.Lemmas.TreeExists
import Verif.Props.Soundness

namespace Verif
open Spec

section
variable {F G : Type} [Field F] [AddCommGroup G] [Module F G]

/-- The vector after folding with `xs`. -/
def vecPre : ℕ → List F → List F → List F
  | k + 1, x :: xs, a => vecPre k xs (List.zipWith (· + ·) (a.take (2 ^ k)) ((a.drop (2 ^ k)).map (x⁻¹ * ·)))
  | _, _, a => a

@[simp] theorem vecPre_nil (k : ℕ) (a : List F) : vecPre k [] a = a := by cases k <;> rfl

theorem vecPre_append (k : ℕ) (xs : List F) (x : F) (a : List F) (h : xs.length < k) :
    vecPre k (xs ++ [x]) a = List.zipWith (· + ·) ((vecPre k xs a).take (2 ^ (k - 1 - xs.length)))
      (((vecPre k xs a).drop (2 ^ (k - 1 - xs.length))).map (x⁻¹ * ·)) := by
  induction xs generalizing k a with
  | nil =>
    obtain ⟨k, rfl⟩ : ∃ j, k = j + 1 := ⟨k - 1, by simp at h; omega⟩
    simp [vecPre]
  | cons y xs ih =>
    obtain ⟨k, rfl⟩ : ∃ j, k = j + 1 := ⟨k - 1, by simp at h; omega⟩
    simp only [List.length_cons] at h
    simp only [List.cons_append, vecPre, List.length_cons]
    rw [ih k _ (by omega)]
    have : k - 1 - xs.length = k + 1 - 1 - (xs.length + 1) := by omega
    rw [this]

/-- A prover who knows an opening `r, a` (with `2^k` entries) for the generators `gs`. -/
def honestLin (k : ℕ) (r : F) (a : List F) (gs : List G) : LinProver F G where
  fold xs := (mexp ((vecPre k xs a).take (2 ^ (k - 1 - xs.length))) ((foldPre k xs gs).drop (2 ^ (k - 1 - xs.length))),
    mexp ((vecPre k xs a).drop (2 ^ (k - 1 - xs.length))) ((foldPre k xs gs).take (2 ^ (k - 1 - xs.length))))
  last _ := 0
  answer xs x := (x * (vecPre k xs a).headD 0, x * r)

theorem honestLin_inv (k : ℕ) (r : F) (a : List F) (gs : List G) (ha : a.length = 2 ^ k) (hg : gs.length ≤ 2 ^ k)
    (xs : List F) : xs.length ≤ k → 0 ∉ xs →
      (vecPre k xs a).length = 2 ^ (k - xs.length) ∧ (foldPre k xs gs).length ≤ 2 ^ (k - xs.length) ∧
      mexp a gs + mexp xs ((honestLin k r a gs).Ls xs) + mexp (xs.map (·⁻¹)) ((honestLin k r a gs).Rs xs) =
        mexp (vecPre k xs a) (foldPre k xs gs) := by
  induction xs using List.reverseRecOn with
  | nil => intro _ _; simp [LinProver.Ls, LinProver.Rs, ha, hg]
  | append_singleton xs x ih =>
    intro hk hz
    rw [List.length_append, List.length_singleton] at hk
    have hx : x ≠ 0 := fun h => hz (by simp [h])
    obtain ⟨h1, h2, h3⟩ := ih (by omega) (fun h => hz (by simp [h]))
    obtain ⟨m, hm⟩ : ∃ m, m = k - 1 - xs.length := ⟨_, rfl⟩
    have e1 : k - xs.length = m + 1 := by omega
    have e2 : k - (xs ++ [x]).length = m := by simp; omega
    rw [e1] at h1 h2
    rw [e2, vecPre_append _ _ _ _ (by omega), foldPre_append _ _ _ _ (by omega), LinProver.Ls_snoc, LinProver.Rs_snoc,
      List.map_append, mexp_append (by simp [LinProver.Ls]), mexp_append (by simp [LinProver.Rs])]
    have hf : (honestLin k r a gs).fold xs =
      (mexp ((vecPre k xs a).take (2 ^ m)) ((foldPre k xs gs).drop (2 ^ m)),
        mexp ((vecPre k xs a).drop (2 ^ m)) ((foldPre k xs gs).take (2 ^ m))) := by rw [hm]; rfl
    rw [hf, ← hm]
    dsimp only
    obtain ⟨v, hv⟩ : ∃ v, v = vecPre k xs a := ⟨_, rfl⟩
    obtain ⟨g, hg'⟩ : ∃ g, g = foldPre k xs gs := ⟨_, rfl⟩
    rw [← hv, ← hg'] at h3
    rw [← hv] at h1 ⊢
    rw [← hg'] at h2 ⊢
    have hal : (v.take (2 ^ m)).length = 2 ^ m := by rw [List.length_take, h1, pow_succ]; omega
    have har : (v.drop (2 ^ m)).length = 2 ^ m := by rw [List.length_drop, h1, pow_succ]; omega
    obtain ⟨p, hp⟩ : ∃ p, p = v.take (2 ^ m) := ⟨_, rfl⟩
    obtain ⟨q, hq⟩ : ∃ q, q = v.drop (2 ^ m) := ⟨_, rfl⟩
    have hpq : v = p ++ q := by rw [hp, hq, List.take_append_drop]
    rw [← hp] at hal ⊢
    rw [← hq] at har ⊢
    refine ⟨by simp [hal, har], by simp, ?_⟩
    rw [mexp_foldP _ _ _ _ (by simp [hal, har]) h2, mexp_zip_add _ _ _ (by simp [hal, har]),
      mexp_zip_add _ _ _ (by simp [hal, har]), mexp_map_mul, mexp_map_mul]
    rw [hpq, mexp_append_left, hal] at h3
    have : x • x⁻¹ • mexp q (g.drop (2 ^ m)) = mexp q (g.drop (2 ^ m)) := by
      rw [smul_smul, mul_inv_cancel₀ hx, one_smul]
    rw [smul_add, this]
    simp only [mexp_cons, mexp_nil_left, add_zero, List.map_cons, List.map_nil]
    linear_combination (norm := module) h3

variable [DecidableEq F] [DecidableEq G]

theorem honestLin_convinces {base : G} {gs : List G} {bs : List F} {eq : F} {off : Option (List F)} {C Fg : G}
    (hn1 : 1 ≤ gs.length) (hn2 : gs.length ≤ 2 ^ 63)
    (hb : bs.length = gs.length) (ho : ∀ o, off = some o → o.length = gs.length)
    (r : F) (a : List F) (ha : a.length = gs.length)
    (h : C + eq • Fg = r • base + mexp a gs + mexp (off.getD []) gs + dot a bs • Fg)
    (xs : List F) (x : F) (hl : xs.length = log2roundUp gs.length) (hz : 0 ∉ xs) (hx : x ≠ 0) :
    (honestLin (log2roundUp gs.length) r (a ++ List.replicate (2 ^ log2roundUp gs.length - gs.length) 0)
      (hat Fg gs bs)).Convinces base gs bs eq off C Fg xs x := by
  obtain ⟨k, hk⟩ : ∃ k, k = log2roundUp gs.length := ⟨_, rfl⟩
  have hle : gs.length ≤ 2 ^ k := by rw [hk]; exact (level_log hn1 hn2).le
  have hhl : (hat Fg gs bs).length = gs.length := by simp [hat, hb]
  have hpad : mexp (a ++ List.replicate (2 ^ k - gs.length) 0) (hat Fg gs bs) = mexp a gs + dot a bs • Fg := by
    rw [mexp_append_left, Props.mexp_zeros, add_zero, ha, ← hhl, List.take_length, mexp_hat _ _ _ _ hb.symm]
  have hal : (a ++ List.replicate (2 ^ k - gs.length) 0).length = 2 ^ k := by
    rw [List.length_append, List.length_replicate, ha]; omega
  rw [← hk] at hl ⊢
  obtain ⟨h1, -, h3⟩ := honestLin_inv k r _ (hat Fg gs bs) hal (by rw [hhl]; exact hle) xs (by omega) hz
  rw [hl, Nat.sub_self, pow_zero] at h1
  obtain ⟨c, hc⟩ := List.length_eq_one_iff.1 h1
  refine linAccepted_of hn1 hn2 hb ho (by rw [hl, hk]) (by simp [LinProver.Ls]) (by simp [LinProver.Rs]) hz hx ?_
  have hS : (honestLin k r (a ++ List.replicate (2 ^ k - gs.length) 0) (hat Fg gs bs)).last xs = 0 := rfl
  have hA : (honestLin k r (a ++ List.replicate (2 ^ k - gs.length) 0) (hat Fg gs bs)).answer xs x = (x * c, x * r) := by
    show (x * (vecPre k xs (a ++ List.replicate (2 ^ k - gs.length) 0)).headD 0, x * r) = _
    rw [hc]; rfl
  rw [hS, hA]
  have hle2 : gs.length ≤ 2 ^ xs.length := by rw [hl]; exact hle
  rw [hpad, hc, ← hl, foldPre_all, foldAll_singleton _ _ (by omega) (by omega), mexp_cons, mexp_nil_left, add_zero,
    foldedSum_eq _ _ (by omega), mexp_hat _ _ _ _ hb.symm] at h3
  rw [foldedSum_eq _ _ (by omega), foldedSum_eq _ _ (by omega), ← dot_eq_mexp]
  rw [h]
  generalize dot (spL xs) bs = u at h3 ⊢
  generalize mexp (spL xs) gs = v at h3 ⊢
  rw [hl] at h3
  linear_combination (norm := module) x • h3

end
end Verif
