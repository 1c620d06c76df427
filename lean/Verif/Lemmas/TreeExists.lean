/- Every opening of a commitment is found by the extractor from some tree of accepted conversations. -/
import Verif.Lemmas.Soundness

namespace Verif
open Spec

section
variable {F G : Type} [Field F] [AddCommGroup G] [Module F G]

/-- The challenges at the leaves are not zero. -/
def LeavesNz : LinTree F G → Prop
  | .leaf _ x₁ _ _ x₂ _ _ => x₁ ≠ 0 ∧ x₂ ≠ 0
  | .node _ _ _ _ _ t₁ t₂ t₃ => LeavesNz t₁ ∧ LeavesNz t₂ ∧ LeavesNz t₃

theorem comb3_honest (c₁ c₂ c₃ d₁ d₂ d₃ : F) : ∀ (a b : List F), a.length = b.length →
    comb3 c₁ (List.zipWith (· + ·) a (b.map (d₁ * ·))) c₂ (List.zipWith (· + ·) a (b.map (d₂ * ·)))
      c₃ (List.zipWith (· + ·) a (b.map (d₃ * ·)))
      = List.zipWith (· + ·) (a.map ((c₁ + c₂ + c₃) * ·)) (b.map ((c₁ * d₁ + c₂ * d₂ + c₃ * d₃) * ·)) := by
  intro a
  induction a with
  | nil => intro b h; obtain rfl : b = [] := List.length_eq_zero_iff.1 h.symm; simp [comb3]
  | cons x a ih =>
    intro b h
    match b, h with
    | y :: b, h =>
      have := ih b (by simpa using h)
      unfold comb3 at this ⊢
      simp only [List.map_cons, List.zipWith_cons_cons, this]
      congr 1
      ring

theorem zipWith_one_zero : ∀ (a b : List F), a.length = b.length →
    List.zipWith (· + ·) (a.map ((1 : F) * ·)) (b.map ((0 : F) * ·)) = a := by
  intro a
  induction a with
  | nil => intro b _; simp
  | cons x a ih =>
    intro b h
    match b, h with
    | y :: b, h => simp only [List.map_cons, List.zipWith_cons_cons, ih b (by simpa using h)]; congr 1; ring

theorem zipWith_zero_one : ∀ (a b : List F), a.length = b.length →
    List.zipWith (· + ·) (a.map ((0 : F) * ·)) (b.map ((1 : F) * ·)) = b := by
  intro a
  induction a with
  | nil => intro b h; obtain rfl : b = [] := List.length_eq_zero_iff.1 h.symm; simp
  | cons x a ih =>
    intro b h
    match b, h with
    | y :: b, h => simp only [List.map_cons, List.zipWith_cons_cons, ih b (by simpa using h)]; congr 1; ring

theorem linGood_exists (base : G) (y₁ y₂ y₃ : F) (h12 : y₁ ≠ y₂) (h13 : y₁ ≠ y₃) (h23 : y₂ ≠ y₃)
    (h1 : y₁ ≠ 0) (h2 : y₂ ≠ 0) (h3 : y₃ ≠ 0) : ∀ (k : ℕ) (Q : G) (gs : List G) (r : F) (a : List F),
    gs.length ≤ 2 ^ k → a.length = 2 ^ k → Q = r • base + mexp a gs →
    ∃ t : LinTree F G, LinGood base t k Q gs ∧ LeavesNz t ∧ t.extract = (r, a) := by
  intro k
  induction k with
  | zero =>
    intro Q gs r a _ ha hQ
    obtain ⟨a0, rfl⟩ := List.length_eq_one_iff.1 ha
    have hd := sub_ne_zero.2 h12
    have hm : mexp [a0] gs = a0 • mexp [(1 : F)] gs := by cases gs <;> simp
    refine ⟨.leaf 0 y₁ (y₁ * a0) (y₁ * r) y₂ (y₂ * a0) (y₂ * r), ⟨rfl, h12, ?_, ?_⟩, ⟨h1, h2⟩, ?_⟩
    · rw [hQ, hm]; module
    · rw [hQ, hm]; module
    · simp only [LinTree.extract]
      rw [← sub_mul, ← sub_mul, mul_div_cancel_left₀ _ hd, mul_div_cancel_left₀ _ hd]
  | succ m ih =>
    intro Q gs r a hg ha hQ
    have hal : (a.take (2 ^ m)).length = 2 ^ m := by rw [List.length_take, ha, pow_succ]; omega
    have har : (a.drop (2 ^ m)).length = 2 ^ m := by rw [List.length_drop, ha, pow_succ]; omega
    obtain ⟨p, hp⟩ : ∃ p, p = a.take (2 ^ m) := ⟨_, rfl⟩
    obtain ⟨q, hq⟩ : ∃ q, q = a.drop (2 ^ m) := ⟨_, rfl⟩
    have hpq : a = p ++ q := by rw [hp, hq, List.take_append_drop]
    rw [← hp] at hal
    rw [← hq] at har
    have step : ∀ x : F, x ≠ 0 → ∃ t : LinTree F G,
        LinGood base t m (Q + x • mexp p (gs.drop (2 ^ m)) + x⁻¹ • mexp q (gs.take (2 ^ m))) (foldP (2 ^ m) x gs) ∧
        LeavesNz t ∧ t.extract = (r, List.zipWith (· + ·) p (q.map (x⁻¹ * ·))) := by
      intro x hx
      apply ih
      · simp
      · simp [hal, har]
      · rw [mexp_foldP _ _ _ _ (by simp [hal, har]) hg, mexp_zip_add _ _ _ (by simp [hal, har]),
          mexp_zip_add _ _ _ (by simp [hal, har]), mexp_map_mul, mexp_map_mul, hQ, hpq, mexp_append_left, hal]
        have : x • x⁻¹ • mexp q (gs.drop (2 ^ m)) = mexp q (gs.drop (2 ^ m)) := by
          rw [smul_smul, mul_inv_cancel₀ hx, one_smul]
        rw [smul_add, this]
        abel
    obtain ⟨t₁, g1, z1, e1⟩ := step y₁ h1
    obtain ⟨t₂, g2, z2, e2⟩ := step y₂ h2
    obtain ⟨t₃, g3, z3, e3⟩ := step y₃ h3
    refine ⟨.node (mexp p (gs.drop (2 ^ m))) (mexp q (gs.take (2 ^ m))) y₁ y₂ y₃ t₁ t₂ t₃,
      ⟨m, rfl, h12, h13, h23, h1, h2, h3, g1, g2, g3⟩, ⟨z1, z2, z3⟩, ?_⟩
    obtain ⟨w0, w1, w2⟩ := weights h12 h13 h23 h1 h2 h3
    simp only [LinTree.extract, e1, e2, e3]
    have hi : ∀ w x : F, x ≠ 0 → w * x * x⁻¹ = w := fun w x hx => by rw [mul_assoc, mul_inv_cancel₀ hx, mul_one]
    rw [comb3_honest _ _ _ _ _ _ _ _ (hal.trans har.symm), comb3_honest _ _ _ _ _ _ _ _ (hal.trans har.symm),
      w0, w1, w2, hi _ _ h1, hi _ _ h2, hi _ _ h3, w0, zipWith_one_zero _ _ (hal.trans har.symm),
      zipWith_zero_one _ _ (hal.trans har.symm), ← add_mul, ← add_mul, w0, one_mul, ← hpq]

variable [DecidableEq F] [DecidableEq G]

theorem linTree_accepted {base : G} {gs : List G} {bs : List F} {eq : F} {off : Option (List F)} {C Fg : G}
    (hn1 : 1 ≤ gs.length) (hn2 : gs.length ≤ 2 ^ 63)
    (hb : bs.length = gs.length) (ho : ∀ o, off = some o → o.length = gs.length) (t : LinTree F G) :
    ∀ (Ls Rs : List G) (xs : List F) (m : ℕ), Ls.length = xs.length → Rs.length = xs.length →
      log2roundUp gs.length = xs.length + m → 0 ∉ xs → LeavesNz t →
        LinGood base t m (C + eq • Fg - mexp (off.getD []) gs + mexp xs Ls + mexp (xs.map (·⁻¹)) Rs)
          (foldPre (log2roundUp gs.length) xs (hat Fg gs bs)) →
      t.Accepted base gs bs eq off C Fg Ls Rs xs := by
  induction t with
  | leaf S x₁ a₁ r₁ x₂ a₂ r₂ =>
    rintro Ls Rs xs m hL hR hm hz ⟨n1, n2⟩ ⟨rfl, hx, e1, e2⟩
    rw [Nat.add_zero] at hm
    have hhl : (hat Fg gs bs).length = gs.length := by simp [hat, hb]
    have hle : gs.length ≤ 2 ^ xs.length := by rw [← hm]; exact (level_log hn1 hn2).le
    have conv : ∀ x a r : F, S + x • (C + eq • Fg - mexp (off.getD []) gs + mexp xs Ls + mexp (xs.map (·⁻¹)) Rs)
        = r • base + a • mexp [(1 : F)] (foldPre (log2roundUp gs.length) xs (hat Fg gs bs)) →
        S + x • (C + eq • Fg + mexp xs Ls + mexp (xs.map (·⁻¹)) Rs) =
          r • base + (a * foldedSum xs bs) • Fg + (a • foldedSum xs gs + x • mexp (off.getD []) gs) := by
      intro x a r h
      rw [hm, foldPre_all, foldAll_singleton _ _ (by omega) (by omega), mexp_cons, mexp_nil_left, add_zero, one_smul,
        foldedSum_eq _ _ (by omega), mexp_hat _ _ _ _ hb.symm] at h
      rw [foldedSum_eq _ _ (by omega), foldedSum_eq _ _ (by omega), ← dot_eq_mexp]
      generalize dot (spL xs) bs = u at h ⊢
      generalize mexp (spL xs) gs = v at h ⊢
      linear_combination (norm := module) h
    exact ⟨hx, linAccepted_of hn1 hn2 hb ho hm.symm hL hR hz n1 (conv _ _ _ e1),
      linAccepted_of hn1 hn2 hb ho hm.symm hL hR hz n2 (conv _ _ _ e2)⟩
  | node L R x₁ x₂ x₃ t₁ t₂ t₃ ih₁ ih₂ ih₃ =>
    rintro Ls Rs xs k hL hR hk hz ⟨n1, n2, n3⟩ ⟨m, rfl, h12, h13, h23, c1, c2, c3, g1, g2, g3⟩
    have hk' : log2roundUp gs.length - 1 - xs.length = m := by omega
    have step : ∀ (x : F) (t : LinTree F G), LinGood base t m
          (C + eq • Fg - mexp (off.getD []) gs + mexp xs Ls + mexp (xs.map (·⁻¹)) Rs + x • L + x⁻¹ • R)
          (foldP (2 ^ m) x (foldPre (log2roundUp gs.length) xs (hat Fg gs bs))) →
        LinGood base t m (C + eq • Fg - mexp (off.getD []) gs + mexp (xs ++ [x]) (Ls ++ [L])
            + mexp ((xs ++ [x]).map (·⁻¹)) (Rs ++ [R]))
          (foldPre (log2roundUp gs.length) (xs ++ [x]) (hat Fg gs bs)) := by
      intro x t g
      rw [foldPre_append _ _ _ _ (by omega), hk', List.map_append, mexp_append hL.symm,
          mexp_append (by simp [hR])]
      convert g using 1
      simp
      module
    refine ⟨h12, h13, h23, ih₁ _ _ _ m (by simp [hL]) (by simp [hR]) (by simp; omega) ?_ n1 (step _ _ g1),
      ih₂ _ _ _ m (by simp [hL]) (by simp [hR]) (by simp; omega) ?_ n2 (step _ _ g2),
      ih₃ _ _ _ m (by simp [hL]) (by simp [hR]) (by simp; omega) ?_ n3 (step _ _ g3)⟩
    all_goals
      simp only [List.mem_append, List.mem_singleton, not_or]
      exact ⟨hz, Ne.symm (by assumption)⟩

end
end Verif
