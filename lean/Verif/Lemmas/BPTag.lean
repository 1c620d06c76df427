/- Flat statements and the norm shift. -/
import Verif.Lemmas.BPComplete

namespace Verif
open Spec

section
variable {F G : Type} [Field F] [AddCommGroup G] [Module F G] [DecidableEq F] [DecidableEq G]

theorem flatLinLoop_none (E : Env F G) (tag : Bytes) (terms xes : PtxtVec F) :
    flatLinLoop E tag false terms xes =
      .ok (terms.map (fun e => E.getG tag e.1), terms.map (·.2), []) := by
  induction terms with
  | nil => simp [flatLinLoop]
  | cons t terms ih => obtain ⟨i, b⟩ := t; simp [flatLinLoop, ih]

theorem flatLinLoop_same (E : Env F G) (tag : Bytes) (terms xes : PtxtVec F)
    (hk : xes.map (·.1) = terms.map (·.1)) :
    flatLinLoop E tag true terms xes =
      .ok (terms.map (fun e => E.getG tag e.1), terms.map (·.2), xes.map (·.2)) := by
  induction terms generalizing xes with
  | nil =>
    have : xes = [] := by simpa using hk
    subst this; simp [flatLinLoop]
  | cons t terms ih =>
    obtain ⟨i, b⟩ := t
    match xes, hk with
    | (k, x) :: xes, hk =>
      simp at hk
      simp [flatLinLoop, hk.1, ih xes hk.2]

theorem flatLinLoop_diff (E : Env F G) (tag : Bytes) (terms xes : PtxtVec F)
    (hl : xes.length = terms.length) (hk : xes.map (·.1) ≠ terms.map (·.1)) :
    flatLinLoop E tag true terms xes = .throw := by
  induction terms generalizing xes with
  | nil => simp at hl; subst hl; simp at hk
  | cons t terms ih =>
    obtain ⟨i, b⟩ := t
    match xes, hl with
    | (k, x) :: xes, hl =>
      simp at hl hk
      by_cases h : k = i
      · simp [flatLinLoop, h, ih xes hl (hk h)]
      · simp [flatLinLoop, h]

theorem mkFlatLin_verifier (E : Env F G) (tag : Bytes) (c : LinConstraint F) (h1 : 1 ≤ c.terms.length)
    (h2 : c.terms.length ≤ 2 ^ 20) :
    mkFlatLin E tag c [] =
      .ok ⟨c.terms.map (fun e => E.getG tag e.1), c.terms.map (·.2), c.equalsTo, []⟩ := by
  unfold mkFlatLin
  simp only [List.length_nil]
  rw [if_neg (by omega), if_neg (by omega)]
  simp [flatLinLoop_none]

theorem mkFlatLin_prover (E : Env F G) (tag : Bytes) (c : LinConstraint F) (xes : PtxtVec F)
    (h1 : 1 ≤ c.terms.length) (h2 : c.terms.length ≤ 2 ^ 20) (hk : xes.map (·.1) = c.terms.map (·.1)) :
    mkFlatLin E tag c xes =
      .ok ⟨c.terms.map (fun e => E.getG tag e.1), c.terms.map (·.2), c.equalsTo, xes.map (·.2)⟩ := by
  have hl : xes.length = c.terms.length := by simpa using congrArg List.length hk
  unfold mkFlatLin
  simp only
  rw [if_neg (by omega), if_neg (by omega)]
  have : decide (xes.length > 0) = true := by simp; omega
  rw [this, flatLinLoop_same E tag c.terms xes hk]
  rfl

theorem mkFlatLin_mismatch (E : Env F G) (tag : Bytes) (c : LinConstraint F) (xes : PtxtVec F)
    (h0 : xes ≠ []) (hk : xes.map (·.1) ≠ c.terms.map (·.1)) :
    mkFlatLin E tag c xes = .throw := by
  have hx : 0 < xes.length := List.length_pos_iff.2 h0
  unfold mkFlatLin
  simp only
  by_cases h1 : c.terms.length < 1 ∨ c.terms.length > 2 ^ 20
  · rw [if_pos h1]
  · rw [if_neg h1]
    by_cases h2 : xes.length = c.terms.length
    · rw [if_neg (by omega)]
      have : decide (xes.length > 0) = true := by rw [decide_eq_true_eq]; exact hx
      rw [this, flatLinLoop_diff E tag c.terms xes h2 hk]
      rfl
    · rw [if_pos ⟨hx, h2⟩]

theorem flatQuadLoop_none (E : Env F G) (tag : Bytes) (idx : List Nat) (xes ys : PtxtVec F) :
    flatQuadLoop E tag false idx xes ys = .ok (idx.map (E.getG tag), idx.map (E.getH tag), [], []) := by
  induction idx with
  | nil => simp [flatQuadLoop]
  | cons i idx ih => simp [flatQuadLoop, ih]

theorem flatQuadLoop_same (E : Env F G) (tag : Bytes) (idx : List Nat) (xes ys : PtxtVec F)
    (hx : xes.map (·.1) = idx) (hy : ys.map (·.1) = idx) :
    flatQuadLoop E tag true idx xes ys =
      .ok (idx.map (E.getG tag), idx.map (E.getH tag), xes.map (·.2), ys.map (·.2)) := by
  induction idx generalizing xes ys with
  | nil =>
    have : xes = [] := by simpa using hx
    have : ys = [] := by simpa using hy
    subst_vars; simp [flatQuadLoop]
  | cons i idx ih =>
    match xes, hx, ys, hy with
    | (k, x) :: xes, hx, (k', y) :: ys, hy =>
      simp at hx hy
      simp [flatQuadLoop, hx.1, hy.1, ih xes ys hx.2 hy.2]

theorem flatQuadLoop_diff (E : Env F G) (tag : Bytes) (idx : List Nat) (xes ys : PtxtVec F)
    (hlx : xes.length = idx.length) (hly : ys.length = idx.length)
    (hk : xes.map (·.1) ≠ idx ∨ ys.map (·.1) ≠ idx) :
    flatQuadLoop E tag true idx xes ys = .throw := by
  induction idx generalizing xes ys with
  | nil => simp at hlx hly; subst hlx hly; simp at hk
  | cons i idx ih =>
    match xes, hlx, ys, hly with
    | (k, x) :: xes, hlx, (k', y) :: ys, hly =>
      simp at hlx hly hk
      by_cases h : k ≠ i ∨ k' ≠ i
      · simp only [flatQuadLoop]; rw [if_pos trivial, if_pos h]
      · push_neg at h
        simp only [flatQuadLoop]
        rw [if_pos trivial, if_neg (by simp [h.1, h.2]), ih xes ys hlx hly]
        · rfl
        · rcases hk with hk | hk
          · exact Or.inl (hk h.1)
          · exact Or.inr (hk h.2)

theorem mkFlatQuad_verifier (E : Env F G) (tag : Bytes) (c : QuadConstraint F) (h1 : 1 ≤ c.indexes.length)
    (h2 : c.indexes.length ≤ 2 ^ 20) :
    mkFlatQuad E tag c [] [] =
      .ok ⟨c.indexes.map (E.getG tag), c.indexes.map (E.getH tag), c.equalsTo, [], []⟩ := by
  unfold mkFlatQuad
  simp only [List.length_nil]
  rw [if_neg (by omega), if_neg (by omega)]
  simp [flatQuadLoop_none]

theorem mkFlatQuad_prover (E : Env F G) (tag : Bytes) (c : QuadConstraint F) (xes ys : PtxtVec F)
    (h1 : 1 ≤ c.indexes.length) (h2 : c.indexes.length ≤ 2 ^ 20) (hx : xes.map (·.1) = c.indexes)
    (hy : ys.map (·.1) = c.indexes) :
    mkFlatQuad E tag c xes ys =
      .ok ⟨c.indexes.map (E.getG tag), c.indexes.map (E.getH tag), c.equalsTo, xes.map (·.2), ys.map (·.2)⟩ := by
  have hlx : xes.length = c.indexes.length := by simpa using congrArg List.length hx
  have hly : ys.length = c.indexes.length := by simpa using congrArg List.length hy
  unfold mkFlatQuad
  simp only
  rw [if_neg (by omega), if_neg (by omega)]
  have : decide (xes.length > 0) = true := by simp; omega
  rw [this, flatQuadLoop_same E tag c.indexes xes ys hx hy]
  rfl

theorem mkFlatQuad_mismatch (E : Env F G) (tag : Bytes) (c : QuadConstraint F) (xes ys : PtxtVec F)
    (h0 : xes ≠ [] ∨ ys ≠ []) (hk : xes.map (·.1) ≠ c.indexes ∨ ys.map (·.1) ≠ c.indexes) :
    mkFlatQuad E tag c xes ys = .throw := by
  have hx : 0 < xes.length ∨ 0 < ys.length := by
    rcases h0 with h | h
    · exact Or.inl (List.length_pos_iff.2 h)
    · exact Or.inr (List.length_pos_iff.2 h)
  unfold mkFlatQuad
  simp only
  by_cases h1 : c.indexes.length < 1 ∨ c.indexes.length > 2 ^ 20
  · rw [if_pos h1]
  · rw [if_neg h1]
    by_cases h2 : ys.length ≠ xes.length ∨ xes.length > 0 ∧ xes.length ≠ c.indexes.length
    · rw [if_pos h2]
    · rw [if_neg h2]
      have : decide (xes.length > 0) = true := by rw [decide_eq_true_eq]; omega
      rw [this, flatQuadLoop_diff E tag c.indexes xes ys (by omega) (by omega) hk]
      rfl

theorem normConstraint_eq (vec : PtxtVec F) :
    normConstraint vec = ⟨vec.map (·.1), dot (vec.map (·.2)) (vec.map (·.2))⟩ := by
  have key : ∀ (l : PtxtVec F) (c : QuadConstraint F),
      l.foldl (fun c e => (⟨c.indexes ++ [e.1], c.equalsTo + e.2 * e.2⟩ : QuadConstraint F)) c =
        ⟨c.indexes ++ l.map (·.1), c.equalsTo + dot (l.map (·.2)) (l.map (·.2))⟩ := by
    intro l
    induction l with
    | nil => intro c; simp
    | cons e l ih => intro c; simp [ih, add_assoc]
  unfold normConstraint
  rw [key]; simp

theorem normShift_length (x : F) : ∀ (l : List F) (x2i eq : F),
    (normShift x x2i eq l l).1.length = l.length ∧ (normShift x x2i eq l l).2.1.length = l.length := by
  intro l
  induction l with
  | nil => intro x2i eq; simp [normShift]
  | cons a l ih => intro x2i eq; simp [normShift, (ih _ _).1, (ih _ _).2]

omit [DecidableEq F] in
theorem normShiftVer_eq (x2 : F) : ∀ (k : Nat) (y eq : F),
    normShiftVer x2 k y eq = eq - ((List.range k).map fun i => y * x2 ^ i).sum := by
  intro k
  induction k with
  | zero => intro y eq; simp [normShiftVer]
  | succ k ih =>
    intro y eq
    rw [normShiftVer, ih, List.range_succ_eq_map]
    simp only [List.map_cons, List.map_map, List.sum_cons, pow_zero, mul_one, sub_sub]
    congr 3
    apply List.map_congr_left
    intro i _
    simp only [Function.comp, pow_succ]
    ring

theorem normShift_wit (x : F) : ∀ (l : List F) (x2i eq : F),
    (normShift x x2i eq l l).1 = (List.range l.length).map (fun i => l.getD i 0 + x2i * x ^ i) ∧
    (normShift x x2i eq l l).2.1 = (List.range l.length).map (fun i => l.getD i 0 - x2i * x ^ i) := by
  intro l
  induction l with
  | nil => intro x2i eq; simp [normShift]
  | cons a l ih =>
    intro x2i eq
    simp only [normShift, (ih _ _).1, (ih _ _).2, List.length_cons, List.range_succ_eq_map, List.map_cons,
      List.map_map, List.getD_cons_zero, pow_zero, mul_one]
    refine ⟨congrArg (List.cons _) (List.map_congr_left fun i _ => ?_),
      congrArg (List.cons _) (List.map_congr_left fun i _ => ?_)⟩ <;>
    · simp only [Function.comp, List.getD_cons_succ, pow_succ]
      ring

theorem normShift_dot (x : F) : ∀ (l : List F) (x2i eq : F),
    eq - dot l l = (normShift x x2i eq l l).2.2 - dot (normShift x x2i eq l l).1 (normShift x x2i eq l l).2.1 := by
  intro l
  induction l with
  | nil => intro x2i eq; simp [normShift]
  | cons a l ih =>
    intro x2i eq
    simp only [normShift, dot_cons]
    have := ih (x2i * x) (eq - x2i * x2i)
    linear_combination this

theorem normShift_ver (x : F) : ∀ (l : List F) (x2i eq : F),
    (normShift x x2i eq l l).2.2 = normShiftVer (x * x) l.length (x2i * x2i) eq := by
  intro l
  induction l with
  | nil => intro x2i eq; simp [normShift, normShiftVer]
  | cons a l ih =>
    intro x2i eq
    simp only [normShift, List.length_cons, normShiftVer]
    rw [ih]
    congr 1
    ring

end

end Verif
