/- Algebra of `mexp`, `dot` and the folding operations. -/
import Mathlib.Algebra.BigOperators.Group.List.Lemmas
import Mathlib.Algebra.Module.BigOperators
import Mathlib.Tactic.Module
import Mathlib.Tactic.Ring
import Mathlib.Tactic.LinearCombination
import Verif.Spec.Vec
import Verif.Lemmas.Pow2

namespace Verif
open Spec

section
variable {F G : Type} [Field F] [AddCommGroup G] [Module F G]

@[simp] theorem mexp_nil_left (gs : List G) : mexp ([] : List F) gs = 0 := by simp [mexp]
@[simp] theorem mexp_nil_right (xs : List F) : mexp xs ([] : List G) = 0 := by simp [mexp]
@[simp] theorem mexp_cons (x : F) (xs : List F) (g : G) (gs : List G) :
    mexp (x :: xs) (g :: gs) = x • g + mexp xs gs := by simp [mexp]

theorem dot_eq_mexp (as bs : List F) : dot as bs = mexp as bs := by simp [dot, mexp]

@[simp] theorem dot_nil_left (bs : List F) : dot ([] : List F) bs = 0 := by simp [dot]
@[simp] theorem dot_nil_right (bs : List F) : dot bs ([] : List F) = 0 := by simp [dot]
@[simp] theorem dot_cons (x : F) (xs : List F) (g : F) (gs : List F) :
    dot (x :: xs) (g :: gs) = x * g + dot xs gs := by simp [dot]

theorem dot_comm (as bs : List F) : dot as bs = dot bs as := by
  induction as generalizing bs with
  | nil => simp
  | cons a as ih => cases bs with
    | nil => simp
    | cons b bs => simp [ih bs, mul_comm]

@[simp] theorem length_addInto {α : Type} [Add α] (p q : List α) : (addInto p q).length = p.length := by
  induction p generalizing q with
  | nil => cases q <;> simp [addInto]
  | cons a p ih => cases q with
    | nil => simp [addInto]
    | cons b q => simp [addInto, ih]

@[simp] theorem addInto_nil {α : Type} [Add α] (p : List α) : addInto p [] = p := by
  cases p <;> simp [addInto]
@[simp] theorem nil_addInto {α : Type} [Add α] (p : List α) : addInto [] p = [] := by
  cases p <;> simp [addInto]
@[simp] theorem addInto_cons {α : Type} [Add α] (a b : α) (p q : List α) :
    addInto (a :: p) (b :: q) = (a + b) :: addInto p q := rfl

theorem addInto_eq_zipWith {α : Type} [Add α] (p q : List α) (h : q.length = p.length) :
    addInto p q = List.zipWith (· + ·) p q := by
  induction p generalizing q with
  | nil => cases q <;> simp
  | cons a p ih => cases q with
    | nil => simp at h
    | cons b q => simp at h ⊢; exact ih q h

theorem take_addInto {α : Type} [Add α] (p q : List α) (k : Nat) :
    (addInto p q).take k = addInto (p.take k) q := by
  induction p generalizing q k with
  | nil => simp
  | cons a p ih => cases q with
    | nil => simp
    | cons b q => cases k with
      | zero => simp
      | succ k => simp [ih]

theorem addInto_take {α : Type} [Add α] (p q : List α) (k : Nat) (hk : p.length ≤ k) :
    addInto p (q.take k) = addInto p q := by
  induction p generalizing q k with
  | nil => simp
  | cons a p ih => cases q with
    | nil => simp
    | cons b q => cases k with
      | zero => simp at hk
      | succ k => simp at hk ⊢; exact ih _ _ hk

theorem addInto_append {α : Type} [Add α] (p q r : List α) (h : r.length ≤ p.length) :
    addInto (p ++ q) r = addInto p r ++ q := by
  induction p generalizing r with
  | nil => cases r with
    | nil => simp
    | cons b r => simp at h
  | cons a p ih => cases r with
    | nil => simp
    | cons b r => simp at h ⊢; exact ih r h

theorem multiExpAcc_eq (c : G) (gs : List G) (xs : List F) : multiExpAcc c gs xs = c + mexp xs gs := by
  induction gs generalizing c xs with
  | nil => cases xs <;> simp [multiExpAcc]
  | cons g gs ih => cases xs with
    | nil => simp [multiExpAcc]
    | cons x xs => simp [multiExpAcc, ih, add_assoc]

theorem innerProductAcc_eq (c : F) (as bs : List F) : innerProductAcc c as bs = c + dot as bs := by
  induction as generalizing c bs with
  | nil => cases bs <;> simp [innerProductAcc]
  | cons g gs ih => cases bs with
    | nil => simp [innerProductAcc]
    | cons x xs => simp [innerProductAcc, ih, add_assoc]

theorem multiExp_ok {gs : List G} {n : Nat} {xs : List F} (h1 : n ≤ gs.length) (h2 : n ≤ xs.length) :
    multiExp gs n xs = .ok (mexp (xs.take n) (gs.take n)) := by
  simp [multiExp, rdN_ok h1, rdN_ok h2, multiExpAcc_eq]

theorem innerProduct_ok {a b : List F} {n : Nat} (h1 : n ≤ a.length) (h2 : n ≤ b.length) :
    innerProduct a b n = .ok (dot (a.take n) (b.take n)) := by
  simp [innerProduct, rdN_ok h1, rdN_ok h2, innerProductAcc_eq]

theorem mexp_append {xs xs' : List F} {gs gs' : List G} (h : xs.length = gs.length) :
    mexp (xs ++ xs') (gs ++ gs') = mexp xs gs + mexp xs' gs' := by
  induction xs generalizing gs with
  | nil =>
    have : gs = [] := by simpa using h.symm
    subst this; simp
  | cons x xs ih => cases gs with
    | nil => simp at h
    | cons g gs => simp at h; simp [ih h, add_assoc]

theorem mexp_addInto_left {p q : List F} (gs : List G) (h : q.length ≤ p.length) :
    mexp (addInto p q) gs = mexp p gs + mexp q gs := by
  induction p generalizing q gs with
  | nil =>
    have : q = [] := by simpa using h
    subst this; simp
  | cons a p ih => cases q with
    | nil => simp
    | cons b q => cases gs with
      | nil => simp
      | cons g gs =>
        simp at h
        simp [ih gs h]
        module

theorem mexp_addInto_right {p q : List G} (xs : List F) (h : q.length ≤ p.length) :
    mexp xs (addInto p q) = mexp xs p + mexp xs q := by
  induction p generalizing q xs with
  | nil =>
    have : q = [] := by simpa using h
    subst this; simp
  | cons a p ih => cases q with
    | nil => simp
    | cons b q => cases xs with
      | nil => simp
      | cons g gs =>
        simp at h
        simp [ih gs h]
        module

theorem mexp_smul_left (c : F) (xs : List F) (gs : List G) :
    mexp (xs.map (fun x => x * c)) gs = c • mexp xs gs := by
  induction xs generalizing gs with
  | nil => simp
  | cons x xs ih => cases gs with
    | nil => simp
    | cons g gs => rw [List.map_cons, mexp_cons, mexp_cons, ih, smul_add, smul_smul, mul_comm x c]

theorem mexp_smul_right (c : F) (xs : List F) (gs : List G) :
    mexp xs (gs.map (fun g => c • g)) = c • mexp xs gs := by
  induction xs generalizing gs with
  | nil => simp
  | cons x xs ih => cases gs with
    | nil => simp
    | cons g gs => simp [ih, smul_smul, mul_comm]

theorem dot_addInto_left {p q : List F} (gs : List F) (h : q.length ≤ p.length) :
    dot (addInto p q) gs = dot p gs + dot q gs := by
  simp only [dot_eq_mexp]; exact mexp_addInto_left gs h

theorem dot_addInto_right {p q : List F} (gs : List F) (h : q.length ≤ p.length) :
    dot gs (addInto p q) = dot gs p + dot gs q := by
  simp only [dot_eq_mexp]; exact mexp_addInto_right gs h

theorem dot_smul_left (c : F) (xs : List F) (gs : List F) :
    dot (xs.map (fun x => x * c)) gs = c * dot xs gs := by
  simp only [dot_eq_mexp]; exact mexp_smul_left c xs gs

theorem dot_smul_right (c : F) (xs : List F) (gs : List F) :
    dot xs (gs.map (fun x => x * c)) = c * dot xs gs := by
  rw [dot_comm, dot_smul_left, dot_comm]

theorem dot_append {xs xs' gs gs' : List F} (h : xs.length = gs.length) :
    dot (xs ++ xs') (gs ++ gs') = dot xs gs + dot xs' gs' := by
  simp only [dot_eq_mexp]; exact mexp_append h

/-- Cutting the longer vector does not change the sum. -/
theorem mexp_take_left (xs : List F) (gs : List G) (k : Nat) (h : gs.length ≤ k) :
    mexp (xs.take k) gs = mexp xs gs := by
  induction gs generalizing xs k with
  | nil => simp
  | cons g gs ih => cases xs with
    | nil => simp
    | cons x xs => cases k with
      | zero => simp at h
      | succ k => simp at h; simp [ih xs k h]

theorem mexp_take_right (xs : List F) (gs : List G) (k : Nat) (h : xs.length ≤ k) :
    mexp xs (gs.take k) = mexp xs gs := by
  induction xs generalizing gs k with
  | nil => simp
  | cons g xs ih => cases gs with
    | nil => simp
    | cons x gs => cases k with
      | zero => simp at h
      | succ k => simp at h; simp [ih gs k h]

theorem dot_take_left (xs gs : List F) (k : Nat) (h : gs.length ≤ k) :
    dot (xs.take k) gs = dot xs gs := by
  simp only [dot_eq_mexp]; exact mexp_take_left xs gs k h

theorem dot_take_right (xs gs : List F) (k : Nat) (h : xs.length ≤ k) :
    dot xs (gs.take k) = dot xs gs := by
  simp only [dot_eq_mexp]; exact mexp_take_right xs gs k h

theorem getElem?_addInto {α : Type} [Add α] (p q : List α) (i : Nat) :
    (addInto p q)[i]? = match p[i]?, q[i]? with
      | some a, some b => some (a + b)
      | o, _ => o := by
  induction p generalizing q i with
  | nil => simp
  | cons a p ih => cases q with
    | nil => simp
    | cons b q => cases i with
      | zero => simp
      | succ i => simp [ih]

theorem getElem_addInto {α : Type} [Add α] (p q : List α) (i : Nat) (h1 : i < p.length) (h2 : i < q.length) :
    (addInto p q)[i]'(by simpa using h1) = p[i] + q[i] := by
  have := getElem?_addInto p q i
  rw [List.getElem?_eq_getElem h1, List.getElem?_eq_getElem h2,
    List.getElem?_eq_getElem (by simpa using h1)] at this
  simpa using this

/-! ### Folding -/

/-- First half plus `c` times second half. -/
def foldS (h : Nat) (c : F) (l : List F) : List F :=
  addInto (l.take h) ((l.drop h).map (fun a => a * c))

/-- First half plus `c` times second half, for points. -/
def foldP (h : Nat) (c : F) (l : List G) : List G :=
  addInto (l.take h) ((l.drop h).map (fun g => c • g))

theorem foldS_eq_foldP (h : Nat) (c : F) (l : List F) : foldS h c l = foldP h c l := by
  simp [foldS, foldP, mul_comm]

@[simp] theorem length_foldP (h : Nat) (c : F) (l : List G) : (foldP h c l).length = min h l.length := by
  simp [foldP]
@[simp] theorem length_foldS (h : Nat) (c : F) (l : List F) : (foldS h c l).length = min h l.length := by
  simp [foldS]

theorem getElem?_foldP (h : Nat) (c : F) (l : List G) (j : Nat) (hj : j < h) (h1 : h ≤ l.length)
    (_h2 : l.length ≤ h + h) :
    (foldP h c l)[j]? = if j + h < l.length then (do let a ← l[j]?; let b ← l[j + h]?; some (a + c • b))
      else l[j]? := by
  unfold foldP
  rw [getElem?_addInto, List.getElem?_take, if_pos hj, List.getElem?_map, List.getElem?_drop,
    List.getElem?_eq_getElem (by omega : j < l.length)]
  by_cases hlt : j + h < l.length
  · rw [if_pos hlt, add_comm h j, List.getElem?_eq_getElem hlt]
    rfl
  · rw [if_neg hlt, add_comm h j, List.getElem?_eq_none (by omega)]
    rfl

theorem mexp_split (xs : List F) (gs : List G) (h : Nat) (hl : xs.length = gs.length) :
    mexp xs gs = mexp (xs.take h) (gs.take h) + mexp (xs.drop h) (gs.drop h) := by
  conv_lhs => rw [← List.take_append_drop h xs, ← List.take_append_drop h gs]
  rw [mexp_append]
  simp [hl]

/-- The bilinear identity behind one folding level. -/
theorem mexp_fold {xs : List F} {gs : List G} {h : Nat} {x y : F} (hxy : x * y = 1)
    (hl : xs.length = gs.length) (h1 : xs.length ≤ h + h) :
    mexp (foldS h y xs) (foldP h x gs) =
      mexp xs gs + x • mexp (xs.take h) (gs.drop h) + y • mexp (xs.drop h) (gs.take h) := by
  unfold foldS foldP
  rw [mexp_addInto_left, mexp_addInto_right, mexp_addInto_right, mexp_smul_left, mexp_smul_left,
    mexp_smul_right, mexp_smul_right, smul_smul, mul_comm y x, hxy, one_smul, mexp_split xs gs h hl]
  · module
  · simp; omega
  · simp; omega
  · simp; omega

theorem dot_fold {xs gs : List F} {h : Nat} {x y : F} (hxy : x * y = 1)
    (hl : xs.length = gs.length) (h1 : xs.length ≤ h + h) :
    dot (foldS h y xs) (foldS h x gs) =
      dot xs gs + x * dot (xs.take h) (gs.drop h) + y * dot (xs.drop h) (gs.take h) := by
  rw [foldS_eq_foldP h x gs]
  simp only [dot_eq_mexp]
  have := mexp_fold (G := F) hxy hl h1
  simpa using this

theorem foldGenerators_ok {gs : List G} {n : Nat} {x : F} {h : Nat} (h1 : n = gs.length) (h2 : h ≤ n)
    (h3 : n ≤ h + h) :
    ∃ l, foldGenerators gs n x h = .ok l ∧ l.take h = foldP h x gs ∧ l.length = n := by
  subst h1
  refine ⟨addInto (gs.take h ++ multiBaseOneExp (gs.drop h) x)
    ((gs.take h ++ multiBaseOneExp (gs.drop h) x).drop h), ?_, ?_, ?_⟩
  · simp only [foldGenerators, rdN_ok (le_refl _), Res.ok_bind, List.take_length]
    rw [if_neg (by omega)]
  · rw [take_addInto]
    simp [foldP, multiBaseOneExp, List.take_append, List.drop_append, h2]
  · simp [multiBaseOneExp]; omega

/-! ### Subset products -/

/-- All subset products of a basis, in the order of the binary expansion of the index. -/
def spL : List F → List F
  | [] => [1]
  | x :: xs => spL xs ++ (spL xs).map (fun z => z * x)

@[simp] theorem length_spL (xs : List F) : (spL xs).length = 2 ^ xs.length := by
  induction xs with
  | nil => simp [spL]
  | cons x xs ih => simp [spL, ih, pow_succ]; ring

theorem spL_ne_nil (xs : List F) : ∃ t, spL xs = 1 :: t := by
  induction xs with
  | nil => exact ⟨[], rfl⟩
  | cons x xs ih =>
    obtain ⟨t, ht⟩ := ih
    exact ⟨t ++ (spL xs).map (fun z => z * x), by simp [spL, ht]⟩

/-- A prefix of the subset products does not depend on the leading basis elements. -/
theorem spL_take_drop (xs : List F) (k m : Nat) (hk : k ≤ xs.length) (hm : m ≤ 2 ^ (xs.length - k)) :
    (spL xs).take m = (spL (xs.drop k)).take m := by
  induction xs generalizing k with
  | nil => simp
  | cons x xs ih => cases k with
    | zero => simp
    | succ k =>
      simp at hk hm
      rw [List.drop_succ_cons, ← ih k hk hm]
      simp only [spL]
      rw [List.take_append_of_le_length]
      rw [length_spL]
      exact le_trans hm (Nat.pow_le_pow_right (by omega) (by omega))

theorem subsetProdRecurse_eq (basis : List F) (basisLen : Nat) (hb : basisLen ≤ basis.length) :
    ∀ (n : Nat) (vec : List F) (k : Nat), vec.length = n → n ≤ 2 ^ 63 → n ≤ 2 ^ k → k ≤ basisLen →
      subsetProdRecurse vec basis basisLen =
        .ok (List.zipWith (· * ·) vec (spL ((basis.take basisLen).drop (basisLen - k)))) := by
  intro n
  induction n using Nat.strong_induction_on with
  | _ n ih =>
    intro vec k hn h63 hk hkb
    unfold subsetProdRecurse
    by_cases h1 : vec.length ≤ 1
    · rw [dif_pos h1]
      obtain ⟨t, ht⟩ := spL_ne_nil ((basis.take basisLen).drop (basisLen - k))
      rw [ht]
      match vec, h1 with
      | [], _ => simp
      | [v], _ => simp
    · rw [dif_neg h1]
      have hhalf := log2roundUp_half_lt (n := vec.length) (by omega)
      have hl63 := log2roundUp_le (n := vec.length) (by omega)
      have hlk : log2roundUp vec.length ≤ k := (log2roundUp_le_iff (by omega)).mpr (by omega)
      generalize hlog : log2roundUp vec.length = logn at *
      simp only
      rw [if_neg (by omega)]
      rw [rd_ok (by omega)]
      simp only [Res.ok_bind]
      have hpow : 2 ^ logn = 2 ^ (logn - 1) + 2 ^ (logn - 1) := by
        obtain ⟨m, hm⟩ : ∃ m, logn = m + 1 := ⟨logn - 1, by omega⟩
        subst hm; simp [pow_succ]; ring
      rw [ih (n - 2 ^ (logn - 1)) (by have := Nat.two_pow_pos (logn - 1); omega) _ (logn - 1) (by simp [hn])
        (by omega) (by omega) (by omega)]
      rw [ih (2 ^ (logn - 1)) (by omega) _ (logn - 1) (by simp; omega)
        (by omega) (by omega) (by omega)]
      simp only [Res.ok_bind, Res.ok.injEq]
      -- reduce k to logn
      have hred : List.zipWith (· * ·) vec (spL ((basis.take basisLen).drop (basisLen - k))) =
          List.zipWith (· * ·) vec (spL ((basis.take basisLen).drop (basisLen - logn))) := by
        have h := spL_take_drop ((basis.take basisLen).drop (basisLen - k)) (k - logn) (2 ^ logn)
          (by simp; omega) (Nat.pow_le_pow_right (by omega) (by simp; omega))
        rw [List.drop_drop, show basisLen - k + (k - logn) = basisLen - logn by omega] at h
        have h2 : ∀ l : List F, List.zipWith (· * ·) vec l = List.zipWith (· * ·) vec (l.take (2 ^ logn)) := by
          intro l
          conv_lhs => rw [← List.take_append_drop (2 ^ logn) l]
          apply List.ext_getElem
          · simp; omega
          · intro i h1 h2
            have : i < (List.take (2 ^ logn) l).length := by
              simp at h1 h2 ⊢; omega
            simp
        rw [h2, h, ← h2]
      rw [hred]
      have hsplit : (basis.take basisLen).drop (basisLen - logn) =
          basis[basisLen - logn]'(by omega) :: (basis.take basisLen).drop (basisLen - (logn - 1)) := by
        rw [List.drop_eq_getElem_cons (by simp; omega)]
        simp
        congr 2; omega
      rw [hsplit]
      simp only [spL]
      have hvs : vec = vec.take (2 ^ (logn - 1)) ++ vec.drop (2 ^ (logn - 1)) :=
        (List.take_append_drop _ _).symm
      rw [show List.zipWith (· * ·) vec = List.zipWith (· * ·) (vec.take (2 ^ (logn - 1)) ++ vec.drop (2 ^ (logn - 1)))
        from by rw [← hvs]]
      rw [List.zipWith_append]
      · congr 1
        rw [List.zipWith_map_left, List.zipWith_map_right]
        congr 1
        funext a b
        ring
      · rw [length_spL, List.length_drop, List.length_take, List.length_take,
          show min basisLen basis.length - (basisLen - (logn - 1)) = logn - 1 by omega]
        omega

/-- `subsetProduct` writes a prefix of all subset products, times `a`. -/
theorem subsetProduct_eq (n : Nat) (basis : List F) (basisLen : Nat) (a : F) (hb : basisLen ≤ basis.length)
    (h63 : n ≤ 2 ^ 63) (hk : n ≤ 2 ^ basisLen) :
    subsetProduct n basis basisLen a =
      .ok (((spL (basis.take basisLen)).take n).map (fun z => a * z)) := by
  unfold subsetProduct
  rw [subsetProdRecurse_eq basis basisLen hb n _ basisLen (by simp) h63 hk le_rfl]
  congr 1
  apply List.ext_getElem
  · simp
  · intro i h1 h2
    simp

theorem getElem_spL (xs : List F) (i : Nat) (hi : i < 2 ^ xs.length) :
    (spL xs)[i]'(by simpa using hi) = subsetProd xs i := by
  induction xs generalizing i with
  | nil =>
    have : i = 0 := by simpa using hi
    subst this; simp [spL, subsetProd]
  | cons x xs ih =>
    have hsp : subsetProd (x :: xs) i = (if i.testBit xs.length then x else 1) * subsetProd xs i := by
      unfold subsetProd
      rw [List.length_cons, List.range_succ_eq_map]
      simp only [List.map_cons, List.prod_cons, List.map_map]
      congr 1
      congr 1
      apply List.map_congr_left
      intro j hj
      simp at hj
      simp only [Function.comp_apply, List.getD_cons_succ]
      rw [show xs.length + 1 - 1 - (j + 1) = xs.length - 1 - j by omega]
    rw [hsp]
    simp only [spL]
    by_cases hlt : i < 2 ^ xs.length
    · rw [List.getElem_append_left (by simpa using hlt), ih i hlt, Nat.testBit_lt_two_pow hlt]
      simp
    · have hi2 : i - 2 ^ xs.length < 2 ^ xs.length := by
        simp [pow_succ] at hi; omega
      rw [List.getElem_append_right (by simpa using hlt)]
      simp only [length_spL, List.getElem_map]
      rw [ih _ hi2]
      have hi3 : i = 2 ^ xs.length + (i - 2 ^ xs.length) := by omega
      have ht : i.testBit xs.length = true := by
        rw [hi3, Nat.testBit_two_pow_add_eq, Nat.testBit_lt_two_pow hi2]; rfl
      rw [ht, if_pos rfl, mul_comm]
      congr 1
      unfold subsetProd
      congr 1
      apply List.map_congr_left
      intro j hj
      simp at hj
      have : (i - 2 ^ xs.length).testBit (xs.length - 1 - j) = i.testBit (xs.length - 1 - j) := by
        conv_rhs => rw [hi3]
        rw [Nat.testBit_two_pow_add_gt (by omega)]
      rw [this]

/-- Iterated folding of a vector of points, one challenge per level. -/
def foldAll : List F → List G → List G
  | [], gs => gs
  | x :: xs, gs => foldAll xs (foldP (2 ^ xs.length) x gs)

theorem mexp_spL_foldAll (xs : List F) (gs : List G) (h1 : gs.length ≤ 2 ^ xs.length) :
    mexp (spL xs) gs = (foldAll xs gs).sum := by
  induction xs generalizing gs with
  | nil =>
    match gs, h1 with
    | [], _ => simp [foldAll]
    | [g], _ => simp [foldAll, spL]
  | cons x xs ih =>
    simp only [foldAll]
    rw [← ih _ (by simp)]
    simp only [spL, foldP]
    rw [mexp_addInto_right _ (by simp [pow_succ] at h1 ⊢; omega), mexp_smul_right]
    have : mexp (spL xs ++ (spL xs).map (fun z => z * x)) gs =
        mexp (spL xs) (gs.take (2 ^ xs.length)) + mexp ((spL xs).map (fun z => z * x)) (gs.drop (2 ^ xs.length)) := by
      by_cases hle : 2 ^ xs.length ≤ gs.length
      · conv_lhs => rw [← List.take_append_drop (2 ^ xs.length) gs]
        rw [mexp_append (by simp [hle])]
      · rw [List.take_of_length_le (by omega), List.drop_of_length_le (by omega)]
        simp only [mexp_nil_right, add_zero]
        rw [← mexp_take_left _ gs (2 ^ xs.length) (by omega), List.take_append_of_le_length (by simp),
          mexp_take_left _ gs (2 ^ xs.length) (by omega)]
    rw [this, mexp_smul_left]

end

end Verif
