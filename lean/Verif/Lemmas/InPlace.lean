/- Folding in place: recursion and closed form. -/
import Mathlib.Algebra.BigOperators.Intervals
import Mathlib.Tactic.Abel
import Verif.Lemmas.BPProve
import Verif.Model.InPlace
import Verif.Spec.InPlace

namespace Verif
open Spec

section
variable {F G : Type} [Field F] [AddCommGroup G] [Module F G]

theorem drop_split {α : Type} (v : List α) {h n : ℕ} (hn : h ≤ n) :
    v.drop h = (v.take n).drop h ++ v.drop n := by
  conv_lhs => rw [← List.take_append_drop n v]
  by_cases hv : n ≤ v.length
  · rw [List.drop_append_of_le_length (by simp; omega)]
  · rw [List.drop_of_length_le (l := v) (i := n) (by omega), List.take_of_length_le (l := v) (by omega)]
    simp

theorem subsetProd_low (x : F) (xs : List F) {i : ℕ} (h : i < 2 ^ xs.length) :
    subsetProd (x :: xs) i = subsetProd xs i := by
  rw [← getElem_spL (x :: xs) i (by simp [pow_succ]; omega), ← getElem_spL xs i h]
  simp only [spL]
  rw [List.getElem_append_left]

theorem subsetProd_high (x : F) (xs : List F) {i : ℕ} (h : i < 2 ^ xs.length) :
    subsetProd (x :: xs) (2 ^ xs.length + i) = x * subsetProd xs i := by
  rw [← getElem_spL (x :: xs) _ (by simp [pow_succ]; omega), ← getElem_spL xs i h]
  simp only [spL]
  rw [List.getElem_append_right (by simp)]
  simp [mul_comm]

theorem subsetProd_zero (xs : List F) : subsetProd xs 0 = 1 := by simp [subsetProd]

theorem sum_getD_range (f : ℕ → G → G) (hf : ∀ j, f j 0 = 0) (v : List G) {m : ℕ} (h : v.length ≤ m) :
    ∑ j ∈ Finset.range v.length, f j (v.getD j 0) = ∑ j ∈ Finset.range m, f j (v.getD j 0) := by
  obtain ⟨k, rfl⟩ := Nat.exists_eq_add_of_le h
  rw [Finset.sum_range_add]
  rw [Finset.sum_eq_zero (s := Finset.range k), add_zero]
  intro j _
  rw [List.getD_eq_default _ _ (by omega), hf]

theorem leftAt_eq (xs : List F) (v : List G) (i : ℕ) {m : ℕ} (h : v.length ≤ m) :
    leftAt xs v i = ∑ j ∈ Finset.range m,
      if j % 2 ^ i.size = i then subsetProd xs (j - i) • v.getD j 0 else 0 :=
  sum_getD_range (fun j g => if j % 2 ^ i.size = i then subsetProd xs (j - i) • g else 0)
    (by intro j; simp) v h

theorem getD_fold_low (h : ℕ) (c : F) (v : List G) {j : ℕ} (hj : j < h) (h1 : h ≤ v.length)
    (h2 : v.length ≤ h + h) : (foldP h c v).getD j 0 = v.getD j 0 + c • v.getD (h + j) 0 := by
  rw [List.getD_eq_getElem?_getD, getElem?_foldP h c v j hj h1 h2]
  by_cases hlt : j + h < v.length
  · rw [if_pos hlt, List.getElem?_eq_getElem (by omega : j < v.length), List.getElem?_eq_getElem hlt,
      List.getD_eq_getElem _ _ (by omega), List.getD_eq_getElem _ _ (by omega)]
    simp [add_comm h j]
  · rw [if_neg hlt, List.getD_eq_default v 0 (n := h + j) (by omega), smul_zero, add_zero,
      List.getD_eq_getElem?_getD]

theorem leftAt_low (x : F) (xs : List F) (v : List G) {i : ℕ} (hi : i < 2 ^ xs.length)
    (h1 : 2 ^ xs.length ≤ v.length) (h2 : v.length ≤ 2 ^ xs.length + 2 ^ xs.length) :
    leftAt (x :: xs) v i = leftAt xs (foldP (2 ^ xs.length) x v) i := by
  have hs : i.size ≤ xs.length := Nat.size_le.2 hi
  have hd : 2 ^ i.size ∣ 2 ^ xs.length := pow_dvd_pow 2 hs
  rw [leftAt_eq _ v i h2, leftAt_eq _ (foldP _ x v) i (m := 2 ^ xs.length) (by simp),
    Finset.sum_range_add, ← Finset.sum_add_distrib]
  refine Finset.sum_congr rfl fun j hj => ?_
  have hj' : j < 2 ^ xs.length := Finset.mem_range.1 hj
  have hm : (2 ^ xs.length + j) % 2 ^ i.size = j % 2 ^ i.size := by
    obtain ⟨d, hd⟩ := hd
    rw [hd, Nat.mul_add_mod]
  rw [hm, getD_fold_low _ x v hj' h1 h2]
  by_cases hc : j % 2 ^ i.size = i
  · have hle : i ≤ j := by rw [← hc]; exact Nat.mod_le _ _
    rw [if_pos hc, if_pos hc, if_pos hc, subsetProd_low x xs (by omega),
      show 2 ^ xs.length + j - i = 2 ^ xs.length + (j - i) by omega,
      subsetProd_high x xs (by omega), smul_add, smul_smul, mul_comm x]
  · simp [hc]

theorem leftAt_high (x : F) (xs : List F) (v : List G) {i : ℕ} (hi : 2 ^ xs.length ≤ i)
    (hv : i < v.length) (h2 : v.length ≤ 2 ^ xs.length + 2 ^ xs.length) :
    leftAt (x :: xs) v i = v.getD i 0 := by
  have hs : i.size = xs.length + 1 := by
    apply le_antisymm
    · exact Nat.size_le.2 (by rw [pow_succ]; omega)
    · exact Nat.lt_size.2 hi
  unfold leftAt
  rw [Finset.sum_eq_single i]
  · rw [hs, if_pos (Nat.mod_eq_of_lt (by rw [pow_succ]; omega)), Nat.sub_self, subsetProd_zero, one_smul]
  · intro j hj hne
    have hj' : j < v.length := Finset.mem_range.1 hj
    rw [if_neg]
    rw [hs, Nat.mod_eq_of_lt (by rw [pow_succ]; omega)]
    exact hne
  · intro h; exact absurd (Finset.mem_range.2 hv) h

@[simp] theorem length_leftBehind (xs : List F) (v : List G) : (leftBehind xs v).length = v.length := by
  simp [leftBehind]

@[simp] theorem length_leftGens (xs : List F) (v : List G) : (leftGens xs v).length = v.length := by
  simp [leftGens]

theorem leftBehind_cons (x : F) (xs : List F) (v : List G)
    (h1 : 2 ^ xs.length ≤ v.length) (h2 : v.length ≤ 2 ^ xs.length + 2 ^ xs.length) :
    leftBehind (x :: xs) v =
      leftBehind xs (foldP (2 ^ xs.length) x v) ++ v.drop (2 ^ xs.length) := by
  apply List.ext_getElem
  · simp; omega
  · intro i hi _
    simp at hi
    by_cases hlt : i < 2 ^ xs.length
    · rw [List.getElem_append_left (by simp; omega)]
      simp only [leftBehind, List.getElem_map, List.getElem_range]
      exact leftAt_low x xs v hlt h1 h2
    · rw [List.getElem_append_right (by simp; omega)]
      simp only [leftBehind, List.getElem_map, List.getElem_range, List.getElem_drop]
      rw [leftAt_high x xs v (by omega) hi h2, List.getD_eq_getElem _ _ hi]
      congr 1
      simp; omega

theorem topBit_low {k i : ℕ} (hi : i < 2 ^ k) : topBit i < 2 ^ k := by
  unfold topBit
  split
  · exact Nat.two_pow_pos _
  · have h0 : 0 < i.size := Nat.size_pos.2 (by omega)
    have : i.size ≤ k := Nat.size_le.2 hi
    exact Nat.pow_lt_pow_right (by omega) (by omega)

theorem topBit_high {k i : ℕ} (hi : 2 ^ k ≤ i) (h2 : i < 2 ^ k + 2 ^ k) : topBit i = 2 ^ k := by
  have hs : i.size = k + 1 := by
    apply le_antisymm
    · exact Nat.size_le.2 (by rw [pow_succ]; omega)
    · exact Nat.lt_size.2 hi
  have := Nat.two_pow_pos k
  rw [topBit, if_neg (by omega), hs, Nat.add_sub_cancel]

theorem leftGens_cons (x : F) (xs : List F) (v : List G)
    (h1 : 2 ^ xs.length ≤ v.length) (h2 : v.length ≤ 2 ^ xs.length + 2 ^ xs.length) :
    leftGens (x :: xs) v =
      leftGens xs (foldP (2 ^ xs.length) x v) ++ (v.drop (2 ^ xs.length)).map (fun g => x • g) := by
  apply List.ext_getElem
  · simp; omega
  · intro i hi _
    simp at hi
    by_cases hlt : i < 2 ^ xs.length
    · rw [List.getElem_append_left (by simp; omega)]
      simp only [leftGens, List.getElem_map, List.getElem_range]
      rw [leftAt_low x xs v hlt h1 h2, subsetProd_low x xs (topBit_low hlt)]
    · rw [List.getElem_append_right (by simp; omega)]
      simp only [leftGens, List.getElem_map, List.getElem_range, List.getElem_drop]
      rw [leftAt_high x xs v (by omega) hi h2, List.getD_eq_getElem _ _ hi,
        topBit_high (k := xs.length) (by omega) (by omega)]
      have := subsetProd_high x xs (i := 0) (Nat.two_pow_pos _)
      rw [add_zero, subsetProd_zero, mul_one] at this
      rw [this]
      congr 2
      simp; omega

theorem leftAt_one (v : List G) (i : ℕ) (hi : i < v.length) (h : v.length = 1) :
    leftAt ([] : List F) v i = v[i] := by
  have : i = 0 := by omega
  subst this
  simp [leftAt, h, subsetProd, List.getD_eq_getElem _ _ hi]

theorem leftBehind_nil (v : List G) (h : v.length = 1) : leftBehind ([] : List F) v = v := by
  apply List.ext_getElem
  · simp
  · intro i h1 h2
    simp only [leftBehind, List.getElem_map, List.getElem_range]
    exact leftAt_one v i h2 h

theorem leftGens_nil (v : List G) (h : v.length = 1) : leftGens ([] : List F) v = v := by
  apply List.ext_getElem
  · simp
  · intro i h1 h2
    simp only [leftGens, List.getElem_map, List.getElem_range]
    rw [leftAt_one v i h2 h]
    simp [subsetProd]

/-! ### Folding twice -/

theorem foldedSum_finset (xs : List F) (v : List G) :
    foldedSum xs v = ∑ j ∈ Finset.range v.length, subsetProd xs j • v.getD j 0 := by
  unfold foldedSum
  generalize subsetProd xs = f
  induction v using List.reverseRecOn with
  | nil => simp
  | append_singleton v a ih =>
    rw [List.length_append, List.length_singleton, List.range_succ, List.map_append,
      mexp_append (by simp), ih, Finset.sum_range_succ]
    congr 1
    · refine Finset.sum_congr rfl fun j hj => ?_
      rw [List.getD_append _ _ _ _ (Finset.mem_range.1 hj)]
    · simp [mexp]

theorem leftAt_zero (xs : List F) (v : List G) : leftAt xs v 0 = foldedSum xs v := by
  rw [foldedSum_finset, leftAt]
  refine Finset.sum_congr rfl fun j _ => ?_
  simp [Nat.mod_one]

theorem foldedSum_cons (x : F) (xs : List F) (u w : List G) (hu : u.length = 2 ^ xs.length)
    (hw : w.length ≤ 2 ^ xs.length) :
    foldedSum (x :: xs) (u ++ w) = foldedSum xs u + x • foldedSum xs w := by
  simp only [foldedSum_finset]
  rw [List.length_append, Finset.sum_range_add, Finset.smul_sum]
  congr 1
  · refine Finset.sum_congr rfl fun j hj => ?_
    have hj := Finset.mem_range.1 hj
    rw [List.getD_append _ _ _ _ hj, subsetProd_low x xs (by omega)]
  · refine Finset.sum_congr rfl fun j hj => ?_
    have hj := Finset.mem_range.1 hj
    rw [List.getD_append_right _ _ _ _ (by omega), Nat.add_sub_cancel_left, hu,
      subsetProd_high x xs (by omega), smul_smul]

theorem foldedSum_foldP (x : F) (xs : List F) (v : List G) (h1 : 2 ^ xs.length ≤ v.length)
    (h2 : v.length ≤ 2 ^ xs.length + 2 ^ xs.length) :
    foldedSum xs (foldP (2 ^ xs.length) x v) = foldedSum (x :: xs) v := by
  conv_rhs => rw [← List.take_append_drop (2 ^ xs.length) v]
  rw [foldedSum_cons x xs _ _ (by simp [h1]) (by simp; omega)]
  rw [foldedSum_eq _ _ (by simp), foldedSum_eq _ _ (by simp), foldedSum_eq _ _ (by simp; omega), foldP,
    mexp_addInto_right _ (by simp; omega), mexp_smul_right]

theorem bitCount_low {k j : ℕ} (hj : j < 2 ^ k) : bitCount (k + 1) j = bitCount k j := by
  unfold bitCount
  rw [Finset.range_add_one, Finset.filter_insert, if_neg]
  rw [Nat.testBit_lt_two_pow hj]; simp

theorem bitCount_high {k j : ℕ} (hj : j < 2 ^ k) : bitCount (k + 1) (2 ^ k + j) = bitCount k j + 1 := by
  unfold bitCount
  rw [Finset.range_add_one, Finset.filter_insert, if_pos, Finset.card_insert_of_notMem]
  · congr 2
    refine Finset.filter_congr fun b hb => ?_
    rw [Nat.testBit_two_pow_add_gt (Finset.mem_range.1 hb)]
  · simp
  · rw [Nat.testBit_two_pow_add_eq, Nat.testBit_lt_two_pow hj]; rfl

theorem countedSum_cons (x : F) (xs : List F) (u w : List G) (hu : u.length = 2 ^ xs.length)
    (hw : w.length ≤ 2 ^ xs.length) :
    countedSum (x :: xs) (u ++ w) =
      countedSum xs u + x • (countedSum xs w + foldedSum xs w) := by
  simp only [foldedSum_finset, countedSum]
  rw [List.length_append, Finset.sum_range_add, ← Finset.sum_add_distrib, Finset.smul_sum, List.length_cons]
  congr 1
  · refine Finset.sum_congr rfl fun j hj => ?_
    have hj := Finset.mem_range.1 hj
    rw [List.getD_append _ _ _ _ hj, subsetProd_low x xs (by omega), bitCount_low (by omega)]
  · refine Finset.sum_congr rfl fun j hj => ?_
    have hj := Finset.mem_range.1 hj
    rw [List.getD_append_right _ _ _ _ (by omega), Nat.add_sub_cancel_left, hu,
      subsetProd_high x xs (by omega), bitCount_high (by omega), add_smul, one_smul, mul_smul, smul_add,
      smul_comm x (bitCount _ _)]

theorem countedSum_foldP (x : F) (xs : List F) (v : List G) (h1 : 2 ^ xs.length ≤ v.length)
    (h2 : v.length ≤ 2 ^ xs.length + 2 ^ xs.length) :
    countedSum xs (foldP (2 ^ xs.length) x v) =
      countedSum xs (v.take (2 ^ xs.length)) + x • countedSum xs (v.drop (2 ^ xs.length)) := by
  have key : ∀ w : List G, w.length ≤ 2 ^ xs.length →
      countedSum xs w = ∑ j ∈ Finset.range (2 ^ xs.length), bitCount xs.length j • subsetProd xs j • w.getD j 0 :=
    fun w hw => sum_getD_range (fun j g => bitCount xs.length j • subsetProd xs j • g) (by intro j; simp) w hw
  rw [key _ (by simp), key _ (by simp), key _ (by simp; omega), Finset.smul_sum, ← Finset.sum_add_distrib]
  refine Finset.sum_congr rfl fun j hj => ?_
  have hj := Finset.mem_range.1 hj
  rw [getD_fold_low _ x v hj h1 h2]
  have e1 : (v.take (2 ^ xs.length)).getD j 0 = v.getD j 0 := by
    simp only [List.getD_eq_getElem?_getD]
    rw [List.getElem?_take, if_pos hj]
  have e2 : (v.drop (2 ^ xs.length)).getD j 0 = v.getD (2 ^ xs.length + j) 0 := by
    simp only [List.getD_eq_getElem?_getD, List.getElem?_drop]
  rw [e1, e2, smul_add, smul_add, smul_comm x (bitCount _ _), smul_smul, smul_smul, mul_comm x]

/-- `n` entries are folded in as many levels as there are challenges. -/
def Levels : List F → ℕ → Prop
  | [], n => n = 1
  | _ :: xs, n => 2 ^ xs.length ≤ n ∧ n ≤ 2 ^ xs.length + 2 ^ xs.length

theorem Levels.next {x : F} {xs : List F} : Levels xs (2 ^ xs.length) := by
  cases xs with
  | nil => simp [Levels]
  | cons y ys => simp [Levels, pow_succ]; omega

/-- Folding what is left behind once more: every product is counted once more for each of its
challenges. -/
theorem foldedSum_leftBehind (xs : List F) : ∀ v : List G, Levels xs v.length →
    foldedSum xs (leftBehind xs v) = foldedSum xs v + countedSum xs v := by
  induction xs with
  | nil =>
    intro v hv
    rw [leftBehind_nil v hv]
    simp [countedSum, bitCount]
  | cons x xs ih =>
    intro v ⟨h1, h2⟩
    have hl : Levels xs (foldP (2 ^ xs.length) x v).length := by
      simp only [length_foldP]
      rw [min_eq_left h1]
      exact Levels.next (x := x)
    rw [leftBehind_cons x xs v h1 h2,
      foldedSum_cons x xs _ _ (by simp [h1]) (by simp; omega), ih _ hl, foldedSum_foldP x xs v h1 h2,
      countedSum_foldP x xs v h1 h2]
    conv_rhs => rw [← List.take_append_drop (2 ^ xs.length) v]
    rw [countedSum_cons x xs _ _ (by simp [h1]) (by simp; omega), List.take_append_drop, smul_add]
    abel

/-! ### One level -/

theorem addInto_fold (h : ℕ) (c : F) (v : List F) {n : ℕ} (h1 : h ≤ n) (h2 : n ≤ h + h) (hv : n ≤ v.length) :
    addInto v (((v.drop h).take (n - h)).map (fun a => a * c)) =
      foldP h c (v.take n) ++ v.drop h := by
  have e1 : (v.drop h).take (n - h) = (v.take n).drop h := by
    rw [List.drop_take]
  have e2 : (v.take n).take h = v.take h := by rw [List.take_take, min_eq_left h1]
  have e3 := addInto_append (v.take h) (v.drop h) (((v.drop h).take (n - h)).map (fun a => a * c))
    (by simp; omega)
  rw [List.take_append_drop] at e3
  rw [e3, ← foldS_eq_foldP, foldS, e1, e2]

variable [DecidableEq F] [DecidableEq G]

theorem foldGeneratorsI_ok (gs : List G) (x : F) {n h : ℕ} (h1 : h ≤ n) (h2 : n ≤ h + h)
    (hg : n ≤ gs.length) :
    foldGeneratorsI gs n x h =
      .ok (foldP h x (gs.take n) ++ ((gs.take n).drop h).map (fun g => x • g) ++ gs.drop n) := by
  have hl : (List.take h (List.take n gs)).length = h := by simp; omega
  simp only [foldGeneratorsI, foldGenerators, rdN_ok hg, Res.ok_bind]
  rw [if_neg (by omega)]
  simp only [Res.ok_bind]
  congr 2
  rw [List.drop_left' hl, addInto_append _ _ _ (by rw [hl]; simp [multiBaseOneExp]; omega)]
  rfl

/-- The state of the truncating model that corresponds to a state of the in-place one. -/
def LinProverState.cut {St : Type} (n : ℕ) (s : LinProverState F G St) : LinProverState F G St :=
  ⟨s.Ls, s.Rs, s.as.take n, s.bs.take n, s.gs.take n, s.r, s.st, s.k⟩

theorem proveLinLoopI_step (E : Env F G) (coins : Nat → F × F) (Fg : G) {n h m : Nat}
    (s : LinProverState F G E.St) (hl : Level n h (m + 1)) (ha : n ≤ s.as.length)
    (hb : n ≤ s.bs.length) (hg : n ≤ s.gs.length) :
    ∃ L R : G,
      (let ch := E.challenge (E.commit (E.commit s.st (decBytes n ++ [76]) (E.pointBytes L)) [82]
          (E.pointBytes R)) [120] 64
       let x := E.scalarReduce ch.1
       (x = 0 → proveLinLoop E coins Fg n h (s.cut n) = .throw ∧ proveLinLoopI E coins Fg n h s = .throw) ∧
       (x ≠ 0 → ∃ s', proveLinLoop E coins Fg n h (s.cut n) = proveLinLoop E coins Fg h (h / 2) (s'.cut h) ∧
          proveLinLoopI E coins Fg n h s = proveLinLoopI E coins Fg h (h / 2) s' ∧
          s'.Ls = s.Ls ++ [L] ∧ s'.Rs = s.Rs ++ [R] ∧ s'.st = ch.2 ∧
          s'.as = foldP h x⁻¹ (s.as.take n) ++ s.as.drop h ∧
          s'.bs = foldP h x (s.bs.take n) ++ s.bs.drop h ∧
          s'.gs = foldP h x (s.gs.take n) ++ ((s.gs.take n).drop h).map (fun g => x • g) ++ s.gs.drop n)) := by
  obtain ⟨hh1, hh2, hh3, hh4⟩ := hl.half
  have la : (s.cut n).as.length = n := by simp [LinProverState.cut, ha]
  have lb : (s.cut n).bs.length = n := by simp [LinProverState.cut, hb]
  have lg : (s.cut n).gs.length = n := by simp [LinProverState.cut, hg]
  obtain ⟨L, R, hL, hR, h0, hs⟩ := proveLinLoop_step E coins Fg (s.cut n) hl la lb lg
  refine ⟨L, R, ?_⟩
  have e1 : mexp (s.as.take (n - h)) ((s.gs.drop h).take (n - h)) =
      mexp ((s.as.take n).take h) ((s.gs.take n).drop h) := by
    rw [← List.drop_take, List.take_take, min_eq_left hh1.le,
      mexp_take_left _ _ _ (by simp <;> omega), mexp_take_left _ _ _ (by simp; omega)]
  have e2 : mexp ((s.as.drop h).take (n - h)) (s.gs.take (n - h)) =
      mexp ((s.as.take n).drop h) ((s.gs.take n).take h) := by
    rw [← List.drop_take, List.take_take, min_eq_left hh1.le,
      mexp_take_right _ _ _ (by simp <;> omega), mexp_take_right _ _ _ (by simp; omega)]
  have e3 : dot ((s.bs.drop h).take (n - h)) (s.as.take (n - h)) =
      dot ((s.as.take n).take h) ((s.bs.take n).drop h) := by
    rw [← List.drop_take, List.take_take, min_eq_left hh1.le, dot_comm,
      dot_take_left _ _ _ (by simp <;> omega), dot_take_left _ _ _ (by simp; omega)]
  have e4 : dot (s.bs.take (n - h)) ((s.as.drop h).take (n - h)) =
      dot ((s.as.take n).drop h) ((s.bs.take n).take h) := by
    rw [← List.drop_take, List.take_take, min_eq_left hh1.le, dot_comm,
      dot_take_right _ _ _ (by simp <;> omega), dot_take_right _ _ _ (by simp; omega)]
  have hI : proveLinLoopI E coins Fg n h s = (do
      let ch := E.challenge (E.commit (E.commit s.st (decBytes n ++ [76]) (E.pointBytes L)) [82]
          (E.pointBytes R)) [120] 64
      let x := E.scalarReduce ch.1
      if x = 0 then .throw else
        proveLinLoopI E coins Fg h (h / 2)
          ⟨s.Ls ++ [L], s.Rs ++ [R], foldP h x⁻¹ (s.as.take n) ++ s.as.drop h,
            foldP h x (s.bs.take n) ++ s.bs.drop h,
            foldP h x (s.gs.take n) ++ ((s.gs.take n).drop h).map (fun g => x • g) ++ s.gs.drop n,
            s.r + ((coins s.k).1 * x + (coins s.k).2 * x⁻¹), ch.2, s.k + 1⟩) := by
    rw [proveLinLoopI, if_pos hh3]
    rw [multiExp_ok (by simp; omega) (by omega), multiExp_ok (by omega) (by simp; omega),
      innerProduct_ok (by simp; omega) (by omega), innerProduct_ok (by omega) (by simp; omega)]
    simp only [Res.ok_bind, e1, e2, e3, e4, Env.processPoint, Env.newChallenge, lblL, lblR, lblx]
    simp only [LinProverState.cut] at hL hR
    rw [← hL, ← hR]
    generalize E.challenge _ _ _ = ch
    by_cases hx : E.scalarReduce ch.1 = 0
    · simp [inverseOf, hx]
    · rw [inverseOf, if_neg hx, if_neg hx]
      simp only [Res.ok_bind]
      rw [rdN_ok (by simp; omega), rdN_ok (by simp; omega), foldGeneratorsI_ok _ _ hh1.le hh2 hg]
      simp only [Res.ok_bind]
      rw [addInto_fold _ _ _ hh1.le hh2 ha, addInto_fold _ _ _ hh1.le hh2 hb]
  have hst : (s.cut n).st = s.st := rfl
  rw [hst] at h0 hs
  rw [hI]
  dsimp only
  generalize E.challenge (E.commit (E.commit s.st (decBytes n ++ [76]) (E.pointBytes L)) [82]
          (E.pointBytes R)) [120] 64 = ch at h0 hs ⊢
  refine ⟨fun hx => ⟨h0 hx, if_pos hx⟩, fun hx => ⟨_, ?_, if_neg hx, rfl, rfl, rfl, rfl, rfl, rfl⟩⟩
  rw [hs hx]
  have c1 : ∀ (c : F) (v : List F), n ≤ v.length → (foldP h c (v.take n) ++ v.drop h).take h = foldS h c (v.take n) := by
    intro c v hv
    rw [foldS_eq_foldP, List.take_append_of_le_length (by simp; omega), List.take_of_length_le (by simp)]
  have c2 : ∀ (c : F) (v w : List G), n ≤ v.length → (foldP h c (v.take n) ++ w).take h = foldP h c (v.take n) := by
    intro c v w hv
    rw [List.take_append_of_le_length (by simp; omega), List.take_of_length_le (by simp)]
  simp only [LinProverState.cut, List.append_assoc]
  rw [c1 _ _ ha, c1 _ _ hb, c2 _ _ _ hg]

/-- The whole loop of the linear prover: the same outcome as in the truncating model, and the
final contents of the arrays. -/
theorem proveLinLoopI_spec (E : Env F G) (coins : Nat → F × F) (Fg : G) (ell : Nat) :
    ∀ (n h : Nat) (s : LinProverState F G E.St), Level n h ell → n ≤ s.as.length →
      n ≤ s.bs.length → n ≤ s.gs.length →
      (proveLinLoop E coins Fg n h (s.cut n) = .throw ∧ proveLinLoopI E coins Fg n h s = .throw) ∨
      ∃ e Ls Rs, proveLinLoop E coins Fg n h (s.cut n) = .ok (e.cut 1) ∧
        proveLinLoopI E coins Fg n h s = .ok e ∧ Ls.length = ell ∧ Rs.length = ell ∧
        e.Ls = s.Ls ++ Ls ∧ e.Rs = s.Rs ++ Rs ∧
        (let xs := (foldChallenges E n s.st Ls Rs).1
         e.as = leftBehind (xs.map (·⁻¹)) (s.as.take n) ++ s.as.drop n ∧
         e.bs = leftBehind xs (s.bs.take n) ++ s.bs.drop n ∧
         e.gs = leftGens xs (s.gs.take n) ++ s.gs.drop n) := by
  induction ell with
  | zero =>
    intro n h s hl ha hb hg
    have hn : n = 1 := hl
    subst hn
    right
    refine ⟨s, [], [], ?_, ?_, rfl, rfl, by simp, by simp, ?_⟩
    · rw [proveLinLoop, if_neg (by omega)]
    · rw [proveLinLoopI, if_neg (by omega)]
    · simp only [foldChallenges, List.map_nil]
      rw [leftBehind_nil _ (by simp; omega), leftBehind_nil _ (by simp; omega), leftGens_nil _ (by simp; omega)]
      exact ⟨(List.take_append_drop 1 _).symm, (List.take_append_drop 1 _).symm,
        (List.take_append_drop 1 _).symm⟩
  | succ m ih =>
    intro n h s hl ha hb hg
    obtain ⟨hh1, hh2, hh3, hh4⟩ := hl.half
    obtain ⟨L, R, h0, h1⟩ := proveLinLoopI_step E coins Fg s hl ha hb hg
    obtain ⟨ch, hch⟩ : ∃ ch, ch = E.challenge (E.commit (E.commit s.st (decBytes n ++ [76])
      (E.pointBytes L)) [82] (E.pointBytes R)) [120] 64 := ⟨_, rfl⟩
    rw [← hch] at h0 h1
    have hfc : ∀ Ls Rs : List G, Ls.length = m → foldChallenges E n s.st (L :: Ls) (R :: Rs) =
        (E.scalarReduce ch.1 :: (foldChallenges E h ch.2 Ls Rs).1, (foldChallenges E h ch.2 Ls Rs).2) := by
      intro Ls Rs hl
      rw [foldChallenges_cons, hl, ← hh4, ← hch]
    by_cases hx : E.scalarReduce ch.1 = 0
    · exact Or.inl (h0 hx)
    · obtain ⟨s', hT, hI, hL', hR', hst', ha', hb', hg'⟩ := h1 hx
      rw [hT, hI]
      have la : (foldP h (E.scalarReduce ch.1)⁻¹ (s.as.take n)).length = h := by simp; omega
      have lb : (foldP h (E.scalarReduce ch.1) (s.bs.take n)).length = h := by simp; omega
      have lg : (foldP h (E.scalarReduce ch.1) (s.gs.take n)).length = h := by simp; omega
      rcases ih h (h / 2) s' hl.next (by rw [ha', List.length_append]; omega)
        (by rw [hb', List.length_append]; omega)
        (by rw [hg', List.append_assoc, List.length_append]; omega) with
        h | ⟨e, Ls, Rs, heT, heI, hLs, hRs, heL, heR, hea, heb, heg⟩
      · exact Or.inl h
      · right
        refine ⟨e, L :: Ls, R :: Rs, heT, heI, by simp [hLs], by simp [hRs], ?_, ?_, ?_⟩
        · rw [heL, hL']; simp
        · rw [heR, hR']; simp
        · rw [hfc _ _ hLs]
          rw [hst'] at hea heb heg
          have hxl : (foldChallenges E h ch.2 Ls Rs).1.length = m := by simp; omega
          generalize (foldChallenges E h ch.2 Ls Rs).1 = xs at hxl hea heb heg ⊢
          dsimp only
          refine ⟨?_, ?_, ?_⟩
          · rw [hea, ha', List.map_cons, leftBehind_cons _ _ _ (by simp [hxl, ← hh4]; omega)
              (by simp [hxl, ← hh4]; omega), List.length_map, hxl, ← hh4,
              List.take_append_of_le_length (by rw [la]), List.take_of_length_le (by rw [la]),
              List.drop_append_of_le_length (by rw [la]), List.drop_of_length_le (by rw [la]),
              List.nil_append, List.append_assoc]
            congr 1
            exact drop_split _ hh1.le
          · rw [heb, hb', leftBehind_cons _ _ _ (by simp [hxl, ← hh4]; omega)
              (by simp [hxl, ← hh4]; omega), hxl, ← hh4,
              List.take_append_of_le_length (by rw [lb]), List.take_of_length_le (by rw [lb]),
              List.drop_append_of_le_length (by rw [lb]), List.drop_of_length_le (by rw [lb]),
              List.nil_append, List.append_assoc]
            congr 1
            exact drop_split _ hh1.le
          · rw [heg, hg', leftGens_cons _ _ _ (by simp [hxl, ← hh4]; omega)
              (by simp [hxl, ← hh4]; omega), hxl, ← hh4, List.append_assoc,
              List.take_append_of_le_length (by rw [lg]), List.take_of_length_le (by rw [lg]),
              List.drop_append_of_le_length (by rw [lg]), List.drop_of_length_le (by rw [lg]),
              List.nil_append, List.append_assoc]

/-- The loop of the linear verifier: the same challenges, verdict and transcript as in the
truncating model, and the final contents of `bs`. -/
theorem verifyLinLoopI_eq (E : Env F G) (Ls Rs : List G) (ell : Nat) :
    ∀ (n h ii : Nat) (bs : List F) (st : E.St), Level n h ell → n ≤ bs.length →
      Ls.length = ii + ell → Rs.length = ii + ell →
      verifyLinLoopI E Ls Rs n h ii bs st =
        (let c := foldChallenges E n st (Ls.drop ii) (Rs.drop ii)
         if 0 ∈ c.1 then .throw
         else .ok (c.1, c.1.map (·⁻¹), leftBehind c.1 (bs.take n) ++ bs.drop n, c.2)) := by
  induction ell with
  | zero =>
    intro n h ii bs st hl hb hL hR
    have hn : n = 1 := hl
    subst hn
    rw [verifyLinLoopI, if_neg (by omega)]
    rw [List.drop_of_length_le (by omega : Ls.length ≤ ii)]
    simp only [foldChallenges, List.not_mem_nil, if_false, List.map_nil]
    rw [leftBehind_nil _ (by simp; omega), List.take_append_drop]
  | succ m ih =>
    intro n h ii bs st hl hb hL hR
    obtain ⟨hh1, hh2, hh3, hh4⟩ := hl.half
    rw [verifyLinLoopI, if_pos hh3, rd_ok (by omega : ii < Ls.length), rd_ok (by omega : ii < Rs.length)]
    have hdL : Ls.drop ii = Ls[ii] :: Ls.drop (ii + 1) := List.drop_eq_getElem_cons (by omega)
    have hdR : Rs.drop ii = Rs[ii] :: Rs.drop (ii + 1) := List.drop_eq_getElem_cons (by omega)
    have hlen : (Ls.drop (ii + 1)).length = m := by simp; omega
    obtain ⟨ch, hch⟩ : ∃ ch, ch = E.challenge (E.commit (E.commit st (decBytes n ++ [76])
      (E.pointBytes Ls[ii])) [82] (E.pointBytes Rs[ii])) [120] 64 := ⟨_, rfl⟩
    obtain ⟨c, hc⟩ : ∃ c, c = foldChallenges E h ch.2 (Ls.drop (ii + 1)) (Rs.drop (ii + 1)) := ⟨_, rfl⟩
    have hfc : foldChallenges E n st (Ls.drop ii) (Rs.drop ii) = (E.scalarReduce ch.1 :: c.1, c.2) := by
      rw [hdL, hdR, foldChallenges, hlen, ← hh4, hc, hch]
    rw [hfc]
    simp only [Res.ok_bind, Env.processPoint, Env.newChallenge, lblL, lblR, lblx, inverseOf, ← hch]
    by_cases hx : E.scalarReduce ch.1 = 0
    · simp [hx]
    · rw [if_neg hx]
      simp only [Res.ok_bind]
      rw [rdN_ok (by simp; omega)]
      simp only [Res.ok_bind]
      have lb : (foldP h (E.scalarReduce ch.1) (bs.take n)).length = h := by simp; omega
      rw [addInto_fold _ _ _ hh1.le hh2 hb,
        ih h (h / 2) (ii + 1) _ ch.2 hl.next (by rw [List.length_append]; omega) (by omega) (by omega)]
      rw [← hc]
      simp only
      have hc1 : c.1.length = m := by
        rw [hc]; simp; omega
      by_cases h0 : (0 : F) ∈ c.1
      · simp [h0]
      · have : ¬(0 ∈ E.scalarReduce ch.1 :: c.1) := by
          rw [List.mem_cons]
          rintro (h | h)
          · exact hx h.symm
          · exact h0 h
        rw [if_neg h0, if_neg this]
        simp only [Res.ok_bind, List.map_cons]
        rw [leftBehind_cons _ _ _ (by simp [hc1, ← hh4]; omega) (by simp [hc1, ← hh4]; omega), hc1, ← hh4,
          List.take_append_of_le_length (by rw [lb]), List.take_of_length_le (by rw [lb]),
          List.drop_append_of_le_length (by rw [lb]), List.drop_of_length_le (by rw [lb]),
          List.nil_append, List.append_assoc, ← drop_split _ hh1.le]

/-- The state of the truncating model that corresponds to a state of the in-place one. -/
def QuadProverState.cut {St : Type} (n : ℕ) (s : QuadProverState F G St) : QuadProverState F G St :=
  ⟨s.Ls, s.Rs, s.gs.take n, s.as.take n, s.hs.take n, s.bs.take n, s.r, s.st, s.k⟩

theorem proveQuadLoopI_step (E : Env F G) (coins : Nat → F × F) (Fg : G) {n h m : Nat}
    (s : QuadProverState F G E.St) (hl : Level n h (m + 1)) (ha : n ≤ s.as.length)
    (hb : n ≤ s.bs.length) (hg : n ≤ s.gs.length) (hhs : n ≤ s.hs.length) :
    ∃ L R : G,
      (let ch := E.challenge (E.commit (E.commit s.st (decBytes n ++ [76]) (E.pointBytes L)) [82]
          (E.pointBytes R)) [120] 64
       let x := E.scalarReduce ch.1
       (x = 0 → proveQuadLoop E coins Fg n h (s.cut n) = .throw ∧ proveQuadLoopI E coins Fg n h s = .throw) ∧
       (x ≠ 0 → ∃ s', proveQuadLoop E coins Fg n h (s.cut n) = proveQuadLoop E coins Fg h (h / 2) (s'.cut h) ∧
          proveQuadLoopI E coins Fg n h s = proveQuadLoopI E coins Fg h (h / 2) s' ∧
          s'.Ls = s.Ls ++ [L] ∧ s'.Rs = s.Rs ++ [R] ∧ s'.st = ch.2 ∧
          s'.as = foldP h x⁻¹ (s.as.take n) ++ s.as.drop h ∧
          s'.bs = foldP h x (s.bs.take n) ++ s.bs.drop h ∧
          s'.gs = foldP h x (s.gs.take n) ++ ((s.gs.take n).drop h).map (fun g => x • g) ++ s.gs.drop n ∧
          s'.hs = foldP h x⁻¹ (s.hs.take n) ++ ((s.hs.take n).drop h).map (fun g => x⁻¹ • g) ++ s.hs.drop n)) := by
  obtain ⟨hh1, hh2, hh3, hh4⟩ := hl.half
  have la : (s.cut n).as.length = n := by simp [QuadProverState.cut, ha]
  have lb : (s.cut n).bs.length = n := by simp [QuadProverState.cut, hb]
  have lg : (s.cut n).gs.length = n := by simp [QuadProverState.cut, hg]
  have lh : (s.cut n).hs.length = n := by simp [QuadProverState.cut, hhs]
  obtain ⟨L, R, hL, hR, h0, hs⟩ := proveQuadLoop_step E coins Fg (s.cut n) hl la lb lg lh
  refine ⟨L, R, ?_⟩
  have e1 : ∀ (u : List F) (v : List G), mexp (u.take (n - h)) ((v.drop h).take (n - h)) =
      mexp ((u.take n).take h) ((v.take n).drop h) := by
    intro u v
    rw [← List.drop_take, List.take_take, min_eq_left hh1.le,
      mexp_take_left _ _ _ (by simp <;> omega), mexp_take_left _ _ _ (by simp; omega)]
  have e2 : ∀ (u : List F) (v : List G), mexp ((u.drop h).take (n - h)) (v.take (n - h)) =
      mexp ((u.take n).drop h) ((v.take n).take h) := by
    intro u v
    rw [← List.drop_take, List.take_take, min_eq_left hh1.le,
      mexp_take_right _ _ _ (by simp <;> omega), mexp_take_right _ _ _ (by simp; omega)]
  have e3 : dot (s.as.take (n - h)) ((s.bs.drop h).take (n - h)) =
      dot ((s.as.take n).take h) ((s.bs.take n).drop h) := by
    rw [← List.drop_take, List.take_take, min_eq_left hh1.le,
      dot_take_left _ _ _ (by simp <;> omega), dot_take_left _ _ _ (by simp; omega)]
  have e4 : dot ((s.as.drop h).take (n - h)) (s.bs.take (n - h)) =
      dot ((s.as.take n).drop h) ((s.bs.take n).take h) := by
    rw [← List.drop_take, List.take_take, min_eq_left hh1.le,
      dot_take_right _ _ _ (by simp <;> omega), dot_take_right _ _ _ (by simp; omega)]
  have hI : proveQuadLoopI E coins Fg n h s = (do
      let ch := E.challenge (E.commit (E.commit s.st (decBytes n ++ [76]) (E.pointBytes L)) [82]
          (E.pointBytes R)) [120] 64
      let x := E.scalarReduce ch.1
      if x = 0 then .throw else
        proveQuadLoopI E coins Fg h (h / 2)
          ⟨s.Ls ++ [L], s.Rs ++ [R],
            foldP h x (s.gs.take n) ++ ((s.gs.take n).drop h).map (fun g => x • g) ++ s.gs.drop n,
            foldP h x⁻¹ (s.as.take n) ++ s.as.drop h,
            foldP h x⁻¹ (s.hs.take n) ++ ((s.hs.take n).drop h).map (fun g => x⁻¹ • g) ++ s.hs.drop n,
            foldP h x (s.bs.take n) ++ s.bs.drop h,
            s.r + ((coins s.k).1 * x + (coins s.k).2 * x⁻¹), ch.2, s.k + 1⟩) := by
    rw [proveQuadLoopI, if_pos hh3]
    rw [multiExp_ok (gs := s.gs.drop h) (by simp; omega) (by omega),
      multiExp_ok (gs := s.gs) (by omega) (by simp; omega),
      multiExp_ok (gs := s.hs) (by omega) (by simp; omega),
      multiExp_ok (gs := s.hs.drop h) (by simp; omega) (by omega),
      innerProduct_ok (a := s.as) (by omega) (by simp; omega),
      innerProduct_ok (a := s.as.drop h) (by simp; omega) (by omega)]
    simp only [Res.ok_bind, e1, e2, e3, e4, Env.processPoint, Env.newChallenge, lblL, lblR, lblx]
    simp only [QuadProverState.cut] at hL hR
    rw [← hL, ← hR]
    generalize E.challenge _ _ _ = ch
    by_cases hx : E.scalarReduce ch.1 = 0
    · simp [inverseOf, hx]
    · rw [inverseOf, if_neg hx, if_neg hx]
      simp only [Res.ok_bind]
      rw [rdN_ok (by simp; omega), rdN_ok (by simp; omega), foldGeneratorsI_ok _ _ hh1.le hh2 hg,
        foldGeneratorsI_ok _ _ hh1.le hh2 hhs]
      simp only [Res.ok_bind]
      rw [addInto_fold _ _ _ hh1.le hh2 ha, addInto_fold _ _ _ hh1.le hh2 hb]
  have hst : (s.cut n).st = s.st := rfl
  rw [hst] at h0 hs
  rw [hI]
  dsimp only
  generalize E.challenge (E.commit (E.commit s.st (decBytes n ++ [76]) (E.pointBytes L)) [82]
          (E.pointBytes R)) [120] 64 = ch at h0 hs ⊢
  refine ⟨fun hx => ⟨h0 hx, if_pos hx⟩, fun hx => ⟨_, ?_, if_neg hx, rfl, rfl, rfl, rfl, rfl, rfl, rfl⟩⟩
  rw [hs hx]
  have c1 : ∀ (c : F) (v : List F), n ≤ v.length → (foldP h c (v.take n) ++ v.drop h).take h = foldS h c (v.take n) := by
    intro c v hv
    rw [foldS_eq_foldP, List.take_append_of_le_length (by simp; omega), List.take_of_length_le (by simp)]
  have c2 : ∀ (c : F) (v w : List G), n ≤ v.length → (foldP h c (v.take n) ++ w).take h = foldP h c (v.take n) := by
    intro c v w hv
    rw [List.take_append_of_le_length (by simp; omega), List.take_of_length_le (by simp)]
  simp only [QuadProverState.cut, List.append_assoc]
  rw [c1 _ _ ha, c1 _ _ hb, c2 _ _ _ hg, c2 _ _ _ hhs]

theorem proveQuadLoopI_spec (E : Env F G) (coins : Nat → F × F) (Fg : G) (ell : Nat) :
    ∀ (n h : Nat) (s : QuadProverState F G E.St), Level n h ell → n ≤ s.as.length →
      n ≤ s.bs.length → n ≤ s.gs.length → n ≤ s.hs.length →
      (proveQuadLoop E coins Fg n h (s.cut n) = .throw ∧ proveQuadLoopI E coins Fg n h s = .throw) ∨
      ∃ e Ls Rs, proveQuadLoop E coins Fg n h (s.cut n) = .ok (e.cut 1) ∧
        proveQuadLoopI E coins Fg n h s = .ok e ∧ Ls.length = ell ∧ Rs.length = ell ∧
        e.Ls = s.Ls ++ Ls ∧ e.Rs = s.Rs ++ Rs ∧
        (let xs := (foldChallenges E n s.st Ls Rs).1
         e.as = leftBehind (xs.map (·⁻¹)) (s.as.take n) ++ s.as.drop n ∧
         e.bs = leftBehind xs (s.bs.take n) ++ s.bs.drop n ∧
         e.gs = leftGens xs (s.gs.take n) ++ s.gs.drop n ∧
         e.hs = leftGens (xs.map (·⁻¹)) (s.hs.take n) ++ s.hs.drop n) := by
  induction ell with
  | zero =>
    intro n h s hl ha hb hg hhs
    have hn : n = 1 := hl
    subst hn
    right
    refine ⟨s, [], [], ?_, ?_, rfl, rfl, by simp, by simp, ?_⟩
    · rw [proveQuadLoop, if_neg (by omega)]
    · rw [proveQuadLoopI, if_neg (by omega)]
    · simp only [foldChallenges, List.map_nil]
      rw [leftBehind_nil _ (by simp; omega), leftBehind_nil _ (by simp; omega), leftGens_nil _ (by simp; omega),
        leftGens_nil _ (by simp; omega)]
      exact ⟨(List.take_append_drop 1 _).symm, (List.take_append_drop 1 _).symm,
        (List.take_append_drop 1 _).symm, (List.take_append_drop 1 _).symm⟩
  | succ m ih =>
    intro n h s hl ha hb hg hhs
    obtain ⟨hh1, hh2, hh3, hh4⟩ := hl.half
    obtain ⟨L, R, h0, h1⟩ := proveQuadLoopI_step E coins Fg s hl ha hb hg hhs
    obtain ⟨ch, hch⟩ : ∃ ch, ch = E.challenge (E.commit (E.commit s.st (decBytes n ++ [76])
      (E.pointBytes L)) [82] (E.pointBytes R)) [120] 64 := ⟨_, rfl⟩
    rw [← hch] at h0 h1
    have hfc : ∀ Ls Rs : List G, Ls.length = m → foldChallenges E n s.st (L :: Ls) (R :: Rs) =
        (E.scalarReduce ch.1 :: (foldChallenges E h ch.2 Ls Rs).1, (foldChallenges E h ch.2 Ls Rs).2) := by
      intro Ls Rs hl
      rw [foldChallenges_cons, hl, ← hh4, ← hch]
    by_cases hx : E.scalarReduce ch.1 = 0
    · exact Or.inl (h0 hx)
    · obtain ⟨s', hT, hI, hL', hR', hst', ha', hb', hg', hh'⟩ := h1 hx
      rw [hT, hI]
      have la : (foldP h (E.scalarReduce ch.1)⁻¹ (s.as.take n)).length = h := by simp; omega
      have lb : (foldP h (E.scalarReduce ch.1) (s.bs.take n)).length = h := by simp; omega
      have lg : (foldP h (E.scalarReduce ch.1) (s.gs.take n)).length = h := by simp; omega
      have lh : (foldP h (E.scalarReduce ch.1)⁻¹ (s.hs.take n)).length = h := by simp; omega
      rcases ih h (h / 2) s' hl.next (by rw [ha', List.length_append]; omega)
        (by rw [hb', List.length_append]; omega)
        (by rw [hg', List.append_assoc, List.length_append]; omega)
        (by rw [hh', List.append_assoc, List.length_append]; omega) with
        h | ⟨e, Ls, Rs, heT, heI, hLs, hRs, heL, heR, hea, heb, heg, heh⟩
      · exact Or.inl h
      · right
        refine ⟨e, L :: Ls, R :: Rs, heT, heI, by simp [hLs], by simp [hRs], ?_, ?_, ?_⟩
        · rw [heL, hL']; simp
        · rw [heR, hR']; simp
        · rw [hfc _ _ hLs]
          rw [hst'] at hea heb heg heh
          have hxl : (foldChallenges E h ch.2 Ls Rs).1.length = m := by simp; omega
          generalize (foldChallenges E h ch.2 Ls Rs).1 = xs at hxl hea heb heg heh ⊢
          dsimp only
          refine ⟨?_, ?_, ?_, ?_⟩
          · rw [hea, ha', List.map_cons, leftBehind_cons _ _ _ (by simp [hxl, ← hh4]; omega)
              (by simp [hxl, ← hh4]; omega), List.length_map, hxl, ← hh4,
              List.take_append_of_le_length (by rw [la]), List.take_of_length_le (by rw [la]),
              List.drop_append_of_le_length (by rw [la]), List.drop_of_length_le (by rw [la]),
              List.nil_append, List.append_assoc]
            congr 1
            exact drop_split _ hh1.le
          · rw [heb, hb', leftBehind_cons _ _ _ (by simp [hxl, ← hh4]; omega)
              (by simp [hxl, ← hh4]; omega), hxl, ← hh4,
              List.take_append_of_le_length (by rw [lb]), List.take_of_length_le (by rw [lb]),
              List.drop_append_of_le_length (by rw [lb]), List.drop_of_length_le (by rw [lb]),
              List.nil_append, List.append_assoc]
            congr 1
            exact drop_split _ hh1.le
          · rw [heg, hg', leftGens_cons _ _ _ (by simp [hxl, ← hh4]; omega)
              (by simp [hxl, ← hh4]; omega), hxl, ← hh4, List.append_assoc,
              List.take_append_of_le_length (by rw [lg]), List.take_of_length_le (by rw [lg]),
              List.drop_append_of_le_length (by rw [lg]), List.drop_of_length_le (by rw [lg]),
              List.nil_append, List.append_assoc]
          · rw [heh, hh', List.map_cons, leftGens_cons _ _ _ (by simp [hxl, ← hh4]; omega)
              (by simp [hxl, ← hh4]; omega), List.length_map, hxl, ← hh4, List.append_assoc,
              List.take_append_of_le_length (by rw [lh]), List.take_of_length_le (by rw [lh]),
              List.drop_append_of_le_length (by rw [lh]), List.drop_of_length_le (by rw [lh]),
              List.nil_append, List.append_assoc]

end
end Verif
