import Verif.Lemmas.Constraints
import Mathlib.Algebra.BigOperators.Group.List.Lemmas

namespace Verif
open Spec

section
variable {F : Type} [Field F]

theorem setDifference_eq (m : PtxtVec F) (ks : List Nat) (hm : Sorted m) (hk : SortedSet ks) :
    setDifference m ks = m.filter fun p => p.1 ∉ ks := by
  induction m, ks using setDifference.induct with
  | case1 ks => simp [setDifference]
  | case2 p m => simp [setDifference]
  | case3 p m k ks hlt ih =>
    rw [setDifference, if_pos hlt, ih (List.pairwise_cons.1 hm).2 hk, List.filter_cons_of_pos]
    simp only [decide_eq_true_eq, List.mem_cons, not_or]
    refine ⟨by omega, fun h => ?_⟩
    have := (List.pairwise_cons.1 hk).1 _ h
    omega
  | case4 p m k ks hlt hgt ih =>
    rw [setDifference, if_neg hlt, if_pos hgt, ih hm (List.pairwise_cons.1 hk).2]
    apply List.filter_congr
    intro q hq
    have : k < q.1 := by
      rcases List.mem_cons.1 hq with rfl | hq
      · exact hgt
      · have := (List.pairwise_cons.1 hm).1 _ hq; omega
    have hne : q.1 ≠ k := by omega
    simp [hne]
  | case5 p m k ks hlt hgt ih =>
    have hpk : p.1 = k := by omega
    rw [setDifference, if_neg hlt, if_neg hgt,
      ih (List.pairwise_cons.1 hm).2 (List.pairwise_cons.1 hk).2, List.filter_cons_of_neg (by simp [hpk])]
    apply List.filter_congr
    intro q hq
    have := (List.pairwise_cons.1 hm).1 _ hq
    have hne : q.1 ≠ k := by omega
    simp [hne]

theorem sorted_filter {T : Type} {m : List (Nat × T)} (h : Sorted m) (f : Nat × T → Bool) :
    Sorted (m.filter f) := List.Pairwise.filter f h

theorem splitLoop_eq (src : PtxtVec F) (by_ : List Nat) (inter diff : PtxtVec F)
    (hi : Sorted (inter ++ src)) (hd : Sorted (diff ++ src)) (hk : SortedSet by_) :
    splitLoop src by_ inter diff
      = (inter ++ src.filter (fun p => p.1 ∈ by_), diff ++ src.filter (fun p => p.1 ∉ by_)) := by
  induction src, by_, inter, diff using splitLoop.induct with
  | case1 by_ inter diff => simp [splitLoop]
  | case2 p src inter diff =>
    rw [splitLoop, mapInsertAll_append _ _ hd]
    simp
  | case3 p src k by_ inter diff hlt ih =>
    have hp : ∀ q ∈ diff, q.1 < p.1 := fun q hq =>
      (List.pairwise_append.1 hd).2.2 q hq p (by simp)
    have hn : p.1 ∉ k :: by_ := by
      simp only [List.mem_cons, not_or]
      refine ⟨by omega, fun h => ?_⟩
      have := (List.pairwise_cons.1 hk).1 _ h
      omega
    rw [splitLoop, if_pos hlt, ih _ _ hk]
    · rw [mapInsert_append _ _ hp, List.filter_cons_of_neg (by simpa using hn),
        List.filter_cons_of_pos (by simpa using hn)]
      simp
    · exact hi.sublist (by simp)
    · rw [mapInsert_append _ _ hp]; simpa using hd
  | case4 p src k by_ inter diff hlt hgt ih =>
    rw [splitLoop, if_neg hlt, if_pos hgt, ih hi hd (List.pairwise_cons.1 hk).2]
    have hgt' : ∀ q ∈ p :: src, q.1 ≠ k := by
      intro q hq
      have hs := (List.pairwise_append.1 hi).2.1
      rcases List.mem_cons.1 hq with rfl | hq
      · omega
      · have := (List.pairwise_cons.1 hs).1 _ hq; omega
    congr 2
    · apply List.filter_congr; intro q hq; simp [hgt' q hq]
    · apply List.filter_congr; intro q hq; simp [hgt' q hq]
  | case5 p src k by_ inter diff hlt hgt ih =>
    have hpk : p.1 = k := by omega
    have hp : ∀ q ∈ inter, q.1 < p.1 := fun q hq =>
      (List.pairwise_append.1 hi).2.2 q hq p (by simp)
    have hs := (List.pairwise_append.1 hi).2.1
    have hgt' : ∀ q ∈ src, q.1 ≠ k := by
      intro q hq
      have := (List.pairwise_cons.1 hs).1 _ hq; omega
    rw [splitLoop, if_neg hlt, if_neg hgt, ih _ _ (List.pairwise_cons.1 hk).2]
    · rw [mapInsert_append _ _ hp, List.filter_cons_of_pos (by simp [hpk]),
        List.filter_cons_of_neg (by simp [hpk])]
      simp only [List.append_assoc, List.singleton_append]
      congr 2
      · congr 1; apply List.filter_congr; intro q hq; simp [hgt' q hq]
      · apply List.filter_congr; intro q hq; simp [hgt' q hq]
    · rw [mapInsert_append _ _ hp]; simpa using hi
    · exact hd.sublist (by simp)

theorem sorted_le_getLast {l : List Nat} (h : SortedSet l) {k : Nat} (hk : l.getLast? = some k) :
    ∀ x ∈ l, x ≤ k := by
  obtain ⟨l', rfl⟩ := List.getLast?_eq_some_iff.1 hk
  intro x hx
  rcases List.mem_append.1 hx with hx | hx
  · exact le_of_lt ((List.pairwise_append.1 h).2.2 x hx k (by simp))
  · simp at hx; omega

theorem sortedMap_le_getLast {T : Type} {m : List (Nat × T)} (h : Sorted m) {p : Nat × T}
    (hk : m.getLast? = some p) : ∀ x ∈ m, x.1 ≤ p.1 := by
  obtain ⟨l', rfl⟩ := List.getLast?_eq_some_iff.1 hk
  intro x hx
  rcases List.mem_append.1 hx with hx | hx
  · exact le_of_lt ((List.pairwise_append.1 h).2.2 x hx p (by simp))
  · simp at hx; subst hx; exact le_refl _

theorem setInsert_append (l : List Nat) (k : Nat) (h : ∀ x ∈ l, x < k) : setInsert l k = l ++ [k] := by
  induction l with
  | nil => rfl
  | cons p m ih =>
    have := h p (by simp)
    unfold setInsert
    rw [if_neg (by omega), if_neg (by omega), ih (fun q hq => h q (by simp [hq]))]
    rfl

theorem toInt32_small {k : Nat} (h : k < 2 ^ 31) : toInt32 k = k := by
  have h2 : k % 2 ^ 32 = k := Nat.mod_eq_of_lt (by omega)
  unfold toInt32
  simp only [h2, if_pos h]

/-- closed form of makeAlmostDisjoint for small indexes -/
theorem makeAlmostDisjoint_spec (lin : LinConstraint F) (quad : QuadConstraint F) (s : F)
    (hl : Sorted lin.terms) (hq : SortedSet quad.indexes)
    (bl : ∀ p ∈ lin.terms, p.1 < 2 ^ 31 - 1) (bq : ∀ i ∈ quad.indexes, i < 2 ^ 31 - 1) :
    ∃ k, makeAlmostDisjoint lin quad s = .ok
        (⟨lin.terms.filter (fun p => p.1 ∉ quad.indexes) ++ [(k, 1)], 0⟩,
         ⟨quad.indexes ++ [k], quad.equalsTo - lin.equalsTo * s⟩, k) ∧
      (∀ p ∈ lin.terms, p.1 < k) ∧ (∀ i ∈ quad.indexes, i < k) ∧
      (k = 0 ∨ k - 1 ∈ keys lin.terms ∨ k - 1 ∈ quad.indexes) := by
  have hset := setDifference_eq lin.terms quad.indexes hl hq
  obtain ⟨l1, hl1⟩ : ∃ l1, l1 = lin.terms.filter (fun p => p.1 ∉ quad.indexes) := ⟨_, rfl⟩
  have hs1 : Sorted l1 := by rw [hl1]; exact sorted_filter hl _
  have hsub : ∀ p ∈ l1, p ∈ lin.terms := by
    intro p hp; rw [hl1] at hp; exact (List.mem_filter.1 hp).1
  have hL : ∃ a : Int, largestKeyLin (⟨l1, 0⟩ : LinConstraint F) = a ∧ -1 ≤ a ∧ a < 2 ^ 31 - 1 ∧
      (∀ p ∈ l1, (p.1 : Int) ≤ a) ∧ (a = -1 ∨ ∃ p ∈ l1, (p.1 : Int) = a) := by
    unfold largestKeyLin
    cases h : l1.getLast? with
    | none =>
      rw [List.getLast?_eq_none_iff] at h
      exact ⟨-1, rfl, by omega, by omega, by simp [h], .inl rfl⟩
    | some p =>
      have hp : p ∈ l1 := List.mem_of_getLast? h
      have := bl p (hsub p hp)
      refine ⟨p.1, toInt32_small (by omega), by omega, by omega, ?_, .inr ⟨p, hp, rfl⟩⟩
      intro x hx
      exact_mod_cast sortedMap_le_getLast hs1 h x hx
  have hQ : ∃ a : Int, largestKeyQuad quad = a ∧ -1 ≤ a ∧ a < 2 ^ 31 - 1 ∧
      (∀ i ∈ quad.indexes, (i : Int) ≤ a) ∧ (a = -1 ∨ ∃ p ∈ quad.indexes, (p : Int) = a) := by
    unfold largestKeyQuad
    cases h : quad.indexes.getLast? with
    | none =>
      rw [List.getLast?_eq_none_iff] at h
      exact ⟨-1, rfl, by omega, by omega, by simp [h], .inl rfl⟩
    | some p =>
      have hp : p ∈ quad.indexes := List.mem_of_getLast? h
      have := bq p hp
      refine ⟨p, toInt32_small (by omega), by omega, by omega, ?_, .inr ⟨p, hp, rfl⟩⟩
      intro x hx
      exact_mod_cast sorted_le_getLast hq h x hx
  obtain ⟨a, ha, ha1, ha2, ha3, ha4⟩ := hL
  obtain ⟨b, hb, hb1, hb2, hb3, hb4⟩ := hQ
  refine ⟨(max a b + 1).toNat, ?_, ?_, ?_, ?_⟩
  · unfold makeAlmostDisjoint
    simp only [hset, ← hl1, ha, hb]
    rw [if_neg (by omega)]
    have hmod : (max a b + 1) % 2 ^ 64 = max a b + 1 := Int.emod_eq_of_lt (by omega) (by omega)
    rw [hmod, mapInsert_append l1, setInsert_append quad.indexes]
    · intro x hx; have := hb3 x hx; omega
    · intro x hx; have := ha3 x hx; simp only; omega
  · intro p hp
    by_cases h : p.1 ∈ quad.indexes
    · have := hb3 _ h; omega
    · have : p ∈ l1 := by rw [hl1, List.mem_filter]; exact ⟨hp, by simpa using h⟩
      have := ha3 p this; omega
  · intro i hi; have := hb3 i hi; omega
  · rcases le_total a b with hab | hab
    · rcases hb4 with h | ⟨p, hp, h⟩
      · left; omega
      · right; right
        have : (max a b + 1).toNat - 1 = p := by omega
        rw [this]; exact hp
    · rcases ha4 with h | ⟨p, hp, h⟩
      · left; omega
      · right; left
        have : (max a b + 1).toNat - 1 = p.1 := by omega
        rw [this]
        exact List.mem_map.2 ⟨p, hsub p hp, rfl⟩

/-! ### operator+= -/

theorem addAssignLoop_throw (l1 l2 : List Nat) (h1 : SortedSet l1) (h2 : SortedSet l2)
    (hc : ∃ x, x ∈ l1 ∧ x ∈ l2) : addAssignLoop l1 l2 = .throw := by
  induction l1, l2 using addAssignLoop.induct with
  | case1 l2 => simp at hc
  | case2 a l1 => simp at hc
  | case3 a l1 b l2 hlt ih =>
    rw [addAssignLoop, if_pos hlt]
    apply ih (List.pairwise_cons.1 h1).2 h2
    obtain ⟨x, hx1, hx2⟩ := hc
    refine ⟨x, ?_, hx2⟩
    rcases List.mem_cons.1 hx1 with rfl | h
    · rcases List.mem_cons.1 hx2 with rfl | h'
      · omega
      · have := (List.pairwise_cons.1 h2).1 _ h'; omega
    · exact h
  | case4 a l1 b l2 hlt hgt ih =>
    rw [addAssignLoop, if_neg hlt, if_pos hgt]
    apply ih h1 (List.pairwise_cons.1 h2).2
    obtain ⟨x, hx1, hx2⟩ := hc
    refine ⟨x, hx1, ?_⟩
    rcases List.mem_cons.1 hx2 with rfl | h
    · rcases List.mem_cons.1 hx1 with rfl | h'
      · omega
      · have := (List.pairwise_cons.1 h1).1 _ h'; omega
    · exact h
  | case5 a l1 b l2 hlt hgt => rw [addAssignLoop, if_neg hlt, if_neg hgt]

theorem addAssignLoop_disjoint (l1 l2 : List Nat) (h1 : SortedSet l1) (h2 : SortedSet l2)
    (hc : ∀ x ∈ l1, x ∉ l2) :
    addAssignLoop l1 l2 = if ∃ x ∈ l1, ∀ y ∈ l2, y < x then .ub else .ok () := by
  induction l1, l2 using addAssignLoop.induct with
  | case1 l2 => simp [addAssignLoop]
  | case2 a l1 => rw [addAssignLoop, if_pos ⟨a, by simp⟩]
  | case3 a l1 b l2 hlt ih =>
    rw [addAssignLoop, if_pos hlt, ih (List.pairwise_cons.1 h1).2 h2
      (fun x hx => hc x (by simp [hx]))]
    have : (∃ x ∈ l1, ∀ y ∈ b :: l2, y < x) ↔ (∃ x ∈ a :: l1, ∀ y ∈ b :: l2, y < x) := by
      constructor
      · rintro ⟨x, hx, h⟩; exact ⟨x, by simp [hx], h⟩
      · rintro ⟨x, hx, h⟩
        rcases List.mem_cons.1 hx with rfl | hx
        · have := h b (by simp); omega
        · exact ⟨x, hx, h⟩
    simp only [this]
  | case4 a l1 b l2 hlt hgt ih =>
    rw [addAssignLoop, if_neg hlt, if_pos hgt, ih h1 (List.pairwise_cons.1 h2).2
      (fun x hx h => hc x hx (by simp [h]))]
    have : (∃ x ∈ a :: l1, ∀ y ∈ l2, y < x) ↔ (∃ x ∈ a :: l1, ∀ y ∈ b :: l2, y < x) := by
      constructor
      · rintro ⟨x, hx, h⟩
        refine ⟨x, hx, ?_⟩
        intro y hy
        rcases List.mem_cons.1 hy with rfl | hy
        · rcases List.mem_cons.1 hx with rfl | hx
          · exact hgt
          · have := (List.pairwise_cons.1 h1).1 _ hx; omega
        · exact h y hy
      · rintro ⟨x, hx, h⟩; exact ⟨x, hx, fun y hy => h y (by simp [hy])⟩
    simp only [this]
  | case5 a l1 b l2 hlt hgt =>
    exfalso
    have : a = b := by omega
    exact hc a (by simp) (by simp [this])

/-! ### checkers -/
variable [DecidableEq F]

theorem checkLinLoop_eq (t w : PtxtVec F) (s : F) :
    checkLinLoop t w s = if keys t = keys w
      then some (s + ((t.zip w).map fun p => p.1.2 * p.2.2).sum) else none := by
  induction t generalizing w s with
  | nil => cases w <;> simp [checkLinLoop, Spec.keys]
  | cons p t ih =>
    cases w with
    | nil => simp [checkLinLoop, Spec.keys]
    | cons q w =>
      rw [checkLinLoop]
      by_cases h : p.1 = q.1
      · rw [if_neg (by simpa using h), ih]
        simp only [Spec.keys, List.map_cons, List.cons.injEq, h, true_and, List.zip_cons_cons,
          List.sum_cons, add_assoc]
      · rw [if_pos h, if_neg]
        simp [Spec.keys, h]

omit [DecidableEq F] in
theorem zip_sum_eq (t w : PtxtVec F) (hw : Sorted w) (hk : keys t = keys w) :
    ((t.zip w).map fun p => p.1.2 * p.2.2).sum = (t.map fun p => p.2 * coef w p.1).sum := by
  have gen : ∀ (t w' : PtxtVec F), (∀ p ∈ w', p ∈ w) → keys t = keys w' →
      ((t.zip w').map fun p => p.1.2 * p.2.2).sum = (t.map fun p => p.2 * coef w p.1).sum := by
    intro t
    induction t with
    | nil => intro w' _ _; simp
    | cons p t ih =>
      intro w' hsub hk
      cases w' with
      | nil => simp [Spec.keys] at hk
      | cons q w' =>
        simp only [Spec.keys, List.map_cons, List.cons.injEq] at hk
        rw [List.zip_cons_cons, List.map_cons, List.sum_cons, List.map_cons, List.sum_cons,
          ih w' (fun p hp => hsub p (by simp [hp])) hk.2, hk.1,
          coef_of_mem w hw q.1 q.2 (hsub q (by simp))]
  exact gen t w (fun _ h => h) hk

theorem checkLinLooseLoop_eq (w : PtxtVec F) (hw : Sorted w) (t : PtxtVec F) (s : F) :
    checkLinLooseLoop w t s = if ∀ p ∈ t, p.2 ≠ 0 → p.1 ∈ keys w
      then some (s + (t.map fun p => p.2 * coef w p.1).sum) else none := by
  induction t generalizing s with
  | nil => simp [checkLinLooseLoop]
  | cons p t ih =>
    rw [checkLinLooseLoop]
    by_cases h0 : p.2 = 0
    · rw [if_neg (by simpa using h0), ih]
      have : (∀ q ∈ p :: t, q.2 ≠ 0 → q.1 ∈ keys w) ↔ ∀ q ∈ t, q.2 ≠ 0 → q.1 ∈ keys w := by
        rw [List.forall_mem_cons]; simp [h0]
      simp only [this, List.map_cons, List.sum_cons, h0, zero_mul, zero_add]
    · rw [if_pos h0]
      cases hf : mapFind w p.1 with
      | none =>
        rw [if_neg]
        intro h
        exact mapFind_none.1 hf (h p (by simp) h0)
      | some x =>
        have hm := mapFind_some hf
        have hk : p.1 ∈ keys w := mem_keys.2 ⟨x, hm⟩
        simp only
        rw [ih]
        simp only [List.forall_mem_cons, hk, implies_true, true_and, List.map_cons, List.sum_cons,
          coef_of_mem w hw p.1 x hm, add_assoc]

theorem checkQuadLoop_eq (is : List Nat) (xs ys : PtxtVec F) (s : F) :
    checkQuadLoop is xs ys s = if is = keys xs ∧ is = keys ys
      then some (s + ((xs.zip ys).map fun p => p.1.2 * p.2.2).sum) else none := by
  induction is generalizing xs ys s with
  | nil => cases xs <;> cases ys <;> simp [checkQuadLoop, Spec.keys]
  | cons i is ih =>
    cases xs with
    | nil => simp [checkQuadLoop, Spec.keys]
    | cons x xs =>
      cases ys with
      | nil => simp [checkQuadLoop, Spec.keys]
      | cons y ys =>
        rw [checkQuadLoop]
        by_cases h : i = x.1 ∧ i = y.1
        · rw [if_neg (by rintro (h' | h') <;> tauto), ih]
          obtain ⟨h1, h2⟩ := h
          simp only [Spec.keys, List.map_cons, List.cons.injEq, ← h1, ← h2, true_and,
            List.zip_cons_cons, List.sum_cons, add_assoc]
        · rw [if_pos (by tauto), if_neg]
          simp only [Spec.keys, List.map_cons, List.cons.injEq]
          tauto

theorem checkQuadLooseLoop_eq (xs ys : PtxtVec F) (hx : Sorted xs) (hy : Sorted ys)
    (is : List Nat) (s : F) :
    checkQuadLooseLoop xs ys is s = if ∀ i ∈ is, i ∈ keys xs ∧ i ∈ keys ys
      then some (s + (is.map fun i => coef xs i * coef ys i).sum) else none := by
  induction is generalizing s with
  | nil => simp [checkQuadLooseLoop]
  | cons i is ih =>
    rw [checkQuadLooseLoop]
    cases hfx : mapFind xs i with
    | none =>
      simp only
      rw [if_neg]
      intro h; exact mapFind_none.1 hfx (h i (by simp)).1
    | some x =>
      cases hfy : mapFind ys i with
      | none =>
        simp only
        rw [if_neg]
        intro h; exact mapFind_none.1 hfy (h i (by simp)).2
      | some y =>
        simp only
        rw [ih]
        have h1 := mapFind_some hfx
        have h2 := mapFind_some hfy
        have k1 : i ∈ keys xs := mem_keys.2 ⟨x, h1⟩
        have k2 : i ∈ keys ys := mem_keys.2 ⟨y, h2⟩
        simp only [List.forall_mem_cons, k1, k2, and_self, true_and, List.map_cons, List.sum_cons,
          coef_of_mem xs hx i x h1, coef_of_mem ys hy i y h2, add_assoc]

/-! ### quadratic merge -/

omit [DecidableEq F] in
theorem quadMergeLoop_spec (cs : List (QuadConstraint F)) (coeffs : List F) (acc : QuadConstraint F)
    (hlen : cs.length = coeffs.length) (ha : SortedSet acc.indexes) :
    SortedSet (quadMergeLoop cs coeffs acc).indexes ∧
    (∀ i, i ∈ (quadMergeLoop cs coeffs acc).indexes ↔ i ∈ acc.indexes ∨ ∃ c ∈ cs, i ∈ c.indexes) ∧
    (quadMergeLoop cs coeffs acc).equalsTo = acc.equalsTo +
      ((cs.zip coeffs).map fun p => p.2 ^ 2 * p.1.equalsTo).sum := by
  induction cs generalizing coeffs acc with
  | nil => simpa [quadMergeLoop] using ha
  | cons c cs ih =>
    cases coeffs with
    | nil => simp at hlen
    | cons x xs =>
      rw [quadMergeLoop]
      obtain ⟨h1, h2, h3⟩ := ih xs ⟨setInsertAll acc.indexes c.indexes,
        acc.equalsTo + c.equalsTo * x * x⟩ (by simpa using hlen) (setInsertAll_sorted _ _ ha)
      refine ⟨h1, ?_, ?_⟩
      · intro i
        rw [h2, setInsertAll_mem]
        simp only [List.mem_cons, exists_eq_or_imp]
        tauto
      · rw [h3]; simp only [List.zip_cons_cons, List.map_cons, List.sum_cons]; ring

omit [DecidableEq F] in
theorem addToKey_keys (m : PtxtVec F) (i : Nat) (a : F) (j : Nat) :
    j ∈ keys (addToKey m i a) ↔ j = i ∨ j ∈ keys m := by
  induction m with
  | nil => simp [addToKey, keys]
  | cons p m ih =>
    unfold addToKey
    split_ifs with h1 h2
    · simp [keys]
    · simp [keys, h2]
    · simp only [keys, List.map_cons, List.mem_cons] at *
      rw [ih]; tauto

end

end Verif
