import Verif.Model.Constraints
import Verif.Spec.Constraints
import Mathlib.Tactic.Ring
import Mathlib.Tactic.LinearCombination
import Mathlib.Algebra.BigOperators.Ring.List

namespace Verif
open Spec

section Sets

theorem setInsert_mem (l : List Nat) (k x : Nat) : x ∈ setInsert l k ↔ x = k ∨ x ∈ l := by
  induction l with
  | nil => simp [setInsert]
  | cons p l ih =>
    unfold setInsert
    split_ifs with h1 h2
    · simp
    · subst h2; simp
    · simp only [List.mem_cons, ih]; tauto

theorem setInsert_sorted (l : List Nat) (k : Nat) (h : SortedSet l) : SortedSet (setInsert l k) := by
  induction l with
  | nil => simp [setInsert, SortedSet]
  | cons p l ih =>
    unfold SortedSet at *
    rw [List.pairwise_cons] at h
    unfold setInsert
    split_ifs with h1 h2
    · rw [List.pairwise_cons]
      refine ⟨?_, List.pairwise_cons.2 h⟩
      intro a ha
      rcases List.mem_cons.1 ha with rfl | ha
      · exact h1
      · exact lt_trans h1 (h.1 a ha)
    · exact List.pairwise_cons.2 h
    · rw [List.pairwise_cons]
      refine ⟨?_, ih h.2⟩
      intro a ha
      rcases (setInsert_mem l k a).1 ha with rfl | ha
      · omega
      · exact h.1 a ha

theorem setInsertAll_mem (l ks : List Nat) (x : Nat) :
    x ∈ setInsertAll l ks ↔ x ∈ l ∨ x ∈ ks := by
  induction ks generalizing l with
  | nil => simp [setInsertAll]
  | cons k ks ih =>
    have := ih (setInsert l k)
    simp only [setInsertAll, List.foldl_cons] at *
    rw [this, setInsert_mem, List.mem_cons]; tauto

theorem setInsertAll_sorted (l ks : List Nat) (h : SortedSet l) :
    SortedSet (setInsertAll l ks) := by
  induction ks generalizing l with
  | nil => exact h
  | cons k ks ih => exact ih _ (setInsert_sorted l k h)

theorem sortedSet_ext {l l' : List Nat} (h : SortedSet l) (h' : SortedSet l')
    (hm : ∀ x, x ∈ l ↔ x ∈ l') : l = l' := by
  have h1 : l.Nodup := h.imp (fun {a b} (hab : a < b) => Nat.ne_of_lt hab)
  have h2 : l'.Nodup := h'.imp (fun {a b} (hab : a < b) => Nat.ne_of_lt hab)
  have hp : l.Perm l' := (List.perm_ext_iff_of_nodup h1 h2).2 hm
  exact hp.eq_of_pairwise (fun a b _ _ hab hba => absurd (Nat.lt_trans hab hba) (lt_irrefl _)) h h'

end Sets

section Maps
variable {T : Type}

theorem mapInsert_append (m : List (Nat × T)) (kv : Nat × T) (h : ∀ p ∈ m, p.1 < kv.1) :
    mapInsert m kv = m ++ [kv] := by
  induction m with
  | nil => rfl
  | cons p m ih =>
    have := h p (by simp)
    unfold mapInsert
    rw [if_neg (by omega), if_neg (by omega), ih (fun q hq => h q (by simp [hq]))]
    rfl

theorem mapInsertAll_append (m kvs : List (Nat × T)) (h : Sorted (m ++ kvs)) :
    mapInsertAll m kvs = m ++ kvs := by
  induction kvs generalizing m with
  | nil => simp [mapInsertAll]
  | cons p kvs ih =>
    have hp : ∀ q ∈ m, q.1 < p.1 := by
      intro q hq
      exact (List.pairwise_append.1 h).2.2 q hq p (by simp)
    have := ih (m ++ [p]) (by simpa [List.append_assoc] using h)
    simp only [mapInsertAll, List.foldl_cons] at *
    rw [mapInsert_append m p hp, this]
    simp

theorem keys_sorted {m : List (Nat × T)} (h : Sorted m) : SortedSet (keys m) := by
  unfold SortedSet Spec.keys; exact List.pairwise_map.2 h

theorem mem_keys {m : List (Nat × T)} {i : Nat} : i ∈ keys m ↔ ∃ a, (i, a) ∈ m := by
  simp [Spec.keys]

theorem mapFind_none {m : List (Nat × T)} {i : Nat} : mapFind m i = none ↔ i ∉ keys m := by
  induction m with
  | nil => simp [mapFind, Spec.keys]
  | cons p m ih =>
    unfold mapFind
    split_ifs with h
    · simp [Spec.keys, h]
    · rw [ih]
      simp only [Spec.keys, List.map_cons, List.mem_cons, not_or]
      tauto

theorem mapFind_some {m : List (Nat × T)} {i : Nat} {a : T} (h : mapFind m i = some a) :
    (i, a) ∈ m := by
  induction m with
  | nil => simp [mapFind] at h
  | cons p m ih =>
    unfold mapFind at h
    split_ifs at h with h1
    · simp only [Option.some.injEq] at h
      subst h h1; simp
    · exact List.mem_cons_of_mem _ (ih h)

theorem mapFind_of_mem {m : List (Nat × T)} (hs : Sorted m) {i : Nat} {a : T} (h : (i, a) ∈ m) :
    mapFind m i = some a := by
  induction m with
  | nil => simp at h
  | cons p m ih =>
    unfold Sorted at hs
    rw [List.pairwise_cons] at hs
    unfold mapFind
    rcases List.mem_cons.1 h with rfl | h
    · simp
    · have := hs.1 _ h
      rw [if_neg (by simp at this; omega)]
      exact ih hs.2 h

theorem mapInsert_mem_keys (m : List (Nat × T)) (kv : Nat × T) (x : Nat) :
    x ∈ keys (mapInsert m kv) ↔ x = kv.1 ∨ x ∈ keys m := by
  induction m with
  | nil => simp [mapInsert, Spec.keys]
  | cons p l ih =>
    unfold mapInsert
    split_ifs with h1 h2
    · simp [Spec.keys]
    · simp [Spec.keys, h2]
    · simp only [Spec.keys, List.map_cons, List.mem_cons] at *
      rw [ih]; tauto

end Maps

section
variable {F : Type} [Field F]

@[simp] theorem coef_nil (i : Nat) : coef ([] : PtxtVec F) i = 0 := rfl

theorem coef_cons (p : Nat × F) (m : PtxtVec F) (i : Nat) :
    coef (p :: m) i = (if p.1 = i then p.2 else 0) + coef m i := rfl

theorem coef_append (m m' : PtxtVec F) (i : Nat) : coef (m ++ m') i = coef m i + coef m' i := by
  simp [coef]

theorem coef_eq_zero (m : PtxtVec F) (i : Nat) (h : i ∉ keys m) : coef m i = 0 := by
  induction m with
  | nil => rfl
  | cons p m ih =>
    simp only [Spec.keys, List.map_cons, List.mem_cons, not_or] at h
    rw [coef_cons, if_neg (by tauto), ih (by exact h.2), add_zero]

theorem coef_of_mem (m : PtxtVec F) (hs : Sorted m) (i : Nat) (a : F) (h : (i, a) ∈ m) :
    coef m i = a := by
  induction m with
  | nil => simp at h
  | cons p m ih =>
    unfold Sorted at hs
    rw [List.pairwise_cons] at hs
    rw [coef_cons]
    rcases List.mem_cons.1 h with rfl | h
    · rw [coef_eq_zero]
      · simp
      · intro hk
        obtain ⟨a, ha⟩ := mem_keys.1 hk
        have := hs.1 _ ha
        simp at this
    · have := hs.1 _ h
      rw [if_neg (by simp at this; omega), zero_add, ih hs.2 h]

theorem coef_eq_mapFind (m : PtxtVec F) (hs : Sorted m) (i : Nat) :
    coef m i = (mapFind m i).getD 0 := by
  cases h : mapFind m i with
  | none => exact coef_eq_zero m i (mapFind_none.1 h)
  | some a => exact coef_of_mem m hs i a (mapFind_some h)

/-- sum over the entries of one map of a product with the coefficient of another -/
theorem innerProductMapLoop_eq (v1 v2 : PtxtVec F) (s : F) (h1 : Sorted v1) (h2 : Sorted v2) :
    innerProductMapLoop v1 v2 s = s + (v1.map fun p => p.2 * coef v2 p.1).sum := by
  induction v1, v2, s using innerProductMapLoop.induct with
  | case1 v2 s => simp [innerProductMapLoop]
  | case2 p v1 s => simp [innerProductMapLoop]
  | case3 p v1 q v2 s hlt ih =>
    rw [innerProductMapLoop, if_pos hlt, ih (List.pairwise_cons.1 h1).2 h2, List.map_cons,
      List.sum_cons]
    rw [coef_eq_zero (q :: v2) p.1]
    · ring
    · intro hk
      obtain ⟨a, ha⟩ := mem_keys.1 hk
      rcases List.mem_cons.1 ha with h | h
      · rw [← h] at hlt; simp at hlt
      · have := (List.pairwise_cons.1 h2).1 _ h
        simp at this; omega
  | case4 p v1 q v2 s hlt hgt ih =>
    rw [innerProductMapLoop, if_neg hlt, if_pos hgt, ih h1 (List.pairwise_cons.1 h2).2]
    congr 2
    apply List.map_congr_left
    intro r hr
    rw [coef_cons, if_neg, zero_add]
    rcases List.mem_cons.1 hr with rfl | h
    · omega
    · have := (List.pairwise_cons.1 h1).1 _ h
      omega
  | case5 p v1 q v2 s hlt hgt ih =>
    rw [innerProductMapLoop, if_neg hlt, if_neg hgt,
      ih (List.pairwise_cons.1 h1).2 (List.pairwise_cons.1 h2).2]
    have hpq : p.1 = q.1 := by omega
    rw [List.map_cons, List.sum_cons, coef_cons, if_pos hpq.symm, coef_eq_zero v2 p.1]
    · have : (v1.map fun r => r.2 * coef (q :: v2) r.1) = v1.map fun r => r.2 * coef v2 r.1 := by
        apply List.map_congr_left
        intro r hr
        have := (List.pairwise_cons.1 h1).1 _ hr
        rw [coef_cons, if_neg (by omega), zero_add]
      rw [this]; ring
    · intro hk
      obtain ⟨a, ha⟩ := mem_keys.1 hk
      have := (List.pairwise_cons.1 h2).1 _ ha
      simp at this; omega

theorem map_sum_comm {α β : Type} (l : List α) (m : List β) (f : α → β → F) :
    (l.map fun a => (m.map fun b => f a b).sum).sum = (m.map fun b => (l.map fun a => f a b).sum).sum := by
  induction l with
  | nil => simp
  | cons a l ih => simp [ih, List.sum_map_add]

theorem sum_coef_comm (v1 v2 : PtxtVec F) :
    (v1.map fun p => p.2 * coef v2 p.1).sum = (v2.map fun p => p.2 * coef v1 p.1).sum := by
  simp only [coef, ← List.sum_map_mul_left]
  rw [map_sum_comm]
  congr 1
  apply List.map_congr_left; intro q _
  congr 1
  apply List.map_congr_left; intro p _
  by_cases h : p.1 = q.1
  · simp [h, mul_comm]
  · rw [if_neg (fun e => h e.symm), if_neg h]; simp

/-! ### merge -/
variable [DecidableEq F]

/-- contribution of the queue to the coefficient at `i` -/
def qCoef (coeffs : List F) (q : List (CompIter F)) (i : Nat) : F :=
  (q.map fun d => coef (d.head :: d.rest) i * coeffs.getD d.cIdx 0).sum

omit [DecidableEq F] in
theorem qCoef_eraseIdx (coeffs : List F) (q : List (CompIter F)) (i j : Nat) (h : j < q.length) :
    qCoef coeffs q i = coef (q[j].head :: q[j].rest) i * coeffs.getD q[j].cIdx 0
      + qCoef coeffs (q.eraseIdx j) i := by
  induction q generalizing j with
  | nil => simp at h
  | cons d q ih =>
    cases j with
    | zero => simp [qCoef]
    | succ j =>
      have := ih j (by simpa using h)
      simp only [qCoef, List.eraseIdx_cons_succ, List.map_cons, List.sum_cons,
        List.getElem_cons_succ] at this ⊢
      rw [this]; ring

omit [DecidableEq F] in
theorem qCoef_pushNext (coeffs : List F) (d : CompIter F) (q : List (CompIter F)) (i : Nat) :
    qCoef coeffs (pushNext d q) i = coef d.rest i * coeffs.getD d.cIdx 0 + qCoef coeffs q i := by
  unfold pushNext
  split
  · next h => simp [h]
  · next h t hh => simp [hh, qCoef]

omit [Field F] [DecidableEq F] in
theorem minKey_le (e : CompIter F) (q : List (CompIter F)) :
    ∀ d ∈ e :: q, minKey e q ≤ d.head.1 := by
  have gen : ∀ (q : List (CompIter F)) (m : Nat),
      q.foldl (fun m d => min m d.head.1) m ≤ m ∧
      ∀ d ∈ q, q.foldl (fun m d => min m d.head.1) m ≤ d.head.1 := by
    intro q
    induction q with
    | nil => intro m; simp
    | cons d q ih =>
      intro m
      simp only [List.foldl_cons]
      have := ih (min m d.head.1)
      refine ⟨le_trans this.1 (Nat.min_le_left _ _), ?_⟩
      intro x hx
      rcases List.mem_cons.1 hx with rfl | hx
      · exact le_trans this.1 (Nat.min_le_right _ _)
      · exact this.2 x hx
  intro d hd
  have := gen q e.head.1
  rcases List.mem_cons.1 hd with rfl | hd
  · exact this.1
  · exact this.2 d hd

/-- Well-formed queue relative to the current key. -/
structure QOk (coeffs : List F) (k : Nat) (q : List (CompIter F)) : Prop where
  idx : ∀ d ∈ q, d.cIdx < coeffs.length
  sorted : ∀ d ∈ q, Sorted (d.head :: d.rest)
  ge : ∀ d ∈ q, k ≤ d.head.1

omit [Field F] [DecidableEq F] in
theorem QOk.next {coeffs : List F} {k : Nat} {q : List (CompIter F)} {j : Nat}
    (h : QOk coeffs k q) (hj : j < q.length) (k' : Nat) (hk' : ∀ d ∈ q, k' ≤ d.head.1) :
    QOk coeffs k' (pushNext q[j] (q.eraseIdx j)) := by
  have hsub : ∀ d ∈ q.eraseIdx j, d ∈ q := fun d hd => List.mem_of_mem_eraseIdx hd
  have hm : q[j] ∈ q := List.getElem_mem hj
  have key : ∀ d ∈ pushNext q[j] (q.eraseIdx j), (d ∈ q) ∨
      (∃ h t, q[j].rest = h :: t ∧ d = { cIdx := q[j].cIdx, head := h, rest := t }) := by
    intro d hd
    unfold pushNext at hd
    split at hd
    · exact .inl (hsub d hd)
    · next h t hr =>
      rcases List.mem_cons.1 hd with rfl | hd
      · exact .inr ⟨_, _, hr, rfl⟩
      · exact .inl (hsub d hd)
  have hs := h.sorted _ hm
  refine ⟨fun d hd => ?_, fun d hd => ?_, fun d hd => ?_⟩
  · rcases key d hd with hd | ⟨_, _, _, rfl⟩
    · exact h.idx d hd
    · exact h.idx q[j] hm
  · rcases key d hd with hd | ⟨a, t, hr, rfl⟩
    · exact h.sorted d hd
    · rw [hr] at hs; exact (List.pairwise_cons.1 hs).2
  · rcases key d hd with hd | ⟨a, t, hr, rfl⟩
    · exact hk' d hd
    · rw [hr] at hs
      have := (List.pairwise_cons.1 hs).1 a (by simp)
      have := hk' _ hm
      simp only; omega

/-- Keys that can appear. -/
def qKeys (q : List (CompIter F)) (i : Nat) : Prop := ∃ d ∈ q, i ∈ keys (d.head :: d.rest)

omit [Field F] [DecidableEq F] in
theorem qKeys_next {q : List (CompIter F)} {j : Nat} (hj : j < q.length) {i : Nat}
    (h : qKeys (pushNext q[j] (q.eraseIdx j)) i) : qKeys q i := by
  obtain ⟨d, hd, hi⟩ := h
  unfold pushNext at hd
  split at hd
  · exact ⟨d, List.mem_of_mem_eraseIdx hd, hi⟩
  · next h t hr =>
    rcases List.mem_cons.1 hd with rfl | hd
    · refine ⟨q[j], List.getElem_mem hj, ?_⟩
      rw [hr]
      simp only [Spec.keys, List.map_cons, List.mem_cons] at hi ⊢
      tauto
    · exact ⟨d, List.mem_of_mem_eraseIdx hd, hi⟩

theorem mergeLoop_spec (coeffs : List F) (tie : List (CompIter F) → Nat)
    (q : List (CompIter F)) (cur : Nat × F) (terms : PtxtVec F)
    (hq : QOk coeffs cur.1 q) (hs : Sorted terms) (hlt : ∀ p ∈ terms, p.1 < cur.1)
    (hnz : ∀ p ∈ terms, p.2 ≠ 0) :
    ∃ t, mergeLoop coeffs tie q cur terms = .ok t ∧ Sorted t ∧
      (∀ i, coef t i = coef terms i + (if cur.1 = i then cur.2 else 0) + qCoef coeffs q i) ∧
      (∀ p ∈ t.dropLast, p.2 ≠ 0) ∧
      (∀ i ∈ keys t, i ∈ keys terms ∨ i = cur.1 ∨ qKeys q i) := by
  obtain ⟨n, hn⟩ : ∃ n, queueSize q = n := ⟨_, rfl⟩
  induction n using Nat.strong_induction_on generalizing q cur terms with
  | _ n ih =>
    have hsA : Sorted (terms ++ [cur]) := by
      unfold Sorted; rw [List.pairwise_append]
      exact ⟨hs, by simp, by simpa using fun a b hab => hlt (a, b) hab⟩
    cases q with
    | nil =>
      refine ⟨terms ++ [cur], ?_, hsA, ?_, ?_, ?_⟩
      · rw [mergeLoop, mapInsert_append terms cur hlt]
      · intro i; simp [coef_append, coef_cons, qCoef]
      · simpa using fun a b hab => hnz (a, b) hab
      · intro i hi; simp only [Spec.keys, List.map_append, List.mem_append, List.map_cons,
          List.map_nil, List.mem_singleton] at hi ⊢; tauto
    | cons e q =>
      obtain ⟨j, hj, hpop, hmin⟩ := popTop_spec tie e q
      have hsize := popTop_size tie e q
      rw [mergeLoop]
      obtain ⟨all, hall⟩ : ∃ all, all = e :: q := ⟨_, rfl⟩
      simp only [hpop] at hsize ⊢
      have hjm : (e :: q)[j] ∈ e :: q := List.getElem_mem hj
      rw [rd_ok (hq.idx _ hjm)]
      have hget : coeffs.getD (e :: q)[j].cIdx 0 = coeffs[(e :: q)[j].cIdx]'(hq.idx _ hjm) := by
        simp [List.getD_eq_getElem?_getD, hq.idx _ hjm]
      have hge : ∀ d ∈ e :: q, (e :: q)[j].head.1 ≤ d.head.1 := by
        intro d hd; rw [hmin]; exact minKey_le e q d hd
      have hcur := hq.ge _ hjm
      dsimp only
      split_ifs with hk hz
      · obtain ⟨t, h1, h2, h3, h4, h5⟩ := ih _ (by rw [← hn]; exact hsize) _
          (cur.1, cur.2 + (e :: q)[j].head.2 * coeffs[(e :: q)[j].cIdx]'(hq.idx _ hjm)) _
          (hq.next hj cur.1 hq.ge) hs hlt hnz rfl
        refine ⟨t, h1, h2, ?_, h4, ?_⟩
        · intro i
          rw [h3, qCoef_pushNext, qCoef_eraseIdx coeffs (e :: q) i j hj, coef_cons, hk, ← hget]
          dsimp only
          by_cases hi : cur.1 = i
          · simp only [hi, if_true]; ring
          · simp only [hi, if_false]; ring
        · intro i hi
          rcases h5 i hi with h | h | h
          · exact .inl h
          · exact .inr (.inl h)
          · exact .inr (.inr (qKeys_next hj h))
      · rw [mapInsert_append terms cur hlt]
        obtain ⟨t, h1, h2, h3, h4, h5⟩ := ih _ (by rw [← hn]; exact hsize)
          (pushNext (e :: q)[j] ((e :: q).eraseIdx j))
          ((e :: q)[j].head.1, (e :: q)[j].head.2 * coeffs[(e :: q)[j].cIdx]'(hq.idx _ hjm))
          (terms ++ [cur])
          (hq.next hj _ hge) hsA
          (by
            intro p hp
            rcases List.mem_append.1 hp with hp | hp
            · have := hlt p hp; dsimp only; omega
            · simp only [List.mem_singleton] at hp; subst hp; dsimp only; omega)
          (by
            intro p hp
            rcases List.mem_append.1 hp with hp | hp
            · exact hnz p hp
            · simp only [List.mem_singleton] at hp; subst hp; exact hz) rfl
        refine ⟨t, h1, h2, ?_, h4, ?_⟩
        · intro i
          rw [h3, qCoef_pushNext, qCoef_eraseIdx coeffs (e :: q) i j hj, coef_cons, ← hget,
            coef_append, coef_cons, coef_nil]
          split_ifs <;> ring
        · intro i hi
          rcases h5 i hi with h | h | h
          · simp only [Spec.keys, List.map_append, List.mem_append, List.map_cons,
              List.map_nil, List.mem_singleton] at h ⊢; tauto
          · exact .inr (.inr ⟨_, hjm, by simp [Spec.keys, h]⟩)
          · exact .inr (.inr (qKeys_next hj h))
      · obtain ⟨t, h1, h2, h3, h4, h5⟩ := ih _ (by rw [← hn]; exact hsize)
          (pushNext (e :: q)[j] ((e :: q).eraseIdx j))
          ((e :: q)[j].head.1, (e :: q)[j].head.2 * coeffs[(e :: q)[j].cIdx]'(hq.idx _ hjm))
          terms
          (hq.next hj _ hge) hs
          (by intro p hp; have := hlt p hp; dsimp only; omega) hnz rfl
        refine ⟨t, h1, h2, ?_, h4, ?_⟩
        · intro i
          rw [h3, qCoef_pushNext, qCoef_eraseIdx coeffs (e :: q) i j hj, coef_cons, ← hget]
          have hz' : cur.2 = 0 := by simpa using hz
          rw [hz']
          split_ifs <;> ring
        · intro i hi
          rcases h5 i hi with h | h | h
          · exact .inl h
          · exact .inr (.inr ⟨_, hjm, by simp [Spec.keys, h]⟩)
          · exact .inr (.inr (qKeys_next hj h))

/-- The initial queue. -/
theorem mergeQueue_spec (coeffs : List F) (cs : List (LinConstraint F)) (k : Nat)
    (hk : k + cs.length ≤ coeffs.length) (hs : ∀ c ∈ cs, Sorted c.terms) :
    ∃ q, mergeQueue coeffs cs k = .ok q ∧
      (∀ d ∈ q, d.cIdx < coeffs.length ∧ Sorted (d.head :: d.rest)) ∧
      (∀ i, qCoef coeffs q i = ((cs.zip (coeffs.drop k)).map fun p => p.2 * coef p.1.terms i).sum) ∧
      (∀ i, qKeys q i → ∃ c ∈ cs, i ∈ keys c.terms) ∧
      (q = [] → ∀ p ∈ cs.zip (coeffs.drop k), p.1.terms = [] ∨ p.2 = 0) := by
  induction cs generalizing k with
  | nil => exact ⟨[], rfl, by simp, by simp [qCoef], by simp [qKeys], by simp⟩
  | cons c cs ih =>
    simp only [List.length_cons] at hk
    have hkl : k < coeffs.length := by omega
    obtain ⟨q, h1, h2, h3, h4, h5⟩ := ih (k + 1) (by omega) (fun c hc => hs c (by simp [hc]))
    have hdrop : coeffs.drop k = coeffs[k] :: coeffs.drop (k + 1) := List.drop_eq_getElem_cons hkl
    have h4' : ∀ i, qKeys q i → ∃ c' ∈ c :: cs, i ∈ keys c'.terms := by
      intro i hi
      obtain ⟨c', hc', h⟩ := h4 i hi
      exact ⟨c', by simp [hc'], h⟩
    rw [mergeQueue, rd_ok hkl, h1]
    simp only [Res.ok_bind, hdrop, List.zip_cons_cons, List.map_cons, List.sum_cons]
    split
    · next hc =>
      refine ⟨q, rfl, h2, ?_, h4', ?_⟩
      · intro i; rw [h3]; simp [hc]
      · intro hq p hp
        rcases List.mem_cons.1 hp with rfl | hp
        · left; exact hc
        · exact h5 hq p hp
    · next a t hc =>
      split_ifs with hx
      · refine ⟨q, rfl, h2, ?_, h4', ?_⟩
        · intro i; rw [h3]; simp [hx]
        · intro hq p hp
          rcases List.mem_cons.1 hp with rfl | hp
          · right; exact hx
          · exact h5 hq p hp
      · refine ⟨_, rfl, ?_, ?_, ?_, by simp⟩
        · intro d hd
          rcases List.mem_cons.1 hd with rfl | hd
          · refine ⟨hkl, ?_⟩
            have := hs c (by simp)
            rwa [hc] at this
          · exact h2 d hd
        · intro i
          have := h3 i
          simp only [qCoef, List.map_cons, List.sum_cons] at this ⊢
          rw [this, hc]
          simp [List.getD_eq_getElem?_getD, hkl]
          ring
        · rintro i ⟨d, hd, hi⟩
          rcases List.mem_cons.1 hd with rfl | hd
          · exact ⟨c, by simp, by rw [hc]; exact hi⟩
          · exact h4' i ⟨d, hd, hi⟩

theorem mergeEq_spec (coeffs : List F) (cs : List (LinConstraint F)) (k : Nat) (acc : F)
    (hk : k + cs.length ≤ coeffs.length) :
    mergeEq coeffs cs k acc = .ok (acc + (((cs.zip (coeffs.drop k)).filter
      fun p => p.1.terms.length ≠ 0).map fun p => p.2 * p.1.equalsTo).sum) := by
  induction cs generalizing k acc with
  | nil => simp [mergeEq]
  | cons c cs ih =>
    simp only [List.length_cons] at hk
    have hkl : k < coeffs.length := by omega
    have hdrop : coeffs.drop k = coeffs[k] :: coeffs.drop (k + 1) := List.drop_eq_getElem_cons hkl
    rw [mergeEq, rd_ok hkl, hdrop, List.zip_cons_cons]
    simp only [Res.ok_bind]
    by_cases hc : c.terms.length = 0
    · rw [if_neg (by omega), ih (k + 1) acc (by omega), List.filter_cons_of_neg (by simpa using hc)]
    · rw [List.filter_cons_of_pos (by simpa using hc), List.map_cons, List.sum_cons]
      split_ifs with h
      · rw [ih (k + 1) _ (by omega)]; congr 1; ring
      · have h0 : coeffs[k] = 0 := by
          by_contra h0; exact h ⟨by omega, h0⟩
        rw [ih (k + 1) _ (by omega), h0]; congr 1; ring

theorem merge_spec (tie : List (CompIter F) → Nat) (cs : List (LinConstraint F)) (coeffs : List F)
    (hlen : cs.length = coeffs.length) (hs : ∀ c ∈ cs, Sorted c.terms) :
    ∃ c, LinConstraint.merge tie cs coeffs = .ok c ∧ Sorted c.terms ∧
      (∀ i, coef c.terms i = ((cs.zip coeffs).map fun p => p.2 * coef p.1.terms i).sum) ∧
      c.equalsTo = (((cs.zip coeffs).filter fun p => p.1.terms.length ≠ 0).map
        fun p => p.2 * p.1.equalsTo).sum ∧
      (∀ p ∈ c.terms.dropLast, p.2 ≠ 0) ∧
      (∀ i ∈ keys c.terms, ∃ c ∈ cs, i ∈ keys c.terms) := by
  obtain ⟨q, h1, h2, h3, h4, h5⟩ := mergeQueue_spec coeffs cs 0 (by omega) hs
  rw [List.drop_zero] at h3 h5
  unfold LinConstraint.merge
  rw [if_neg (by omega), h1]
  simp only [Res.ok_bind]
  cases q with
  | nil =>
    refine ⟨_, rfl, by simp [Sorted], ?_, ?_, by simp, by simp [Spec.keys]⟩
    · intro i; rw [← h3]; simp [qCoef]
    · simp only
      symm
      apply List.sum_eq_zero
      intro x hx
      simp only [List.mem_map, List.mem_filter] at hx
      obtain ⟨p, ⟨hp, hpl⟩, rfl⟩ := hx
      rcases h5 rfl p hp with h | h
      · simp [h] at hpl
      · simp [h]
  | cons e q =>
    obtain ⟨j, hj, hpop, hmin⟩ := popTop_spec tie e q
    have hq : QOk coeffs (popTop tie e q).1.head.1 (e :: q) := by
      refine ⟨fun d hd => (h2 d hd).1, fun d hd => (h2 d hd).2, ?_⟩
      intro d hd
      rw [hpop]; simp only; rw [hmin]; exact minKey_le e q d hd
    obtain ⟨t, ht1, ht2, ht3, ht4, ht5⟩ := mergeLoop_spec coeffs tie (e :: q)
      ((popTop tie e q).1.head.1, 0) [] hq (by simp [Sorted]) (by simp) (by simp)
    have heq := mergeEq_spec coeffs cs 0 0 (by omega)
    rw [List.drop_zero, zero_add] at heq
    simp only [ht1, Res.ok_bind, heq, Res.pure_eq]
    refine ⟨_, rfl, ht2, ?_, rfl, ht4, ?_⟩
    · intro i; rw [ht3, h3]; simp
    · intro i hi
      rcases ht5 i hi with h | h | h
      · simp [Spec.keys] at h
      · refine h4 i ⟨(e :: q)[j], List.getElem_mem hj, ?_⟩
        rw [h, hpop]; simp [Spec.keys]
      · exact h4 i h

/-! ### from coefficients to sums -/

omit [DecidableEq F] in
/-- A map's sum only depends on its coefficients: sum over any list of distinct indexes
that contains the keys. -/
theorem sum_eq_coef (m : PtxtVec F) (x : Nat → F) (I : List Nat) (hI : I.Nodup)
    (hk : ∀ i ∈ keys m, i ∈ I) :
    (m.map fun p => p.2 * x p.1).sum = (I.map fun i => coef m i * x i).sum := by
  induction m with
  | nil => simp
  | cons p m ih =>
    have hp : p.1 ∈ I := hk p.1 (by simp [Spec.keys])
    rw [List.map_cons, List.sum_cons, ih (fun i hi => hk i (by
      simp only [Spec.keys, List.map_cons, List.mem_cons] at hi ⊢; tauto))]
    have hsingle : ∀ (I : List Nat), I.Nodup → p.1 ∈ I →
        (I.map fun i => (if p.1 = i then p.2 else 0) * x i).sum = p.2 * x p.1 := by
      intro I hI hp
      induction I with
      | nil => simp at hp
      | cons a I ihI =>
        rw [List.nodup_cons] at hI
        rw [List.map_cons, List.sum_cons]
        rcases List.mem_cons.1 hp with h | h
        · have : (I.map fun i => (if p.1 = i then p.2 else 0) * x i).sum = 0 := by
            apply List.sum_eq_zero
            intro y hy
            obtain ⟨i, hi, rfl⟩ := List.mem_map.1 hy
            rw [if_neg, zero_mul]
            rintro rfl; rw [h] at hi; exact hI.1 hi
          rw [this, if_pos h, add_zero, h]
        · rw [ihI hI.2 h, if_neg, zero_mul, zero_add]
          rintro rfl; exact hI.1 h
    rw [← hsingle I hI hp, ← List.sum_map_add]
    congr 1
    apply List.map_congr_left
    intro i _
    rw [coef_cons]; ring

omit [Field F] [DecidableEq F] in
theorem nodup_keys {T : Type} {m : List (Nat × T)} (h : Sorted m) : (keys m).Nodup :=
  (keys_sorted h).imp (fun {a b} (hab : a < b) => Nat.ne_of_lt hab)

omit [DecidableEq F] in
theorem sum_zip_split (cs : List (LinConstraint F)) (coeffs : List F) (x : Nat → F) (I : List Nat)
    (hI : I.Nodup) (hk : ∀ c ∈ cs, ∀ i ∈ keys c.terms, i ∈ I) :
    (I.map fun i => ((cs.zip coeffs).map fun p => p.2 * coef p.1.terms i).sum * x i).sum
      = ((cs.zip coeffs).map fun p => p.2 * (p.1.terms.map fun q => q.2 * x q.1).sum).sum := by
  simp only [← List.sum_map_mul_right]
  rw [map_sum_comm]
  congr 1
  apply List.map_congr_left
  intro p hp
  rw [sum_eq_coef p.1.terms x I hI (hk p.1 (List.of_mem_zip hp).1), ← List.sum_map_mul_left]
  congr 1
  apply List.map_congr_left; intro i _; ring

end

end Verif
