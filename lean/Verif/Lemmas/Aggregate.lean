/-
Lemmas about the aggregation code.
-/
import Verif.Model.Aggregate
import Verif.Spec.Aggregate
import Verif.Lemmas.Constraints2
import Verif.Lemmas.RegevUtils
import Verif.Lemmas.Vec

namespace Verif
open Verif.Spec

section
variable {F : Type} [Field F]

theorem sorted_tab {I : List ℕ} (h : SortedSet I) (x : ℕ → F) : Sorted (tab I x) := by
  unfold Sorted tab
  rw [List.pairwise_map]
  exact h

theorem keys_tab (I : List ℕ) (x : ℕ → F) : keys (tab I x) = I := by
  simp [keys, tab, Function.comp_def]

theorem tab_congr {I : List ℕ} {x y : ℕ → F} (h : ∀ i ∈ I, x i = y i) : tab I x = tab I y := by
  unfold tab
  apply List.map_congr_left
  intro i hi
  rw [h i hi]

theorem map_eq_tab {m : PtxtVec F} (h : Sorted m) : m = tab (keys m) (coef m) := by
  unfold tab keys
  rw [List.map_map]
  conv_lhs => rw [← List.map_id m]
  apply List.map_congr_left
  intro p hp
  simp only [id_eq, Function.comp_apply]
  rw [coef_of_mem m h p.1 p.2 hp]

theorem coef_tab {I : List ℕ} (h : SortedSet I) (x : ℕ → F) (i : ℕ) (hi : i ∈ I) :
    coef (tab I x) i = x i :=
  coef_of_mem _ (sorted_tab h x) i (x i) (List.mem_map.2 ⟨i, hi, rfl⟩)

theorem tab_sum (I : List ℕ) (x y : ℕ → F) :
    ((tab I x).map fun p => p.2 * y p.1).sum = (I.map fun i => x i * y i).sum := by
  simp [tab, Function.comp_def]

theorem sortedSet_range' (a n : ℕ) : SortedSet (List.range' a n) := by
  unfold SortedSet
  exact List.pairwise_lt_range'

theorem sortedSet_range (n : ℕ) : SortedSet (List.range n) := List.pairwise_lt_range

theorem mapModify_keys (f : F → F) (m : PtxtVec F) (i j : ℕ) :
    j ∈ keys (mapModify f m i) ↔ j = i ∨ j ∈ keys m := by
  induction m with
  | nil => simp [mapModify, keys]
  | cons p m ih =>
    unfold mapModify
    split_ifs with h1 h2
    · simp [keys]
    · subst h2; simp [keys]
    · simp only [keys, List.map_cons, List.mem_cons] at ih ⊢
      rw [ih]; tauto

theorem mapModify_sorted (f : F → F) (m : PtxtVec F) (i : ℕ) (h : Sorted m) :
    Sorted (mapModify f m i) := by
  induction m with
  | nil => simp [mapModify, Sorted]
  | cons p m ih =>
    obtain ⟨h1, h2⟩ := List.pairwise_cons.1 h
    unfold mapModify
    split_ifs with c1 c2
    · refine List.pairwise_cons.2 ⟨?_, h⟩
      intro q hq
      rcases List.mem_cons.1 hq with rfl | hq
      · exact c1
      · exact lt_trans c1 (h1 q hq)
    · exact List.pairwise_cons.2 ⟨h1, h2⟩
    · refine List.pairwise_cons.2 ⟨?_, ih h2⟩
      intro q hq
      have : q.1 ∈ keys (mapModify f m i) := List.mem_map.2 ⟨q, hq, rfl⟩
      rcases (mapModify_keys f m i q.1).1 this with hk | hk
      · omega
      · obtain ⟨q', hq', hk⟩ := List.mem_map.1 hk
        have := h1 q' hq'
        omega

theorem mapModify_coef (f : F → F) (m : PtxtVec F) (i : ℕ) (h : Sorted m) (j : ℕ) :
    coef (mapModify f m i) j = if j = i then f (coef m i) else coef m j := by
  induction m with
  | nil =>
    by_cases hj : j = i
    · subst hj; simp [mapModify, coef]
    · have : ¬ i = j := fun h => hj h.symm
      simp [mapModify, coef, hj, this]
  | cons p m ih =>
    obtain ⟨h1, h2⟩ := List.pairwise_cons.1 h
    by_cases c1 : i < p.1
    · rw [show mapModify f (p :: m) i = (i, f 0) :: p :: m by simp [mapModify, c1]]
      have h0 : coef (p :: m) i = 0 := by
        apply coef_eq_zero
        intro hk
        obtain ⟨q, hq, hk⟩ := List.mem_map.1 hk
        rcases List.mem_cons.1 hq with rfl | hq
        · omega
        · have := h1 q hq; omega
      by_cases c3 : j = i
      · subst c3
        rw [if_pos rfl, coef_cons, if_pos rfl, h0, add_zero]
      · rw [if_neg c3, coef_cons, if_neg (fun h => c3 h.symm), zero_add]
    by_cases c2 : i = p.1
    · rw [show mapModify f (p :: m) i = (p.1, f p.2) :: m by simp [mapModify, c2]]
      subst c2
      have h0 : coef m p.1 = 0 := by
        apply coef_eq_zero
        intro hk
        obtain ⟨q, hq, hk⟩ := List.mem_map.1 hk
        have := h1 q hq; omega
      by_cases c3 : j = p.1
      · subst c3
        rw [if_pos rfl, coef_cons, coef_cons, if_pos rfl, if_pos rfl, h0, add_zero, add_zero]
      · rw [if_neg c3, coef_cons, coef_cons, if_neg (fun h => c3 h.symm), if_neg (fun h => c3 h.symm)]
    · rw [show mapModify f (p :: m) i = p :: mapModify f m i by simp [mapModify, c1, c2]]
      by_cases c3 : j = i
      · subst c3
        rw [if_pos rfl, coef_cons, if_neg (fun h => c2 h.symm), ih h2, if_pos rfl, zero_add, coef_cons,
          if_neg (fun h => c2 h.symm), zero_add]
      · rw [if_neg c3, coef_cons, coef_cons, ih h2, if_neg c3]

theorem modFold_spec (s : F) (is : List ℕ) (hn : is.Nodup) (m : PtxtVec F) (h : Sorted m) :
    Sorted (is.foldl (mapModify (· * s)) m) ∧
    (∀ j, j ∈ keys (is.foldl (mapModify (· * s)) m) ↔ j ∈ is ∨ j ∈ keys m) ∧
    (∀ j, coef (is.foldl (mapModify (· * s)) m) j = if j ∈ is then coef m j * s else coef m j) := by
  induction is generalizing m with
  | nil => simp [h]
  | cons i is ih =>
    obtain ⟨hi, hn⟩ := List.nodup_cons.1 hn
    obtain ⟨h1, h2, h3⟩ := ih hn _ (mapModify_sorted (· * s) m i h)
    refine ⟨h1, ?_, ?_⟩
    · intro j
      rw [List.foldl_cons, h2, mapModify_keys, List.mem_cons]; tauto
    · intro j
      rw [List.foldl_cons, h3, mapModify_coef _ _ _ h]
      by_cases hj : j = i
      · subst hj
        rw [if_neg hi, if_pos rfl, if_pos (by simp)]
      · rw [if_neg hj]
        simp [hj]

theorem throughInt_small {n : ℕ} (h : n < 2 ^ 31) : throughInt n = n := by
  unfold throughInt
  have : n % 2 ^ 32 = n := Nat.mod_eq_of_lt (by omega)
  rw [this, if_pos h]

section
variable [DecidableEq F]

theorem divTerms_eq (r : F) (hr : r ≠ 0) (is : List ℕ) (hb : ∀ i ∈ is, i < 2 ^ 31) (m : PtxtVec F) :
    divTerms r is m = .ok (is.foldl (mapModify (· * r⁻¹)) m) := by
  induction is generalizing m with
  | nil => rfl
  | cons i is ih =>
    unfold divTerms
    rw [if_neg hr, ih (fun j hj => hb j (by simp [hj])), throughInt_small (hb i (by simp))]
    rfl

/-- Any zero factor with a non-empty index set makes the division throw. -/
theorem divTerms_zero (is : List ℕ) (h : is ≠ []) (m : PtxtVec F) : divTerms 0 is m = .throw := by
  cases is with
  | nil => exact absurd rfl h
  | cons i is => simp [divTerms]

theorem divLoop_spec (rs : List F) (cs : List (QuadConstraint F)) (hlen : rs.length = cs.length)
    (hr : ∀ r ∈ rs, r ≠ 0) (hs : ∀ c ∈ cs, SortedSet c.indexes)
    (hd : cs.Pairwise fun c d => ∀ i ∈ c.indexes, i ∉ d.indexes)
    (hb : ∀ c ∈ cs, ∀ i ∈ c.indexes, i < 2 ^ 31) (f : ℕ → F)
    (hf : ∀ p ∈ cs.zip rs, ∀ i ∈ p.1.indexes, f i = p.2)
    (m : PtxtVec F) (h : Sorted m) :
    ∃ m', divLoop rs cs m = .ok m' ∧ Sorted m' ∧
      (∀ j, j ∈ keys m' ↔ (∃ c ∈ cs, j ∈ c.indexes) ∨ j ∈ keys m) ∧
      (∀ j, (∃ c ∈ cs, j ∈ c.indexes) → coef m' j = coef m j * (f j)⁻¹) ∧
      (∀ j, ¬ (∃ c ∈ cs, j ∈ c.indexes) → coef m' j = coef m j) := by
  induction rs generalizing cs m with
  | nil =>
    cases cs with
    | nil => exact ⟨m, rfl, h, by simp, by simp, by simp⟩
    | cons c cs => simp at hlen
  | cons r rs ih =>
    cases cs with
    | nil => simp at hlen
    | cons c cs =>
      obtain ⟨hd1, hd2⟩ := List.pairwise_cons.1 hd
      have hnd : c.indexes.Nodup :=
        (hs c (by simp)).imp (fun {a b} (hab : a < b) => Nat.ne_of_lt hab)
      obtain ⟨g1, g2, g3⟩ := modFold_spec r⁻¹ c.indexes hnd m h
      obtain ⟨m', e1, e2, e3, e4, e5⟩ := ih cs (by simpa using hlen) (fun r h => hr r (by simp [h]))
        (fun c h => hs c (by simp [h])) hd2 (fun c h => hb c (by simp [h]))
        (fun p hp => hf p (by simp [hp])) _ g1
      refine ⟨m', ?_, e2, ?_, ?_, ?_⟩
      · unfold divLoop
        rw [divTerms_eq r (hr r (by simp)) _ (hb c (by simp))]
        exact e1
      · intro j
        rw [e3, g2]
        simp only [List.mem_cons, exists_eq_or_imp]
        rw [or_assoc]
        exact or_left_comm
      · intro j hj
        by_cases hjc : j ∈ c.indexes
        · rw [e5 j (by rintro ⟨d, hd, hjd⟩; exact hd1 d hd j hjc hjd), g3, if_pos hjc,
            hf (c, r) (by simp) j hjc]
        · have : ∃ c ∈ cs, j ∈ c.indexes := by
            obtain ⟨d, hd, hjd⟩ := hj
            rcases List.mem_cons.1 hd with rfl | hd
            · exact absurd hjd hjc
            · exact ⟨d, hd, hjd⟩
          rw [e4 j this, g3, if_neg hjc]
      · intro j hj
        rw [e5 j (by rintro ⟨d, hd, hjd⟩; exact hj ⟨d, by simp [hd], hjd⟩), g3,
          if_neg (fun hjc => hj ⟨c, by simp, hjc⟩)]

end

theorem mulLoop_spec (rs : List F) (cs : List (QuadConstraint F)) (hlen : rs.length = cs.length)
    (hs : ∀ c ∈ cs, SortedSet c.indexes)
    (hd : cs.Pairwise fun c d => ∀ i ∈ c.indexes, i ∉ d.indexes) (f : ℕ → F)
    (hf : ∀ p ∈ cs.zip rs, ∀ i ∈ p.1.indexes, f i = p.2)
    (m : PtxtVec F) (h : Sorted m) :
    ∃ m', mulLoop rs cs m = .ok m' ∧ Sorted m' ∧
      (∀ j, j ∈ keys m' ↔ (∃ c ∈ cs, j ∈ c.indexes) ∨ j ∈ keys m) ∧
      (∀ j, (∃ c ∈ cs, j ∈ c.indexes) → coef m' j = coef m j * f j) ∧
      (∀ j, ¬ (∃ c ∈ cs, j ∈ c.indexes) → coef m' j = coef m j) := by
  induction rs generalizing cs m with
  | nil =>
    cases cs with
    | nil => exact ⟨m, rfl, h, by simp, by simp, by simp⟩
    | cons c cs => simp at hlen
  | cons r rs ih =>
    cases cs with
    | nil => simp at hlen
    | cons c cs =>
      obtain ⟨hd1, hd2⟩ := List.pairwise_cons.1 hd
      have hnd : c.indexes.Nodup :=
        (hs c (by simp)).imp (fun {a b} (hab : a < b) => Nat.ne_of_lt hab)
      obtain ⟨g1, g2, g3⟩ := modFold_spec r c.indexes hnd m h
      obtain ⟨m', e1, e2, e3, e4, e5⟩ := ih cs (by simpa using hlen)
        (fun c h => hs c (by simp [h])) hd2
        (fun p hp => hf p (by simp [hp])) _ g1
      refine ⟨m', ?_, e2, ?_, ?_, ?_⟩
      · unfold mulLoop mulTerms
        exact e1
      · intro j
        rw [e3, g2]
        simp only [List.mem_cons, exists_eq_or_imp]
        rw [or_assoc]
        exact or_left_comm
      · intro j hj
        by_cases hjc : j ∈ c.indexes
        · rw [e5 j (by rintro ⟨d, hd, hjd⟩; exact hd1 d hd j hjc hjd), g3, if_pos hjc,
            hf (c, r) (by simp) j hjc]
        · have : ∃ c ∈ cs, j ∈ c.indexes := by
            obtain ⟨d, hd, hjd⟩ := hj
            rcases List.mem_cons.1 hd with rfl | hd
            · exact absurd hjd hjc
            · exact ⟨d, hd, hjd⟩
          rw [e4 j this, g3, if_neg hjc]
      · intro j hj
        rw [e5 j (by rintro ⟨d, hd, hjd⟩; exact hj ⟨d, by simp [hd], hjd⟩), g3,
          if_neg (fun hjc => hj ⟨c, by simp, hjc⟩)]

/-! ### The loops of the second verifier step -/

theorem subtractAU_eq [DecidableEq F] (as : PtxtVec F) (us : List F) (A : F) (h : as.length ≤ us.length) :
    subtractAU as us A = .ok (A - dot (as.map Prod.snd) us) := by
  induction as generalizing us A with
  | nil => simp [subtractAU, dot]
  | cons p as ih =>
    cases us with
    | nil => simp at h
    | cons u us =>
      unfold subtractAU
      rw [ih us _ (by simpa using h)]
      simp only [dot, List.map_cons, List.zipWith_cons_cons, List.sum_cons]
      congr 1
      ring

theorem offsetLoop_eq [DecidableEq F] (nr : F) (as : PtxtVec F) (us : List F) (dG dH : PtxtVec F)
    (h : as.length ≤ us.length) (hs : Sorted as) (hG : ∀ p ∈ dG, ∀ q ∈ as, p.1 < q.1)
    (hH : ∀ p ∈ dH, ∀ q ∈ as, p.1 < q.1) :
    offsetLoop nr as us dG dH = .ok
      (List.zipWith (fun p u => (p.1, p.2 * nr - u)) as us,
       dG ++ List.zipWith (fun p u => (p.1, p.2 * nr - u)) as us,
       dH ++ List.zipWith (fun p u => (p.1, u)) as us) := by
  induction as generalizing us dG dH with
  | nil => simp [offsetLoop]
  | cons p as ih =>
    cases us with
    | nil => simp at h
    | cons u us =>
      obtain ⟨h1, h2⟩ := List.pairwise_cons.1 hs
      unfold offsetLoop
      simp only
      rw [mapInsert_append dG (p.1, p.2 * nr - u) (fun q hq => hG q hq p (by simp)),
        mapInsert_append dH (p.1, u) (fun q hq => hH q hq p (by simp)),
        ih us _ _ (by simpa using h) h2 ?_ ?_]
      · simp
      · intro q hq r hr
        rcases List.mem_append.1 hq with hq | hq
        · exact hG q hq r (by simp [hr])
        · rw [List.mem_singleton.1 hq]; exact h1 r hr
      · intro q hq r hr
        rcases List.mem_append.1 hq with hq | hq
        · exact hH q hq r (by simp [hr])
        · rw [List.mem_singleton.1 hq]; exact h1 r hr

theorem subLock_tab (I : List ℕ) (x d : ℕ → F) :
    subLock (tab I x) (tab I d) = .ok (tab I fun i => x i - d i) := by
  induction I with
  | nil => rfl
  | cons i I ih =>
    change subLock ((i, x i) :: tab I x) ((i, d i) :: tab I d) = _
    unfold subLock
    rw [if_neg (by simp), ih]
    rfl

theorem pruneLoop_eq (wit ts : PtxtVec F) (hw : Sorted wit) (ht : Sorted ts)
    (hk : ∀ k ∈ keys ts, k ∈ keys wit) :
    pruneLoop wit ts = tab (keys ts) (coef wit) := by
  induction wit generalizing ts with
  | nil =>
    cases ts with
    | nil => rfl
    | cons t ts => exact absurd (hk t.1 (by simp [keys])) (by simp [keys])
  | cons p wit ih =>
    cases ts with
    | nil => rfl
    | cons t ts =>
      obtain ⟨h1, h2⟩ := List.pairwise_cons.1 hw
      obtain ⟨t1, t2⟩ := List.pairwise_cons.1 ht
      have hlt : ∀ k ∈ keys wit, p.1 < k := by
        intro k hk
        obtain ⟨q, hq, rfl⟩ := List.mem_map.1 hk
        exact h1 q hq
      unfold pruneLoop
      split_ifs with hc
      · rw [ih (t :: ts) h2 ht]
        · apply tab_congr
          intro k hk'
          rw [coef_cons, if_neg, zero_add]
          intro hpk
          have htk : t.1 ≤ k := by
            rcases List.mem_cons.1 hk' with h | h
            · omega
            · obtain ⟨q, hq, rfl⟩ := List.mem_map.1 h
              exact le_of_lt (t1 q hq)
          rcases List.mem_cons.1 (hk t.1 (by simp [keys])) with h | h
          · exact hc h
          · have := hlt _ h; omega
        · intro k hk'
          rcases List.mem_cons.1 (hk k hk') with h | h
          · exfalso
            have htk : t.1 ≤ k := by
              rcases List.mem_cons.1 hk' with h | h
              · omega
              · obtain ⟨q, hq, rfl⟩ := List.mem_map.1 h
                exact le_of_lt (t1 q hq)
            rcases List.mem_cons.1 (hk t.1 (by simp [keys])) with h' | h'
            · exact hc h'
            · have := hlt _ h'; omega
          · exact h
      · have hc' : t.1 = p.1 := not_not.1 hc
        have hgt : ∀ k ∈ keys ts, p.1 < k := by
          intro k hk
          obtain ⟨q, hq, rfl⟩ := List.mem_map.1 hk
          rw [← hc']; exact t1 q hq
        rw [ih ts h2 t2]
        · change _ = (t.1, coef (p :: wit) t.1) :: tab (keys ts) (coef (p :: wit))
          congr 1
          · rw [hc', coef_cons, if_pos rfl, coef_eq_zero wit p.1 (fun h => absurd (hlt _ h) (by omega)),
              add_zero]
          · apply tab_congr
            intro k hk'
            rw [coef_cons, if_neg (by have := hgt k hk'; omega), zero_add]
        · intro k hk'
          have := hgt k hk'
          rcases List.mem_cons.1 (hk k (by simp [keys] at hk' ⊢; right; exact hk')) with h | h
          · omega
          · exact h

/-! ### Flattening -/

theorem flattenWitLoop_tab (I : List ℕ) (x y : ℕ → F) :
    flattenWitLoop (tab I x) (tab I y) = .ok (I.map x, I.map y) := by
  induction I with
  | nil => rfl
  | cons i I ih =>
    change flattenWitLoop ((i, x i) :: tab I x) ((i, y i) :: tab I y) = _
    unfold flattenWitLoop
    rw [if_neg (by simp), ih]
    rfl

end

section
variable {F G : Type} [Field F] [AddCommGroup G] [Module F G]

theorem mexp_map (I : List ℕ) (x : ℕ → F) (g : ℕ → G) :
    mexp (I.map x) (I.map g) = (I.map fun i => x i • g i).sum := by
  simp [mexp, List.zipWith_map]

theorem dot_map (I : List ℕ) (x y : ℕ → F) :
    dot (I.map x) (I.map y) = (I.map fun i => x i * y i).sum := by
  simp [dot, List.zipWith_map]

omit [AddCommGroup G] [Module F G] [Field F] in
theorem rd_getD [Zero G] {p : List G} {i : ℕ} (h : i < p.length) : rd p i = .ok (p.getD i 0) := by
  rw [rd_ok h, List.getD_eq_getElem?_getD, List.getElem?_eq_getElem h]
  rfl

omit [Module F G] [Field F] in
theorem flattenLinLoop_ok (Gs : List G) (ts : PtxtVec F) (h : ∀ k ∈ keys ts, k < Gs.length) :
    flattenLinLoop Gs ts = .ok ((keys ts).map fun i => Gs.getD i 0, ts.map Prod.snd) := by
  induction ts with
  | nil => rfl
  | cons p ts ih =>
    unfold flattenLinLoop
    rw [rd_getD (h p.1 (by simp [keys])), ih (fun k hk => h k (by simp [keys] at hk ⊢; right; exact hk))]
    rfl

theorem flattenQuadLoop_init [DecidableEq F] (Gs Hs : List G) (w : ℕ) (dG dH : PtxtVec F)
    (is rest : List ℕ) (gs hs : List G) (oG oH : List F) (h1 : ∀ i ∈ is, i < Gs.length ∧ i < Hs.length)
    (h2 : ∀ i ∈ is, i ≠ w) :
    flattenQuadLoop Gs Hs w dG dH (is ++ rest) gs hs oG oH =
      flattenQuadLoop Gs Hs w dG dH rest (gs ++ is.map fun i => Gs.getD i 0)
        (hs ++ is.map fun i => Hs.getD i 0) (oG ++ is.map fun i => (mapFind dG i).getD 0)
        (oH ++ is.map fun i => (mapFind dH i).getD 0) := by
  induction is generalizing gs hs oG oH with
  | nil => simp
  | cons i is ih =>
    simp only [List.cons_append]
    conv_lhs => unfold flattenQuadLoop
    rw [rd_getD (h1 i (by simp)).1, show quadH Hs w i hs.length = rd Hs i by
      simp [quadH, h2 i (by simp)], rd_getD (h1 i (by simp)).2]
    simp only [Res.ok_bind]
    rw [ih _ _ _ _ (fun j hj => h1 j (by simp [hj])) (fun j hj => h2 j (by simp [hj]))]
    simp

theorem flattenQuadLoop_ok [DecidableEq F] (Gs Hs : List G) (w : ℕ) (dG dH : PtxtVec F)
    (is : List ℕ) (h0 : is ≠ []) (h1 : ∀ i ∈ is, i < Gs.length ∧ i < Hs.length)
    (h2 : ∀ i ∈ is, i ≠ w) (h3 : w < Gs.length) (h4 : is.length ≤ Hs.length) :
    flattenQuadLoop Gs Hs w dG dH (is ++ [w]) [] [] [] [] =
      .ok (is.map (fun i => Gs.getD i 0) ++ [Gs.getD w 0],
        is.map (fun i => Hs.getD i 0) ++ [Hs.getD (is.length - 1) 0],
        (is ++ [w]).map (fun i => (mapFind dG i).getD 0),
        (is ++ [w]).map (fun i => (mapFind dH i).getD 0)) := by
  have hp : 0 < is.length := List.length_pos_iff.2 h0
  rw [flattenQuadLoop_init Gs Hs w dG dH is [w] [] [] [] [] h1 h2]
  unfold flattenQuadLoop
  rw [rd_getD h3]
  simp only [List.nil_append, List.length_map, Res.ok_bind]
  rw [show quadH Hs w w is.length = rd Hs (is.length - 1) by
    simp [quadH, h0], rd_getD (by omega)]
  simp [flattenQuadLoop]

end
end Verif
