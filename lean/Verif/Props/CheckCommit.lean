/-
C75: the checks that tests use to compare commitments with witnesses.
-/
import Verif.Model.CheckCommit
import Verif.Props.Pedersen
import Verif.Props.Round

namespace Verif.Props
open Spec

section
variable {F G : Type} [Field F] [DecidableEq F] [AddCommGroup G] [Module F G]

theorem mapRef_spec (m : PtxtVec F) (hs : Sorted m) (i : ℕ) :
    (mapRef m i).2 = coef m i ∧ Sorted (mapRef m i).1 ∧ (∀ j, coef (mapRef m i).1 j = coef m j) ∧
    (∀ j, j ∈ keys (mapRef m i).1 ↔ j ∈ keys m ∨ j = i) := by
  unfold mapRef
  cases h : mapFind m i with
  | some x =>
    have hm := mapFind_some h
    refine ⟨?_, hs, fun _ => rfl, fun j => ⟨Or.inl, fun hj => ?_⟩⟩
    · exact (coef_of_mem m hs i x hm).symm
    · rcases hj with hj | rfl
      · exact hj
      · exact mem_keys.2 ⟨x, hm⟩
  | none =>
    have hm := mapFind_none.1 h
    have h0 : coef m i = 0 := coef_eq_zero m i hm
    refine ⟨h0.symm, mapPut_sorted m hs i 0, fun j => ?_, fun j => ?_⟩
    · rw [mapPut_coef m hs]
      by_cases hj : j = i
      · rw [if_pos hj, hj, h0]
      · rw [if_neg hj]
    · rw [mapPut_keys]; tauto

theorem mapRefs_spec (is : List ℕ) : ∀ (m : PtxtVec F), Sorted m →
    (mapRefs m is).2 = is.map (coef m) ∧ Sorted (mapRefs m is).1 ∧ (∀ j, coef (mapRefs m is).1 j = coef m j) ∧
    (∀ j, j ∈ keys (mapRefs m is).1 ↔ j ∈ keys m ∨ j ∈ is) := by
  induction is with
  | nil => intro m hs; exact ⟨rfl, hs, fun _ => rfl, fun j => by simp [mapRefs]⟩
  | cons i is ih =>
    intro m hs
    obtain ⟨a1, a2, a3, a4⟩ := mapRef_spec m hs i
    obtain ⟨b1, b2, b3, b4⟩ := ih _ a2
    unfold mapRefs
    refine ⟨?_, b2, fun j => (b3 j).trans (a3 j), fun j => ?_⟩
    · dsimp only
      rw [b1, a1, List.map_cons]
      congr 1
      exact List.map_congr_left fun j _ => a3 j
    · rw [b4, a4, List.mem_cons]; tauto

/-- **C75.** `checkQuadCommit` always gives a verdict: it accepts iff the sum of the two commitments opens, with the sum of the two
random scalars, to the values that the witness has at the indexes of the constraint (zero where it has none), each
with respect to the sum of the two generators of its index.  No value of the witness changes, but entries are created
for the missing indexes. -/
theorem C75_quad [DecidableEq G] (base : G) (getG getH : ℕ → G) (c : QuadConstraint F) (com padCom : G) (rnd padRnd : F)
    (w : PtxtVec F) (hw : Sorted w) :
    ∃ b w', checkQuadCommit base getG getH c com padCom rnd padRnd w = .ok (b, w') ∧
      (b = true ↔ com + padCom =
        (rnd + padRnd) • base + (c.indexes.map fun i => coef w i • getG i + coef w i • getH i).sum) ∧
      Sorted w' ∧ (∀ i, coef w' i = coef w i) ∧ (∀ i, i ∈ keys w' ↔ i ∈ keys w ∨ i ∈ c.indexes) := by
  obtain ⟨h1, h2, h3, h4⟩ := mapRefs_spec c.indexes w hw
  obtain ⟨b, hb, hb'⟩ := C04_verify_iff base (0 : G) (com + padCom) (c.indexes.map fun i => getG i + getH i)
    (c.indexes.map (coef w)) (rnd + padRnd) 0 (by simp)
  refine ⟨b, _, ?_, ?_, h2, h3, h4⟩
  · unfold checkQuadCommit
    dsimp only
    rw [h1]
    rw [List.length_map] at hb ⊢
    rw [hb, Res.ok_bind]
  · rw [hb', zero_smul, add_zero, mexp, List.zipWith_map, List.zipWith_self]
    simp only [smul_add]

/-- **C75.** The same for `checkLinCommit`: the indexes are those of the terms, and there is one generator per index. -/
theorem C75_lin [DecidableEq G] (base : G) (getG : ℕ → G) (terms : PtxtVec F) (com : G) (rnd : F)
    (w : PtxtVec F) (hw : Sorted w) :
    ∃ b w', checkLinCommit base getG terms com rnd w = .ok (b, w') ∧
      (b = true ↔ com = rnd • base + ((keys terms).map fun i => coef w i • getG i).sum) ∧
      Sorted w' ∧ (∀ i, coef w' i = coef w i) ∧ (∀ i, i ∈ keys w' ↔ i ∈ keys w ∨ i ∈ keys terms) := by
  obtain ⟨h1, h2, h3, h4⟩ := mapRefs_spec (keys terms) w hw
  obtain ⟨b, hb, hb'⟩ := C04_verify_iff base (0 : G) com ((keys terms).map getG) ((keys terms).map (coef w)) rnd 0
    (by simp)
  refine ⟨b, _, ?_, ?_, h2, h3, h4⟩
  · unfold checkLinCommit
    dsimp only
    have e : (terms.map fun p => getG p.1) = (keys terms).map getG := by
      unfold keys; rw [List.map_map]; rfl
    rw [e]
    change (verifyCom base com ((keys terms).map getG) (mapRefs w (keys terms)).2 ((keys terms).map getG).length rnd
      >>= fun b => Res.ok (b, (mapRefs w (keys terms)).1)) = _
    rw [h1]
    rw [List.length_map] at hb ⊢
    rw [hb, Res.ok_bind]
  · rw [hb', zero_smul, add_zero, mexp, List.zipWith_map, List.zipWith_self]

/-- **C75.** The checks are not free of side effects: for every commitment, the loose check of a constraint whose variable is
missing in the witness fails, and after `checkLinCommit` (whatever its verdict) the same check on the same witness object succeeds. -/
theorem C75_side_effect [DecidableEq G] (base : G) (getG : ℕ → G) (com : G) (rnd : F) (i : ℕ) :
    checkLinLoose (⟨[(i, 1)], 0⟩ : LinConstraint F) [] = false ∧
    ∃ b w', checkLinCommit base getG [(i, (1 : F))] com rnd [] = .ok (b, w') ∧
      checkLinLoose (⟨[(i, 1)], 0⟩ : LinConstraint F) w' = true := by
  constructor
  · simp [checkLinLoose, checkLinLooseLoop, mapFind]
  · obtain ⟨b, w', h1, -, h2, h3, h4⟩ := C75_lin base getG [(i, (1 : F))] com rnd [] List.Pairwise.nil
    refine ⟨b, w', h1, ?_⟩
    obtain ⟨x, hx⟩ := mem_keys.1 ((h4 i).2 (Or.inr (by simp [keys])))
    have hc : x = 0 := by rw [← coef_of_mem w' h2 i x hx, h3]; rfl
    simp [checkLinLoose, checkLinLooseLoop, mapFind_of_mem h2 hx, hc]

theorem mapRefs_same (is : List ℕ) (m : PtxtVec F) (h : ∀ i ∈ is, i ∈ keys m) : (mapRefs m is).1 = m := by
  induction is with
  | nil => rfl
  | cons i is ih =>
    have h1 : (mapRef m i).1 = m := by
      unfold mapRef
      cases hf : mapFind m i with
      | some x => rfl
      | none => exact absurd (h i List.mem_cons_self) (mapFind_none.1 hf)
    unfold mapRefs
    dsimp only
    rw [h1]
    exact ih fun j hj => h j (List.mem_cons_of_mem _ hj)

/-- The ten pairs of a block and its padding, in the order of the norm constraints. -/
def normPairs {T : Type} (b : Blocks T) : List (T × T) :=
  [(b.dCompHi, b.dPadHi), (b.dCompLo, b.dPadLo), (b.rComp, b.rPad), (b.eComp1Hi, b.ePad1Hi), (b.eComp1Lo, b.ePad1Lo),
    (b.eComp2Hi, b.ePad2Hi), (b.eComp2Lo, b.ePad2Lo), (b.sk2Comp, b.sk2Pad), (b.kCompHi, b.kPadHi),
    (b.kCompLo, b.kPadLo)]

theorem pair_opens {base : G} {Gs Hs : List G} {x : ℕ → F} (s : ℕ) (r r' : F) :
    comGH base Gs Hs x x s 256 r + comGH base Gs Hs x x (s + 256) 4 r' =
      (r + r') • base + ((List.range' s 260).map fun i => x i • Gs.getD i 0 + x i • Hs.getD i 0).sum := by
  have : List.range' s 260 = List.range' s 256 ++ List.range' (s + 256) 4 := by
    rw [List.range'_append_1]
  unfold comGH
  rw [this, List.map_append, List.sum_append, add_smul]
  abel

/-- **C75.** After a party has prepared its proofs (C64: every honest round gets there unless a four-square search
fails), `checkQuadCommit` accepts for each of the ten norm constraints and leaves the witness as it is. -/
theorem C75_prepared [DecidableEq G] {St : Type} {base : G} {kay enn tee : ℕ} {vd : VerifierData F G St} {pd : ProverData F}
    {x : ℕ → F} (hp : Prepared base kay enn tee vd pd x) (getG getH : ℕ → G)
    (hG : ∀ i < 2600, getG i = vd.Gs.getD i 0) (hH : ∀ i < 2600, getH i = vd.Hs.getD i 0) {k : ℕ} (hk : k < 10)
    {c : QuadConstraint F} {com : G × G} {rnd : F × F} (hc : vd.normConstr[k]? = some c)
    (hcom : (normPairs vd.com)[k]? = some com) (hrnd : (normPairs pd.rnd)[k]? = some rnd) :
    checkQuadCommit base getG getH c com.1 com.2 rnd.1 rnd.2 pd.quadWitnessG = .ok (true, pd.quadWitnessG) := by
  have hs : SortedSet (List.range (260 * 10)) := by
    unfold SortedSet; exact List.pairwise_lt_range
  have hi : c.indexes = List.range' (260 * k) 260 := by
    have h1 : k < vd.normConstr.length := by rw [hp.normLength]; exact hk
    rw [List.getElem?_eq_getElem h1] at hc
    rw [← Option.some.inj hc]
    exact hp.normBlocks k h1
  have hkeys : keys pd.quadWitnessG = List.range (260 * 10) := by
    rw [hp.quadWitness, keys_tab]
  have hw : Sorted pd.quadWitnessG := by
    have := hs
    rw [← hkeys] at this
    unfold SortedSet keys at this
    unfold Sorted
    exact List.pairwise_map.1 this
  obtain ⟨b, w', h1, h2, -⟩ := C75_quad base getG getH c com.1 com.2 rnd.1 rnd.2 pd.quadWitnessG hw
  have hw' : w' = pd.quadWitnessG := by
    have e : w' = (mapRefs pd.quadWitnessG c.indexes).1 := by
      unfold checkQuadCommit at h1
      dsimp only at h1
      obtain ⟨b', -, h1⟩ := Res.bind_eq_ok.1 h1
      exact (Prod.mk.inj (Res.ok.inj h1)).2.symm
    rw [e]
    apply mapRefs_same
    intro i hmem
    rw [hi, List.mem_range'_1] at hmem
    rw [hkeys, List.mem_range]
    omega
  have hopen : com.1 + com.2 = (rnd.1 + rnd.2) • base +
      ((List.range' (260 * k) 260).map fun i => x i • vd.Gs.getD i 0 + x i • vd.Hs.getD i 0).sum := by
    obtain ⟨o1, o2, o3, o4, o5, o6, o7, o8, o9, o10, o11, o12, o13, o14, o15, o16, o17, o18, o19, o20, -⟩ := hp.opens
    rw [← pair_opens]
    have hix := hp.layout
    rcases hix with hix | hix <;>
    · rw [hix] at o1 o2 o3 o4 o5 o6 o7 o8 o9 o10 o11 o12 o13 o14 o15 o16 o17 o18 o19 o20
      interval_cases k <;>
      · simp only [normPairs, List.getElem?_cons_zero, List.getElem?_cons_succ, Option.some.injEq] at hcom hrnd
        subst hcom hrnd
        first
          | rw [o1, o2]; rfl
          | rw [o3, o4]; rfl
          | rw [o5, o6]; rfl
          | rw [o7, o8]; rfl
          | rw [o9, o10]; rfl
          | rw [o11, o12]; rfl
          | rw [o13, o14]; rfl
          | rw [o15, o16]; rfl
          | rw [o17, o18]; rfl
          | rw [o19, o20]; rfl
  have hb : b = true := by
    rw [h2, hopen, hi]
    congr 2
    refine List.map_congr_left fun i hmem => ?_
    rw [List.mem_range'_1] at hmem
    rw [hG i (by omega), hH i (by omega), hp.quadWitness, coef_tab hs x i (List.mem_range.2 (by omega))]
  rw [h1, hb, hw']

end

/-! ### The hypotheses are met -/

/-- a witness with one of the two values; the commitment `4·1 + 2·(10+20)` opens, another one does not -/
example : Sorted ([(1, 2)] : PtxtVec ℚ) ∧
    (∃ w', checkQuadCommit (1 : ℚ) (fun i => 10 * i) (fun i => 20 * i) (⟨[1, 3], 0⟩ : QuadConstraint ℚ) 60 4 1 3 [(1, 2)] =
      .ok (true, w')) ∧
    (∃ w', checkQuadCommit (1 : ℚ) (fun i => 10 * i) (fun i => 20 * i) (⟨[1, 3], 0⟩ : QuadConstraint ℚ) 60 5 1 3 [(1, 2)] =
      .ok (false, w')) := by
  have hs : Sorted ([(1, 2)] : PtxtVec ℚ) := by simp [Sorted]
  refine ⟨hs, ?_, ?_⟩
  · obtain ⟨b, w', h1, h2, -⟩ := C75_quad (1 : ℚ) (fun i => 10 * i) (fun i => 20 * i) (⟨[1, 3], 0⟩ : QuadConstraint ℚ)
      60 4 1 3 [(1, 2)] hs
    have : b = true := h2.2 (by simp [coef]; norm_num)
    exact ⟨w', by rw [h1, this]⟩
  · obtain ⟨b, w', h1, h2, -⟩ := C75_quad (1 : ℚ) (fun i => 10 * i) (fun i => 20 * i) (⟨[1, 3], 0⟩ : QuadConstraint ℚ)
      60 5 1 3 [(1, 2)] hs
    have : b = false := by
      rw [← Bool.not_eq_true, h2]
      simp [coef]; norm_num
    exact ⟨w', by rw [h1, this]⟩

/-- the state of C75_prepared, for any dimensions, with values `x i = i` -/
example (kay enn tee : ℕ) (hs : (setIndexesNat kay 2 enn tee).w < 2 ^ 31) :
    ∃ (vd : VerifierData ℚ ℚ Unit) (pd : ProverData ℚ) (x : ℕ → ℚ), Prepared (1 : ℚ) kay enn tee vd pd x ∧ x 7 ≠ 0 := by
  refine ⟨_, _, fun i => i, demo_prepared (F := ℚ) (St := Unit) () (1 : ℚ)
    (List.replicate ((setIndexesNat kay 2 enn tee).w + 1) (3 : ℚ)) (List.replicate (260 * 10) 5) kay enn tee (fun i => i)
    ⟨1, 2, 3, 4, 5, 6, 7, 8, 9, 10, 11, 12, 13, 14, 15, 16, 17, 18, 19, 20, 21, 22, 23, 24, 25, 26, 27⟩
    _ (Or.inl rfl) (layout_w (Or.inl rfl)) hs (by rw [List.length_replicate]) (by rw [List.length_replicate]), by norm_num⟩

end Verif.Props
