/-
Lemmas about the ternary products with the memory of the result.
-/
import Verif.Spec.TernaryAlias
import Verif.Lemmas.Ternary

namespace Verif
open Verif.Spec

variable {R : Type} [CommRing R]

/-- the inner loops of both products, for any source of matrix entries -/
def addEntries (entry : Nat → Res Int) (vi : R) : Nat → List R → Res (List R)
  | _, [] => .ok []
  | j, r :: rs => do
    let m ← entry j
    let x ← pick vi m
    let rest ← addEntries entry vi (j + 1) rs
    pure ((r + x) :: rest)

theorem addRow_entries (row : TRow) (vi : R) (rs : List R) :
    ∀ j, addRow row vi j rs = addEntries row.get vi j rs := by
  induction rs with
  | nil => intro j; rfl
  | cons r rs ih => intro j; simp only [addRow, addEntries, ih]

theorem addCol_entries (M : TMat) (i : Nat) (vi : R) (rs : List R) :
    ∀ j, addCol M i vi j rs = addEntries (fun j => M.get j i) vi j rs := by
  induction rs with
  | nil => intro j; rfl
  | cons r rs ih => intro j; simp only [addCol, addEntries, ih]

theorem pickNow_eq {v : List R} {i : Nat} (hi : i < v.length) (m : Int) :
    pickNow (v.map fun a => -a) v i m = pick v[i] m := by
  unfold pickNow pick
  rw [rd_ok hi, rd_ok (by simpa using hi)]
  simp

theorem innerNow_apart (entry : Nat → Res Int) (v : List R) {i : Nat} (hi : i < v.length)
    (rs : List R) : ∀ pre : List R,
    innerNow false entry (v.map fun a => -a) v i rs.length pre.length (pre ++ rs) =
      (do let l ← addEntries entry v[i] pre.length rs; pure (pre ++ l)) := by
  induction rs with
  | nil => intro pre; simp [innerNow, addEntries]
  | cons r rs ih =>
    intro pre
    unfold addEntries
    simp only [List.length_cons, innerNow]
    cases entry pre.length with
    | throw => rfl
    | ub => rfl
    | ok m =>
      simp only [Res.ok_bind, nowAt, Bool.false_eq_true, if_false, pickNow_eq hi]
      cases pick v[i] m with
      | throw => rfl
      | ub => rfl
      | ok x =>
        have hr : rd (pre ++ r :: rs) pre.length = .ok r := by
          rw [rd_ok (by simp)]
          simp
        have hw : wr (pre ++ r :: rs) pre.length (r + x) = .ok ((pre ++ [r + x]) ++ rs) := by
          simp [wr]
        simp only [Res.ok_bind, hr, hw]
        have := ih (pre ++ [r + x])
        rw [List.length_append] at this
        simp only [List.length_cons, List.length_nil, Nat.zero_add] at this
        rw [this]
        cases addEntries entry v[i] (pre.length + 1) rs with
        | throw => rfl
        | ub => rfl
        | ok l => simp

theorem innerNow_apart0 (entry : Nat → Res Int) (v : List R) {i : Nat} (hi : i < v.length)
    (rs : List R) :
    innerNow false entry (v.map fun a => -a) v i rs.length 0 rs = addEntries entry v[i] 0 rs := by
  have := innerNow_apart entry v hi rs []
  simp only [List.length_nil, List.nil_append] at this
  rw [this]
  cases addEntries entry v[i] 0 rs <;> rfl

theorem outerNow_left (M : TMat) (v : List R) (hl : v.length ≤ M.length) : ∀ k i (result : List R),
    i + k = v.length →
    outerNow false (fun i j => M.get i j) (v.map fun a => -a) v k i result =
      leftLoop M i (v.drop i) result := by
  intro k
  induction k with
  | zero =>
    intro i result h
    rw [List.drop_of_length_le (by omega)]
    rfl
  | succ k ih =>
    intro i result h
    rw [List.drop_eq_getElem_cons (by omega)]
    unfold outerNow leftLoop
    rw [innerNow_apart0 _ v (by omega), rd_ok (show i < M.length by omega), Res.ok_bind,
      addRow_entries]
    have he : (fun j => M.get i j) = M[i].get := by
      funext j
      simp [TMat.get, rd_ok (show i < M.length by omega)]
    rw [he]
    congr 1
    funext l
    exact ih (i + 1) l (by omega)

theorem outerNow_right (M : TMat) (v : List R) : ∀ k i (result : List R),
    i + k = v.length →
    outerNow false (fun i j => M.get j i) (v.map fun a => -a) v k i result =
      rightLoop M i (v.drop i) result := by
  intro k
  induction k with
  | zero =>
    intro i result h
    rw [List.drop_of_length_le (by omega)]
    rfl
  | succ k ih =>
    intro i result h
    rw [List.drop_eq_getElem_cons (by omega)]
    unfold outerNow rightLoop
    rw [innerNow_apart0 _ v (by omega), addCol_entries]
    congr 1
    funext l
    exact ih (i + 1) l (by omega)

theorem vecResize_clear (v : List R) (n : Nat) :
    ((vecResize v n).map fun _ => (0 : R)) = List.replicate n 0 := by
  rw [List.map_const']
  congr 1
  simp [vecResize]
  omega

theorem leftVecMultMem_apart (result v : List R) (M : TMat) :
    leftVecMultMem false result v M = leftVecMult v M := by
  unfold leftVecMultMem leftVecMult
  simp only [nowAt, Bool.false_eq_true, if_false, vecResize_clear]
  split
  · rfl
  · rename_i h
    rw [outerNow_left M v (by omega) _ _ _ (by omega)]
    rfl

theorem rightVecMultMem_apart (result : List R) (M : TMat) (v : List R) :
    rightVecMultMem false result M v = rightVecMult M v := by
  unfold rightVecMultMem rightVecMult
  simp only [nowAt, Bool.false_eq_true, if_false, vecResize_clear]
  split
  · rfl
  · rw [outerNow_right M v _ _ _ (by omega)]
    rfl

/-! ### the same object -/

theorem get_tern {T : TMat} {i j : Nat} {x : Int} (h : T.get i j = .ok x) :
    x = -1 ∨ x = 0 ∨ x = 1 := by
  unfold TMat.get TRow.get at h
  obtain ⟨row, -, h⟩ := Res.bind_eq_ok.1 h
  obtain ⟨b, -, h⟩ := Res.bind_eq_ok.1 h
  simp only [Res.pure_eq, Res.ok.injEq] at h
  subst h
  exact twoBits_tern _ _

/-- an entry that can be read, and is then -1, 0 or 1 -/
def Reads (e : Res Int) : Prop := ∃ x, e = .ok x ∧ (x = -1 ∨ x = 0 ∨ x = 1)

theorem pickNow_zero {L i : Nat} (hi : i < L) {x : Int} (hx : x = -1 ∨ x = 0 ∨ x = 1) :
    pickNow (List.replicate L (0 : R)) (List.replicate L 0) i x = .ok 0 := by
  unfold pickNow
  rw [rd_ok (by simpa using hi)]
  rcases hx with h | h | h <;> subst h <;> simp

theorem innerNow_zero (entry : Nat → Res Int) (v : List R) {L i : Nat} (hi : i < L) :
    ∀ k j, j + k = L → (∀ j', j ≤ j' → j' < L → Reads (entry j')) →
    innerNow true entry (List.replicate L (0 : R)) v i k j (List.replicate L 0) =
      .ok (List.replicate L 0) := by
  intro k
  induction k with
  | zero => intro j _ _; rfl
  | succ k ih =>
    intro j h he
    obtain ⟨x, h1, h2⟩ := he j (le_refl _) (by omega)
    unfold innerNow
    rw [h1, Res.ok_bind]
    simp only [nowAt, if_true, pickNow_zero hi h2, Res.ok_bind]
    rw [rd_ok (by simp; omega), Res.ok_bind]
    have hw : wr (List.replicate L (0 : R)) j ((List.replicate L (0 : R))[j]'(by simp; omega) + 0)
        = .ok (List.replicate L 0) := by
      unfold wr
      rw [if_pos (by simp; omega)]
      simp [List.set_replicate_self]
    rw [hw, Res.ok_bind]
    exact ih (j + 1) (by omega) (fun j' h3 h4 => he j' (by omega) h4)

theorem outerNow_zero (entry : Nat → Nat → Res Int) (v : List R) {L : Nat} :
    ∀ k i, i + k = L →
      (∀ i', i ≤ i' → i' < L → ∀ j, j < L → Reads (entry i' j)) →
    outerNow true entry (List.replicate L (0 : R)) v k i (List.replicate L 0) =
      .ok (List.replicate L 0) := by
  intro k
  induction k with
  | zero => intro i _ _; rfl
  | succ k ih =>
    intro i h he
    unfold outerNow
    rw [List.length_replicate, innerNow_zero (entry i) v (by omega) L 0 (by omega)
      (fun j' _ hj => he i (le_refl _) (by omega) j' hj), Res.ok_bind]
    exact ih (i + 1) (by omega) (fun i' h1 h2 => he i' (by omega) h2)

/-- the first row of entries that cannot be read stops the program -/
theorem outerNow_ub (entry : Nat → Nat → Res Int) (v : List R) {L bad : Nat} (hb : bad < L)
    (hbad : entry bad 0 = .ub) :
    ∀ k i, i + k = L → i ≤ bad →
      (∀ i', i ≤ i' → i' < bad → ∀ j, j < L → Reads (entry i' j)) →
    outerNow true entry (List.replicate L (0 : R)) v k i (List.replicate L 0) = .ub := by
  intro k
  induction k with
  | zero => intro i h h1; omega
  | succ k ih =>
    intro i h hi he
    unfold outerNow
    rw [List.length_replicate]
    by_cases hib : i = bad
    · subst hib
      obtain ⟨L, rfl⟩ : ∃ L', L = L' + 1 := ⟨L - 1, by omega⟩
      unfold innerNow
      rw [hbad]
      rfl
    · rw [innerNow_zero (entry i) v (by omega) L 0 (by omega)
        (fun j' _ hj => he i (le_refl _) (by omega) j' hj), Res.ok_bind]
      exact ih (i + 1) (by omega) (by omega) (fun i' h1 h2 => he i' (by omega) h2)

theorem neg_zeros (L : Nat) : ((List.replicate L (0 : R)).map fun a => -a) = List.replicate L 0 := by
  simp

theorem leftVecMultMem_shared {n m : Nat} {T : TMat} {M : Matrix (Fin n) (Fin m) ℤ}
    (h : Holds T M) (v : List R) (hv : v.length = n) :
    leftVecMultMem true v v T = if m ≤ n then .ok (List.replicate m 0) else .ub := by
  obtain ⟨h1, h2, h3⟩ := h
  unfold leftVecMultMem
  simp only [nowAt, if_true]
  rw [if_neg (by omega), vecResize_clear, neg_zeros, List.length_replicate, h2]
  have hr : ∀ i j, i < n → j < m → Reads (T.get i j) := fun i j hi hj =>
    ⟨_, h3 ⟨i, hi⟩ ⟨j, hj⟩, get_tern (h3 ⟨i, hi⟩ ⟨j, hj⟩)⟩
  split
  · exact outerNow_zero _ _ _ _ (by omega) (fun i _ hi j hj => hr i j (by omega) hj)
  · apply outerNow_ub (bad := n) _ _ (by omega) _ _ _ (by omega) (by omega)
      (fun i _ hi j hj => hr i j hi hj)
    simp [TMat.get, rd, h1]

theorem get_decodedRows {bytes : Bytes} {n m : Nat} (h : n * ((m + 3) / 4) ≤ bytes.length)
    {i : Nat} (hi : i < n) (j : Nat) :
    (j < 4 * ((m + 3) / 4) → Reads ((decodedRows bytes n m).get i j)) ∧
    (4 * ((m + 3) / 4) ≤ j → (decodedRows bytes n m).get i j = .ub) := by
  have hrd : rd (decodedRows bytes n m) i = .ok
      ⟨m, ((bytes.drop (i * ((m + 3) / 4))).take ((m + 3) / 4)).map maskByte⟩ := by
    unfold rd
    simp [decodedRows, hi]
  have hlen : (((bytes.drop (i * ((m + 3) / 4))).take ((m + 3) / 4)).map maskByte).length =
      (m + 3) / 4 := by
    simp only [List.length_map, List.length_take, List.length_drop]
    have : (i + 1) * ((m + 3) / 4) ≤ n * ((m + 3) / 4) := Nat.mul_le_mul_right _ hi
    rw [Nat.succ_mul] at this
    omega
  constructor
  · intro hj
    refine ⟨twoBits ((((bytes.drop (i * ((m + 3) / 4))).take ((m + 3) / 4)).map maskByte)[j / 4]'
        (by rw [hlen]; omega)) (j % 4), ?_, ?_⟩
    · unfold TMat.get
      rw [hrd, Res.ok_bind]
      unfold TRow.get
      dsimp only
      rw [rd_ok (by rw [hlen]; omega)]
      rfl
    · exact twoBits_tern _ _
  · intro hj
    unfold TMat.get
    rw [hrd, Res.ok_bind]
    unfold TRow.get
    dsimp only
    have : rd (((bytes.drop (i * ((m + 3) / 4))).take ((m + 3) / 4)).map maskByte) (j / 4) = .ub := by
      unfold rd
      rw [List.getElem?_eq_none (by rw [hlen]; omega)]
    rw [this]
    rfl

theorem rightVecMultMem_shared {bytes : Bytes} {n m : Nat} (hn : 0 < n)
    (h : n * ((m + 3) / 4) ≤ bytes.length) (v : List R) (hv : v.length = m) :
    rightVecMultMem true v (decodedRows bytes n m) v =
      if n ≤ 4 * ((m + 3) / 4) then .ok (List.replicate n 0) else .ub := by
  obtain ⟨h1, h2, -⟩ := decodedRows_holds h (Or.inl hn)
  unfold rightVecMultMem
  simp only [nowAt, if_true]
  rw [if_neg (by omega), vecResize_clear, neg_zeros, List.length_replicate, h1]
  split
  · exact outerNow_zero _ _ _ _ (by omega)
      (fun i _ hi j hj => (get_decodedRows h hj i).1 (by omega))
  · apply outerNow_ub (bad := 4 * ((m + 3) / 4)) _ _ (by omega) _ _ _ (by omega) (by omega)
      (fun i _ hi j hj => (get_decodedRows h hj i).1 hi)
    exact (get_decodedRows h hn _).2 (le_refl _)

theorem rightVecMultMem_shared_le {n m : Nat} {T : TMat} {M : Matrix (Fin n) (Fin m) ℤ}
    (h : Holds T M) (hnm : n ≤ m) (v : List R) (hv : v.length = m) :
    rightVecMultMem true v T v = .ok (List.replicate n 0) := by
  obtain ⟨h1, h2, h3⟩ := h
  unfold rightVecMultMem
  simp only [nowAt, if_true]
  rw [if_neg (by omega), vecResize_clear, neg_zeros, List.length_replicate, h1]
  exact outerNow_zero _ _ _ _ (by omega) (fun i _ hi j hj =>
    ⟨_, h3 ⟨j, hj⟩ ⟨i, by omega⟩, get_tern (h3 ⟨j, hj⟩ ⟨i, by omega⟩)⟩)

/-! ### matrices -/

theorem rows_ofFn {m : Nat} (rows : List (List R)) (h : ∀ r ∈ rows, r.length = m) (n : Nat)
    (hn : rows.length = n) :
    ∃ B : Matrix (Fin n) (Fin m) R, rows = List.ofFn fun i => List.ofFn fun j => B i j := by
  subst hn
  refine ⟨fun i j => (rows[i.1])[j.1]'(by rw [h _ (List.getElem_mem _)]; exact j.2), ?_⟩
  apply List.ext_getElem
  · simp
  · intro i h1 h2
    rw [List.getElem_ofFn]
    apply List.ext_getElem
    · simp [h _ (List.getElem_mem h1)]
    · intro j h3 h4
      simp

theorem matResize_ok {spare : List (List R)} {A : NMat R} (h : Rect spare A) (n m : Nat) :
    ∃ B : Matrix (Fin n) (Fin m) R, matResize spare A n m = toNMat B := by
  unfold matResize
  split
  · obtain ⟨B, hB⟩ := rows_ofFn (m := m) (List.replicate n (List.replicate m (0 : R)))
      (by intro r hr; rw [List.eq_of_mem_replicate hr]; simp) n (by simp)
    exact ⟨B, by unfold toNMat; rw [hB]⟩
  · rename_i hm
    simp only [ne_eq, not_not] at hm
    obtain ⟨B, hB⟩ := rows_ofFn (m := m) ((A.rows ++ spare).take n ++
      List.replicate (n - (A.rows ++ spare).length) (List.replicate m (0 : R)))
      (by
        intro r hr
        rcases List.mem_append.1 hr with hr | hr
        · rw [h r (List.mem_of_mem_take hr), hm]
        · rw [List.eq_of_mem_replicate hr]; simp) n
      (by rw [List.length_append, List.length_take, List.length_replicate]; omega)
    exact ⟨B, by unfold toNMat; rw [← hB]⟩

theorem matResize_same (spare : List (List R)) {n m : Nat} (A : Matrix (Fin n) (Fin m) R) :
    matResize spare (toNMat A) n m = toNMat A := by
  unfold matResize
  rw [if_neg (by simp [toNMat])]
  have : (toNMat A).rows.length = n := by simp [toNMat]
  simp only [List.length_append, this]
  rw [List.take_append_of_le_length (by omega), List.take_of_length_le (by omega),
    Nat.sub_eq_zero_of_le (by omega)]
  simp [toNMat]

theorem matResize_length (spare : List (List R)) (A : NMat R) (n m : Nat) :
    (matResize spare A n m).rows.length = n ∧ (matResize spare A n m).ncols = m := by
  unfold matResize
  split
  · simp
  · simp
    omega

theorem leftMatLoop_apart (A : NMat R) (M : TMat) (nc : Nat) : ∀ k i (rows : List (List R)),
    i + k = A.rows.length → rows.length = A.rows.length →
    leftMatLoop false A M k i ⟨nc, rows⟩ =
      (do let l ← mapRes (fun row => leftVecMult row M) (A.rows.drop i)
          pure ⟨nc, rows.take i ++ l⟩) := by
  intro k
  induction k with
  | zero =>
    intro i rows h1 h2
    rw [List.drop_of_length_le (by omega), List.take_of_length_le (by omega)]
    simp [leftMatLoop, mapRes]
  | succ k ih =>
    intro i rows h1 h2
    rw [List.drop_eq_getElem_cons (by omega)]
    unfold leftMatLoop mapRes
    rw [rd_ok (show i < rows.length by omega), Res.ok_bind]
    simp only [nowAt, Bool.false_eq_true, if_false, leftVecMultMem_apart]
    rw [rd_ok (show i < A.rows.length by omega), Res.ok_bind]
    cases leftVecMult A.rows[i] M with
    | throw => rfl
    | ub => rfl
    | ok r =>
      have hw : wr rows i r = .ok (rows.set i r) := by simp [wr]; omega
      simp only [Res.ok_bind, hw]
      rw [ih (i + 1) (rows.set i r) (by omega) (by simpa using h2)]
      cases mapRes (fun row => leftVecMult row M) (List.drop (i + 1) A.rows) with
      | throw => rfl
      | ub => rfl
      | ok l =>
        simp only [Res.ok_bind, Res.pure_eq, Res.ok.injEq, NMat.mk.injEq, true_and]
        rw [List.take_add_one, List.getElem?_set_self (by omega), List.take_set_of_le (le_refl _)]
        simp

theorem leftMatMultMem_apart (spare : List (List R)) (result A : NMat R) (M : TMat) :
    leftMatMultMem false spare result A M = leftMatMult A M := by
  unfold leftMatMultMem leftMatMult
  simp only [nowAt, Bool.false_eq_true, if_false]
  split
  · rfl
  · obtain ⟨h1, h2⟩ := matResize_length spare result A.rows.length M.numCols
    have : matResize spare result A.rows.length M.numCols =
        ⟨M.numCols, (matResize spare result A.rows.length M.numCols).rows⟩ := by
      generalize matResize spare result A.rows.length M.numCols = N at h2
      rw [← h2]
    rw [this]
    rw [leftMatLoop_apart A M M.numCols _ 0 _ (by simp [h1]) h1]
    simp

theorem leftMatLoop_shared {k n : Nat} {T : TMat} {M : Matrix (Fin n) (Fin n) ℤ} (h : Holds T M)
    (A : NMat R) : ∀ c i (rows : List (List R)), i + c = rows.length → rows.length = k →
    (∀ r ∈ rows, r.length = n) →
    leftMatLoop true A T c i ⟨n, rows⟩ =
      .ok ⟨n, rows.take i ++ List.replicate c (List.replicate n 0)⟩ := by
  intro c
  induction c with
  | zero =>
    intro i rows h1 h2 _
    rw [List.take_of_length_le (by omega)]
    simp [leftMatLoop]
  | succ c ih =>
    intro i rows h1 h2 h3
    unfold leftMatLoop
    simp only [nowAt, if_true]
    rw [rd_ok (show i < rows.length by omega), Res.ok_bind, Res.ok_bind,
      leftVecMultMem_shared h _ (h3 _ (List.getElem_mem _)), if_pos (le_refl _), Res.ok_bind]
    have hw : wr rows i (List.replicate n (0 : R)) = .ok (rows.set i (List.replicate n 0)) := by
      simp [wr]; omega
    rw [hw, Res.ok_bind, ih (i + 1) _ (by simp; omega) (by simpa using h2) (by
      intro r hr
      rcases List.mem_or_eq_of_mem_set hr with hr | hr
      · exact h3 r hr
      · rw [hr]; simp)]
    rw [List.take_add_one, List.getElem?_set_self (by omega), List.take_set_of_le (le_refl _),
      List.replicate_succ]
    simp

theorem zero_toNMat (k n : Nat) :
    (⟨n, List.replicate k (List.replicate n (0 : R))⟩ : NMat R) =
      toNMat (0 : Matrix (Fin k) (Fin n) R) := by
  unfold toNMat
  congr 1
  apply List.ext_getElem
  · simp
  · intro i h1 h2
    rw [List.getElem_ofFn]
    apply List.ext_getElem <;> simp

theorem leftMatMultMem_shared {k n : Nat} {T : TMat} {M : Matrix (Fin n) (Fin n) ℤ}
    (h : Holds T M) (spare : List (List R)) (A : Matrix (Fin k) (Fin n) R) :
    leftMatMultMem true spare (toNMat A) (toNMat A) T =
      .ok (toNMat (0 : Matrix (Fin k) (Fin n) R)) := by
  unfold leftMatMultMem
  simp only [nowAt, if_true]
  rw [if_neg (by simp [toNMat, h.1])]
  have hk : (toNMat A).rows.length = k := by simp [toNMat]
  rw [hk, h.2.1, matResize_same]
  have := leftMatLoop_shared (k := k) h (toNMat A) (toNMat A).rows.length 0 (toNMat A).rows
    (by omega) hk (by simp [toNMat])
  rw [← zero_toNMat]
  rw [hk] at this ⊢
  simpa [toNMat] using this

theorem leftMatMultMem_shared_ne {k n m : Nat} {T : TMat} {M : Matrix (Fin n) (Fin m) ℤ}
    (h : Holds T M) (hk : 0 < k) (hnm : n ≠ m) (spare : List (List R))
    (A : Matrix (Fin k) (Fin n) R) :
    leftMatMultMem true spare (toNMat A) (toNMat A) T = .throw := by
  unfold leftMatMultMem
  simp only [nowAt, if_true]
  rw [if_neg (by simp [toNMat, h.1])]
  have h1 : (toNMat A).rows.length = k := by simp [toNMat]
  rw [h1, h.2.1]
  unfold matResize
  rw [if_pos (by simpa [toNMat] using Ne.symm hnm)]
  obtain ⟨k, rfl⟩ : ∃ k', k = k' + 1 := ⟨k - 1, by omega⟩
  simp only [List.length_replicate]
  unfold leftMatLoop
  simp only [nowAt, if_true]
  rw [rd_ok (by simp), Res.ok_bind, Res.ok_bind]
  unfold leftVecMultMem
  simp only [nowAt, if_true]
  rw [if_pos (by simp [h.1]; omega)]
  rfl

theorem putCol_eq (out : List R) (j : Nat) (rs : List (List R)) : ∀ pre : List (List R),
    pre.length + rs.length ≤ out.length → (∀ r ∈ rs, j < r.length) →
    putCol out j rs.length pre.length (pre ++ rs) =
      .ok (pre ++ rs.mapIdx fun t row => row.set j (out.getD (pre.length + t) 0)) := by
  induction rs with
  | nil => intro pre _ _; simp [putCol]
  | cons r rs ih =>
    intro pre h1 h2
    simp only [List.length_cons] at h1
    simp only [List.length_cons, putCol]
    have e1 : rd out pre.length = .ok (out.getD pre.length 0) := by
      rw [rd_ok (by omega), List.getD_eq_getElem?_getD, List.getElem?_eq_getElem (by omega)]
      rfl
    have e2 : rd (pre ++ r :: rs) pre.length = .ok r := by
      rw [rd_ok (by simp)]
      simp
    have e3 : wr r j (out.getD pre.length 0) = .ok (r.set j (out.getD pre.length 0)) := by
      unfold wr; rw [if_pos (h2 r (by simp))]
    have e4 : wr (pre ++ r :: rs) pre.length (r.set j (out.getD pre.length 0)) =
        .ok ((pre ++ [r.set j (out.getD pre.length 0)]) ++ rs) := by
      simp [wr]
    rw [e1, Res.ok_bind, e2, Res.ok_bind, e3, Res.ok_bind, e4, Res.ok_bind]
    have := ih (pre ++ [r.set j (out.getD pre.length 0)]) (by simp; omega)
      (fun r hr => h2 r (by simp [hr]))
    simp only [List.length_append, List.length_cons, List.length_nil, Nat.zero_add] at this
    rw [this]
    simp only [List.mapIdx_cons, Nat.add_zero, Res.ok.injEq, List.append_assoc, List.cons_append,
      List.nil_append]
    congr 3
    funext t row
    rw [show pre.length + 1 + t = pre.length + (t + 1) by omega]

theorem putCol_toNMat {n k : Nat} (B : Matrix (Fin n) (Fin k) R) (w : Fin n → R) (j : Fin k) :
    putCol (List.ofFn w) j (List.ofFn w).length 0 (toNMat B).rows =
      .ok (toNMat fun i c => if c = j then w i else B i c).rows := by
  have h := putCol_eq (List.ofFn w) j (toNMat B).rows [] (by simp [toNMat]) (by simp [toNMat])
  have hl : (toNMat B).rows.length = (List.ofFn w).length := by simp [toNMat]
  simp only [List.length_nil, List.nil_append, Nat.zero_add, hl] at h
  rw [h]
  congr 1
  unfold toNMat
  apply List.ext_getElem
  · simp
  · intro i h1 h2
    simp only [List.getElem_mapIdx, List.getElem_ofFn]
    have hi : i < n := by simpa using h2
    apply List.ext_getElem
    · simp
    · intro c h3 h4
      have hc : c < k := by simpa using h4
      rw [List.getElem_set, List.getElem_ofFn, List.getElem_ofFn]
      by_cases hcj : c = j.1
      · subst hcj
        simp [List.getD_eq_getElem?_getD, hi]
      · rw [if_neg (fun h => hcj h.symm), if_neg (fun h => hcj (by rw [← h]))]

theorem rightMatLoop_eq {n m k : Nat} {T : TMat} {M : Matrix (Fin n) (Fin m) ℤ} (h : Holds T M)
    (A0 : Matrix (Fin m) (Fin k) R) (B0 : Matrix (Fin n) (Fin k) R) (shared : Bool) (A : NMat R)
    (hsrc : ∀ (B : Matrix (Fin n) (Fin k) R) (c : Fin k), (∀ i, B i c = B0 i c) →
      mapRes (fun i => do
        let row ← rd (nowAt shared (toNMat B) A).rows i
        rd row c.1) (List.range m) = .ok (List.ofFn fun i => A0 i c)) :
    ∀ c j (out : List R) (B : Matrix (Fin n) (Fin k) R), j + c = k →
      (∀ i (c : Fin k), j ≤ c.1 → B i c = B0 i c) →
      rightMatLoop shared T A m c j out (toNMat B) =
        .ok (toNMat fun i c => if j ≤ c.1 then (castMat R M * A0) i c else B i c) := by
  intro c
  induction c with
  | zero =>
    intro j out B hj _
    unfold rightMatLoop
    congr 2
    funext i c
    rw [if_neg (by omega)]
  | succ c ih =>
    intro j out B hj hB
    unfold rightMatLoop
    have h1 := hsrc B ⟨j, by omega⟩ (fun i => hB i ⟨j, by omega⟩ (le_refl _))
    simp only at h1
    rw [h1, Res.ok_bind, rightVecMultMem_apart, rightVecMult_eq h, Res.ok_bind]
    have h2 := putCol_toNMat B (Matrix.mulVec (castMat R M) fun i => A0 i ⟨j, by omega⟩) ⟨j, by omega⟩
    simp only at h2
    rw [h2, Res.ok_bind]
    have h3 := ih (j + 1) (List.ofFn (Matrix.mulVec (castMat R M) fun i => A0 i ⟨j, by omega⟩))
      (fun i c => if c = (⟨j, by omega⟩ : Fin k) then
        (Matrix.mulVec (castMat R M) fun i => A0 i ⟨j, by omega⟩) i else B i c) (by omega) (by
        intro i c hc
        rw [if_neg (by intro h; subst h; simp at hc)]
        exact hB i c (by omega))
    have e : (⟨(toNMat B).ncols, (toNMat fun i c => if c = (⟨j, by omega⟩ : Fin k) then
        (Matrix.mulVec (castMat R M) fun i => A0 i ⟨j, by omega⟩) i else B i c).rows⟩ : NMat R) =
        toNMat (fun i c => if c = (⟨j, by omega⟩ : Fin k) then
        (Matrix.mulVec (castMat R M) fun i => A0 i ⟨j, by omega⟩) i else B i c) := rfl
    rw [e, h3]
    congr 2
    funext i c
    by_cases h4 : j + 1 ≤ c.1
    · rw [if_pos h4, if_pos (by omega)]
    · rw [if_neg h4]
      by_cases h5 : c = (⟨j, by omega⟩ : Fin k)
      · rw [if_pos h5, if_pos (by rw [h5])]
        rw [h5]
        rfl
      · rw [if_neg h5, if_neg]
        intro h6
        exact h5 (Fin.ext (by simp; omega))

theorem readCol {m k : Nat} (A : Matrix (Fin m) (Fin k) R) (c : Fin k) :
    mapRes (fun i => do
      let row ← rd (toNMat A).rows i
      rd row c.1) (List.range m) = .ok (List.ofFn fun i => A i c) := by
  rw [range_eq_ofFn]
  apply mapRes_ofFn
  intro i
  rw [rd_ok (by simp [toNMat]), Res.ok_bind]
  simp only [toNMat, List.getElem_ofFn]
  rw [rd_ok (by simp)]
  simp

theorem rightMatMultMem_apart {n m k : Nat} {T : TMat} {M : Matrix (Fin n) (Fin m) ℤ}
    (h : Holds T M) {spare : List (List R)} {result : NMat R} (hr : Rect spare result)
    (A : Matrix (Fin m) (Fin k) R) :
    rightMatMultMem false spare result T (toNMat A) = .ok (toNMat (castMat R M * A)) := by
  unfold rightMatMultMem
  simp only [nowAt, Bool.false_eq_true, if_false]
  rw [if_neg (by simp [toNMat, h.2.1]), h.1]
  obtain ⟨B, hB⟩ := matResize_ok hr n k
  have h1 : (toNMat A).ncols = k := rfl
  have h2 : (toNMat A).rows.length = m := by simp [toNMat]
  have h3 : (toNMat B).ncols = k := rfl
  rw [h1, h2, hB, h3, rightMatLoop_eq h A B false (toNMat A) (fun _ c _ => readCol A c) k 0 []
    B (by omega) (fun _ _ _ => rfl)]
  simp

theorem rightMatMultMem_shared {n k : Nat} {T : TMat} {M : Matrix (Fin n) (Fin n) ℤ}
    (h : Holds T M) (spare : List (List R)) (A : Matrix (Fin n) (Fin k) R) :
    rightMatMultMem true spare (toNMat A) T (toNMat A) = .ok (toNMat (castMat R M * A)) := by
  unfold rightMatMultMem
  simp only [nowAt, if_true]
  rw [if_neg (by simp [toNMat, h.2.1]), h.1]
  have h1 : (toNMat A).ncols = k := rfl
  have h2 : (toNMat A).rows.length = n := by simp [toNMat]
  rw [h1, matResize_same, h1, h2, rightMatLoop_eq h A A true (toNMat A) (fun B c hB => by
    have := readCol B c
    simp only [hB] at this
    exact this) k 0 [] A (by omega) (fun _ _ _ => rfl)]
  simp

theorem rightMatMultMem_shared_ne {n m k : Nat} {T : TMat} {M : Matrix (Fin n) (Fin m) ℤ}
    (h : Holds T M) (hk : 0 < k) (hnm : n ≠ m) {spare : List (List R)}
    {A : Matrix (Fin m) (Fin k) R} (hr : Rect spare (toNMat A)) :
    rightMatMultMem true spare (toNMat A) T (toNMat A) = .throw := by
  unfold rightMatMultMem
  simp only [nowAt, if_true]
  rw [if_neg (by simp [toNMat, h.2.1]), h.1]
  obtain ⟨B, hB⟩ := matResize_ok hr n k
  have h1 : (toNMat A).ncols = k := rfl
  have h2 : (toNMat B).rows.length = n := by simp [toNMat]
  have h3 : (toNMat B).ncols = k := rfl
  rw [h1, hB, h2, h3]
  obtain ⟨k, rfl⟩ : ∃ k', k = k' + 1 := ⟨k - 1, by omega⟩
  unfold rightMatLoop
  have := readCol B 0
  simp only [Fin.val_zero] at this
  simp only [nowAt, if_true, this, Res.ok_bind]
  rw [rightVecMultMem_apart]
  unfold rightVecMult
  rw [if_pos (by simp [h.2.1, hnm])]
  rfl

/-! ### TernaryEMatrix -/

theorem hornerNow_apart (X : R) (f : TMat → List R → Res (List R)) (v : List R) (Ms : List TMat) :
    ∀ result, hornerNow false X f v Ms result = hornerLoop X (fun M => f M v) Ms result := by
  induction Ms with
  | nil => intro _; rfl
  | cons M Ms ih => intro _; simp only [hornerNow, hornerLoop, nowAt, ih]; rfl

theorem hornerNowM_apart (X : R) (f : TMat → NMat R → Res (NMat R)) (A : NMat R)
    (Ms : List TMat) :
    ∀ result, hornerNowM false X f A Ms result = hornerLoopM X (fun M => f M A) Ms result := by
  induction Ms with
  | nil => intro _; rfl
  | cons M Ms ih => intro _; simp only [hornerNowM, hornerLoopM, nowAt, ih]; rfl

theorem zeros_ofFn (n : Nat) : List.replicate n (0 : R) = List.ofFn (0 : Fin n → R) := by
  apply List.ext_getElem <;> simp

theorem hornerNow_zero {n : Nat} (X : R) (f : TMat → List R → Res (List R)) (v : List R)
    (Ms : List TMat) (hf : ∀ M ∈ Ms, f M (List.replicate n 0) = .ok (List.replicate n 0)) :
    hornerNow true X f v Ms (List.replicate n 0) = .ok (List.replicate n 0) := by
  induction Ms with
  | nil => rfl
  | cons M Ms ih =>
    unfold hornerNow
    simp only [nowAt, if_true]
    rw [hf M (by simp), Res.ok_bind, zeros_ofFn, vecScale_ofFn, vecAdd_ofFn, Res.ok_bind]
    have : X • (0 : Fin n → R) + 0 = 0 := by simp
    rw [this, ← zeros_ofFn]
    exact ih (fun M hM => hf M (by simp [hM]))

theorem hornerNowM_zero {k n : Nat} (X : R) (f : TMat → NMat R → Res (NMat R)) (A : NMat R)
    (Ms : List TMat)
    (hf : ∀ M ∈ Ms, f M (toNMat (0 : Matrix (Fin k) (Fin n) R)) =
      .ok (toNMat (0 : Matrix (Fin k) (Fin n) R))) :
    hornerNowM true X f A Ms (toNMat (0 : Matrix (Fin k) (Fin n) R)) =
      .ok (toNMat (0 : Matrix (Fin k) (Fin n) R)) := by
  induction Ms with
  | nil => rfl
  | cons M Ms ih =>
    unfold hornerNowM
    simp only [nowAt, if_true]
    rw [hf M (by simp), Res.ok_bind, nmScale_toNMat, nmAdd_toNMat, Res.ok_bind]
    have : X • (0 : Matrix (Fin k) (Fin n) R) + 0 = 0 := by simp
    rw [this]
    exact ih (fun M hM => hf M (by simp [hM]))

/-- the loop of the in-place product: each step multiplies by `X + M_i` from the left -/
theorem hornerNowM_prod {n k : Nat} (X : R) (A : NMat R) {Ms : List TMat}
    {g : List (Matrix (Fin n) (Fin n) ℤ)} (h : List.Forall₂ (fun T M => Holds T M) Ms g) :
    ∀ B : Matrix (Fin n) (Fin k) R,
      hornerNowM true X (fun M B => rightMatMultMem false [] ⟨0, []⟩ M B) A Ms (toNMat B) =
        .ok (toNMat ((g.reverse.map fun M => X • (1 : Matrix (Fin n) (Fin n) R) + castMat R M).prod
          * B)) := by
  induction h with
  | nil => intro B; simp [hornerNowM]
  | @cons T M Ms g h1 _ ih =>
    intro B
    unfold hornerNowM
    simp only [nowAt, if_true]
    rw [rightMatMultMem_apart h1 (by intro r hr; simp at hr), Res.ok_bind, nmScale_toNMat,
      nmAdd_toNMat, Res.ok_bind, ih]
    congr 2
    simp only [List.reverse_cons, List.map_append, List.map_cons, List.map_nil, List.prod_append,
      List.prod_cons, List.prod_nil, mul_one]
    rw [Matrix.mul_assoc, Matrix.add_mul, Matrix.smul_mul, Matrix.one_mul]

end Verif
